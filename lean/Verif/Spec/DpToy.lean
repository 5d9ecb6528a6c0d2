import Verif.Spec.UctToy
import Verif.Spec.Backups

/-! # A concrete search with DP values over the rationals, for non-vacuity examples -/

namespace Verif.Backups.Toy

open Verif.Search Verif.Uct Verif.Backups

/-- The least algorithm with DP values: any valid action may be selected. -/
def alg (lr : Nat → Nat → ℚ) : Alg Nat Nat ℚ (Dp ℚ) (Dp ℚ) where
  initVisits := 0
  initD _ _ _ h := dpInitD h
  initC _ _ _ _ := dpInitC
  visitD leaf x := dpVisit leaf x
  visitC y := y
  canSelect v _ a := decide (a ∈ v.actions)
  backupD v _ _ := dpBackupD v.opp (v.kids.map fun k => k.2.2) v.x
  backupC s a y kids _ := dpBackupC (lr s a) (kids.map fun k => k.2) y

def lr : Nat → Nat → ℚ := fun s a => 10 * s + 3 * a

theorem hasDp : HasDp (alg lr) id id lr := ⟨fun _ _ _ _ => rfl, fun _ _ _ _ => rfl, fun _ _ => rfl, fun _ => rfl, fun _ _ _ => rfl, fun _ _ _ _ _ => rfl⟩

theorem valid : (alg lr).Valid := by
  intro v _ a h
  simpa [alg] using h

/-- Three trials of two workers, the first two interleaved, run to completion. -/
def sched : List (Nat × Choice Nat Nat) :=
  [(0, .go), (1, .go), (0, .act 0), (1, .act 1), (0, .obs 1), (1, .obs 2), (0, .go), (1, .go),
   (0, .go), (1, .go), (1, .go), (0, .go), (0, .go), (1, .go),
   (0, .go), (0, .act 1), (0, .obs 2), (0, .act 0), (0, .obs 4), (0, .go), (0, .go), (0, .go), (0, .go), (0, .go), (0, .go)]

def final : Option (St Nat Nat ℚ (Dp ℚ) (Dp ℚ) × List (Event Nat Nat ℚ)) :=
  execFrom Uct.Toy.env Uct.Toy.mgr (alg lr) (init Uct.Toy.env Uct.Toy.mgr (alg lr) 2 0 0 0 []) [] sched

theorem run (P : St Nat Nat ℚ (Dp ℚ) (Dp ℚ) → List (Event Nat Nat ℚ) → Bool) (h : (final.any (fun p => P p.1 p.2)) = true) :
    ∃ st h, Reachable Uct.Toy.env Uct.Toy.mgr (alg lr) 2 0 0 0 [] st h ∧ P st h = true := by
  cases hf : final with
  | none => rw [hf] at h; simp at h
  | some p => rw [hf] at h; exact ⟨p.1, p.2, ⟨_, hf⟩, by simpa using h⟩

end Verif.Backups.Toy

namespace Verif.Backups.Det

open Verif.Search Verif.Backups

/-- A deterministic game: from `s` action `a` leads to `2 s + a + 1`. -/
def next (s a : Nat) : Nat := 2 * s + a + 1

def env : Env Nat Nat ℚ where
  isSink s := decide (5 ≤ s)
  actions _ := [0, 1]
  succ s a := [next s a]
  reward s a o := 7 * s - 3 * a + o

/-- The opponent moves second. -/
def mgr : Manager Nat ℚ where
  maxDepth := 2
  mctsMode := false
  twoPlayer := true
  useTable := false
  numMutexes := 1
  heuristic := some (fun s => if s % 2 = 0 then 100 else 50)

def lr : Nat → Nat → ℚ := fun s a => env.reward s a (next s a)

/-- Two workers with two trials each that try everything; the first trials are interleaved. -/
def sched : List (Nat × Choice Nat Nat) :=
  [(0, .go), (1, .go), (0, .act 0), (1, .act 1), (0, .obs 1), (1, .obs 2), (0, .act 0), (1, .act 0), (1, .obs 5), (0, .obs 3)] ++
  List.replicate 6 (1, .go) ++ [(1, .go), (1, .act 1), (1, .obs 2)] ++ List.replicate 6 (0, .go) ++
  [(0, .go), (0, .act 0), (0, .obs 1), (1, .act 1), (0, .act 1), (0, .obs 4), (1, .obs 6)] ++
  List.replicate 6 (0, .go) ++ List.replicate 6 (1, .go)

def final : Option (St Nat Nat ℚ (Dp ℚ) (Dp ℚ) × List (Event Nat Nat ℚ)) :=
  execFrom env mgr (Toy.alg lr) (init env mgr (Toy.alg lr) 2 0 0 0 []) [] sched

theorem run (P : St Nat Nat ℚ (Dp ℚ) (Dp ℚ) → List (Event Nat Nat ℚ) → Bool) (h : (final.any (fun p => P p.1 p.2)) = true) :
    ∃ st h, Reachable env mgr (Toy.alg lr) 2 0 0 0 [] st h ∧ P st h = true := by
  cases hf : final with
  | none => rw [hf] at h; simp at h
  | some p => rw [hf] at h; exact ⟨p.1, p.2, ⟨_, hf⟩, by simpa using h⟩

end Verif.Backups.Det
