import Verif.Model.FpSearch
import Verif.Spec.Tree
import Verif.Spec.Fp

/-! # Searches with doubles: the algorithms meant, and their environments -/

namespace Verif.Backups

open Verif.Search

/-- The algorithm keeps DP values as `HasDp` says, but a chance node's value is the function `mean` of its state, its action and of the counts and values of its children. -/
structure HasDpW {S A 𝕜 X Y : Type} [DecidableEq S] [DecidableEq A] [Field 𝕜] [LinearOrder 𝕜] (alg : Alg S A 𝕜 X Y) (px : X → Dp 𝕜) (py : Y → Dp 𝕜)
    (mean : S → A → List (Nat × 𝕜) → 𝕜) : Prop where
  initD : ∀ s dep tim h, px (alg.initD s dep tim h) = dpInitD h
  initC : ∀ s a dep tim, py (alg.initC s a dep tim) = dpInitC
  visitD : ∀ leaf x, px (alg.visitD leaf x) = dpVisit leaf (px x)
  visitC : ∀ y, py (alg.visitC y) = py y
  backupD : ∀ v ctx args, px (alg.backupD v ctx args) = dpBackupD v.opp (v.kids.map fun k => py k.2.2) (px v.x)
  backupC : ∀ s a y kids args, py (alg.backupC s a y kids args) =
    { n := (py y).n + 1, val := (finiteKids (kids.map fun k => px k.2)).map (mean s a) }

end Verif.Backups

namespace Verif.Fp

open Verif.Search Verif.Backups
open Verif.Uct (Stats)

variable {S A X Y : Type} [DecidableEq S] [DecidableEq A]

/-- The algorithm keeps DP values, computed in doubles, in the parts `px` and `py` of its data (it derives from `DPDNode` and `DPCNode`). -/
structure HasFpDp (alg : Alg S A ℚ X Y) (px : X → Dp ℚ) (py : Y → Dp ℚ) (lr : S → A → ℚ) : Prop where
  initD : ∀ s dep tim h, px (alg.initD s dep tim h) = dpInitD h
  initC : ∀ s a dep tim, py (alg.initC s a dep tim) = dpInitC
  visitD : ∀ leaf x, px (alg.visitD leaf x) = dpVisit leaf (px x)
  visitC : ∀ y, py (alg.visitC y) = py y
  backupD : ∀ v ctx args, px (alg.backupD v ctx args) = dpBackupD v.opp (v.kids.map fun k => py k.2.2) (px v.x)
  backupC : ∀ s a y kids args, py (alg.backupC s a y kids args) = dpBackupC (lr s a) (kids.map fun k => px k.2) (py y)

/-- The algorithm keeps average returns, computed in doubles, in the parts `px` and `py` of its data (UCT, PUCT, and `EmpNode`); `pseudo` is the number of pseudo trials
with the heuristic value. -/
structure HasFpAvg (alg : Alg S A ℚ X Y) (px : X → Stats ℚ) (py : Y → Stats ℚ) (pseudo : Nat) : Prop where
  initD : ∀ s dep tim h, px (alg.initD s dep tim h) = ⟨pseudo, h⟩
  initC : ∀ s a dep tim, py (alg.initC s a dep tim) = ⟨0, 0⟩
  visitD : ∀ leaf x, px (alg.visitD leaf x) = px x
  visitC : ∀ y, py (alg.visitC y) = py y
  backupD : ∀ v ctx args, px (alg.backupD v ctx args) = backupAvg (px v.x) (sumAfter args.after)
  backupC : ∀ s a y kids args, py (alg.backupC s a y kids args) = backupAvg (py y) (sumAfter args.after)

/-- All rewards and heuristic values are doubles of size at most `ρ`. -/
structure FpBounded (env : Env S A ℚ) (m : Manager S ℚ) (ρ : ℚ) : Prop where
  reward : ∀ s a o, a ∈ env.actions s → o ∈ env.succ s a → IsDouble (env.reward s a o) ∧ |env.reward s a o| ≤ ρ
  heur : ∀ s, IsDouble (heurOf env m s) ∧ |heurOf env m s| ≤ ρ

/-- Bound of C91 on the error of an average of `N` returns (including pseudo trials) of at most `L` rewards of size at most `ρ`; `M` is at least twice the largest
exact return. -/
def avgError (L N : Nat) (ρ M : ℚ) : ℚ := L * (L + 3) * (unit * ρ) + ((10 + (N + 1) / 2) * unit * M + (N + 1) / 2 * tiny)

/-- Bound of C91 on the error of a DP value per level, with at most `K` successors of a state and an action, `D` levels and rewards of size at most `ρ`. -/
def dpError (K D : Nat) (ρ : ℚ) : ℚ := (8 * K + 3) * (unit * (2 * (D + 1) * ρ))

/-- The value of an action in a deterministic game: the reward plus the value of the game after it, with `n` moves to go then. -/
def moveValue (env : Env S A ℚ) (m : Manager S ℚ) (next : S → A → S) (n : Nat) (t : Int) (s : S) (a : A) : ℚ :=
  env.reward s a (next s a) + gameValue env m next n (t + 1) (next s a)

/-- Action `a` is within `ε` of optimal for the player to move in state `s` at timestep `t`. -/
def NearBest (env : Env S A ℚ) (m : Manager S ℚ) (next : S → A → S) (n : Nat) (t : Int) (s : S) (a : A) (ε : ℚ) : Prop :=
  ∀ b ∈ env.actions s, if isOpponent m t then moveValue env m next n t s a ≤ moveValue env m next n t s b + ε
    else moveValue env m next n t s b - ε ≤ moveValue env m next n t s a

end Verif.Fp

namespace Verif.Fp.Toy

open Verif.Search Verif.Backups Verif.Fp

/-! A deterministic game with rewards that are not exactly representable, for non-vacuity examples -/

def next (s a : Nat) : Nat := if s ≤ 6 then 2 * s + a + 1 else s

def env : Env Nat Nat ℚ where
  isSink s := decide (7 ≤ s)
  actions _ := [0, 1]
  succ s a := [next s a]
  reward s a _ := if s ≤ 6 then fl ((7 * s - 3 * a) / 100) else 0

/-- The opponent moves second. -/
def mgr : Manager Nat ℚ where
  maxDepth := 2
  mctsMode := false
  twoPlayer := true
  useTable := false
  numMutexes := 1
  heuristic := some (fun s => if s % 2 = 0 then fl (1 / 3) else fl (1 / 7))

def lr : Nat → Nat → ℚ := fun s a => env.reward s a (next s a)

/-- Two workers with three trials each that try everything; the first trials are interleaved. -/
def sched : List (Nat × Choice Nat Nat) :=
  [(0, .go), (1, .go), (0, .act 0), (1, .act 1), (0, .obs 1), (1, .obs 2), (0, .act 0), (1, .act 0), (1, .obs 5), (0, .obs 3)] ++
  List.replicate 6 (1, .go) ++ [(1, .go), (1, .act 1), (1, .obs 2)] ++ List.replicate 6 (0, .go) ++
  [(0, .go), (0, .act 0), (0, .obs 1), (1, .act 1), (0, .act 1), (0, .obs 4), (1, .obs 6)] ++
  List.replicate 6 (0, .go) ++ List.replicate 6 (1, .go) ++
  [(0, .go), (0, .act 0), (0, .obs 1), (0, .act 1), (0, .obs 4)] ++ List.replicate 6 (0, .go) ++
  [(1, .go), (1, .act 0), (1, .obs 1), (1, .act 1), (1, .obs 4)] ++ List.replicate 6 (1, .go)

def final : Option (St Nat Nat ℚ (Dp ℚ) (Dp ℚ) × List (Event Nat Nat ℚ)) :=
  execFrom env mgr (dpAlg lr) (init env mgr (dpAlg lr) 2 0 0 0 []) [] sched

theorem run (P : St Nat Nat ℚ (Dp ℚ) (Dp ℚ) → List (Event Nat Nat ℚ) → Bool) (h : (final.any (fun p => P p.1 p.2)) = true) :
    ∃ st h, Reachable env mgr (dpAlg lr) 2 0 0 0 [] st h ∧ P st h = true := by
  cases hf : final with
  | none => rw [hf] at h; simp at h
  | some p => rw [hf] at h; exact ⟨p.1, p.2, ⟨_, hf⟩, by simpa using h⟩

def finalAvg : Option (St Nat Nat ℚ (Uct.Stats ℚ) (Uct.Stats ℚ) × List (Event Nat Nat ℚ)) :=
  execFrom env mgr (avgAlg 0) (init env mgr (avgAlg 0) 2 0 0 0 []) [] sched

theorem runAvg (P : St Nat Nat ℚ (Uct.Stats ℚ) (Uct.Stats ℚ) → List (Event Nat Nat ℚ) → Bool) (h : (finalAvg.any (fun p => P p.1 p.2)) = true) :
    ∃ st h, Reachable env mgr (avgAlg 0) 2 0 0 0 [] st h ∧ P st h = true := by
  cases hf : finalAvg with
  | none => rw [hf] at h; simp at h
  | some p => rw [hf] at h; exact ⟨p.1, p.2, ⟨_, hf⟩, by simpa using h⟩

end Verif.Fp.Toy
