import Verif.Proofs.SearchTree

/-! # A concrete search, for non-vacuity examples and counterexamples -/

namespace Verif.Search

namespace Toy

/-- States count up; from `s` both actions may lead to `s + 1` or `s + 2`; sink from 4 on. -/
def env : Env Nat Nat Int where
  isSink s := decide (4 ≤ s)
  actions _ := [0, 1]
  succ s _ := [s + 1, s + 2]
  reward s a o := 10 * s + 3 * a + o

def mgr (mcts table : Bool) (mutexes : Nat) : Manager Nat Int where
  maxDepth := 3
  mctsMode := mcts
  twoPlayer := true
  useTable := table
  numMutexes := mutexes
  heuristic := some (fun s => 100 + s)

/-- An algorithm without data that may select any valid action. -/
def alg : Alg Nat Nat Int Unit Unit where
  initVisits := 0
  initD _ _ _ _ := ()
  initC _ _ _ _ := ()
  visitD _ x := x
  visitC y := y
  canSelect v _ a := decide (a ∈ v.actions)
  backupD v _ _ := v.x
  backupC _ _ y _ _ := y

theorem alg_valid : alg.Valid := by intro v a h; simpa [alg] using h

/-- Two interleaved trials without mcts mode: worker 0 goes 0 →(0) 1 →(1) 3 →(0) 4, worker 1 goes 0 →(0) 2 →(0) 3 →(1) 5. -/
def sched : List (Nat × Choice Nat Nat) :=
  [(0, .go), (1, .go), (0, .act 0), (1, .act 0), (0, .obs 1), (1, .obs 2), (0, .act 1), (1, .act 0), (0, .obs 3), (1, .obs 3),
   (0, .act 0), (1, .act 1), (0, .obs 4), (1, .obs 5), (0, .go), (1, .go)] ++
  List.replicate 7 (0, .go) ++ List.replicate 7 (1, .go)

def final (mcts table : Bool) (mutexes : Nat) (tb : List ((Int × Nat) × Option Nat)) (ls : List (Nat × Choice Nat Nat)) :
    Option (St Nat Nat Int Unit Unit × List (Event Nat Nat Int)) :=
  execFrom env (mgr mcts table mutexes) alg (init env (mgr mcts table mutexes) alg 2 0 0 0 tb) [] ls

/-- Evaluate a schedule and check a decidable property of the outcome. -/
theorem run {mcts table : Bool} {mutexes : Nat} {tb : List ((Int × Nat) × Option Nat)} (ls : List (Nat × Choice Nat Nat))
    (P : St Nat Nat Int Unit Unit → List (Event Nat Nat Int) → Bool)
    (h : ((final mcts table mutexes tb ls).any (fun p => P p.1 p.2)) = true) :
    ∃ st h, Reachable env (mgr mcts table mutexes) alg 2 0 0 0 tb st h ∧ P st h = true := by
  cases hf : final mcts table mutexes tb ls with
  | none => rw [hf] at h; simp at h
  | some p => rw [hf] at h; exact ⟨p.1, p.2, ⟨ls, hf⟩, by simpa using h⟩

end Toy

end Verif.Search
