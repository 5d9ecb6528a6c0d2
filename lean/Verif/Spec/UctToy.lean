import Verif.Spec.Uct
import Verif.Spec.Search
import Mathlib.Data.Rat.Defs
import Mathlib.Algebra.Order.Ring.Unbundled.Rat
import Mathlib.Algebra.Field.Rat

/-! # A concrete UCT search over the rationals, for non-vacuity examples -/

namespace Verif.Uct.Toy

open Verif.Search Verif.Uct

/-- States count up; from `s` both actions may lead to `s + 1` or `s + 2`; sink from 4 on. -/
def env : Env Nat Nat ℚ where
  isSink s := decide (4 ≤ s)
  actions _ := [0, 1]
  succ s _ := [s + 1, s + 2]
  reward s a o := 10 * s + 3 * a + o

def mgr : Manager Nat ℚ where
  maxDepth := 3
  mctsMode := true
  twoPlayer := true
  useTable := false
  numMutexes := 1
  heuristic := some (fun s => 100 + s)

def cfg (bias : ℚ) (pseudo : Nat) : Cfg Nat Nat ℚ where
  bias := bias
  pseudo := pseudo
  mostVisited := true
  epsilon := 0
  prior := none
  term N n := N / (n + 1)
  low := -1000000

/-- Three trials of two workers, the first two interleaved: both actions of the root are tried, then one is repeated. -/
def sched (a : Nat) : List (Nat × Choice Nat Nat) :=
  [(0, .go), (1, .go), (0, .act 0), (1, .act 1), (0, .obs 1), (1, .obs 2), (0, .go), (1, .go),
   (0, .go), (1, .go), (1, .go), (0, .go), (0, .go), (1, .go),
   (0, .go), (0, .act a), (0, .obs 1)]

def final (bias : ℚ) (pseudo a : Nat) : Option (St Nat Nat ℚ (Stats ℚ) (Stats ℚ) × List (Event Nat Nat ℚ)) :=
  execFrom env mgr (uct (cfg bias pseudo) mgr) (init env mgr (uct (cfg bias pseudo) mgr) 2 0 0 0 []) [] (sched a)

/-- Evaluate the schedule and check a decidable property of the outcome. -/
theorem run (bias : ℚ) (pseudo a : Nat) (P : St Nat Nat ℚ (Stats ℚ) (Stats ℚ) → List (Event Nat Nat ℚ) → Bool)
    (h : ((final bias pseudo a).any (fun p => P p.1 p.2)) = true) :
    ∃ st h, Reachable env mgr (uct (cfg bias pseudo) mgr) 2 0 0 0 [] st h ∧ P st h = true := by
  cases hf : final bias pseudo a with
  | none => rw [hf] at h; simp at h
  | some p => rw [hf] at h; exact ⟨p.1, p.2, ⟨_, hf⟩, by simpa using h⟩

end Verif.Uct.Toy
