import Verif.Spec.LockFree

/-! # Two nodes that share their successors, and a schedule in which two backups wait for each other -/

namespace Verif.LockLevel

open Verif.Search

namespace Diamond

/-- 0 → 1 or 2, both of them → 3 or 4, which are sinks; one action, every step gives reward `r`. -/
def env {R : Type} (r : R) : Env Nat Nat R where
  isSink s := decide (3 ≤ s)
  actions s := if 3 ≤ s then [] else [0]
  succ s _ := if s = 0 then [1, 2] else [3, 4]
  reward _ _ _ := r

/-- With the transposition table and one mutex for it. -/
def mgr {R : Type} : Manager Nat R where
  maxDepth := 2
  mctsMode := false
  twoPlayer := false
  useTable := true
  numMutexes := 1
  heuristic := none

/-- The whole blocks of a trial of worker `w` along the states `o`, `o'`, up to the backups. -/
def down (w o o' : Nat) : List (Nat × Choice Nat Nat) :=
  [(w, .go), (w, .act 0), (w, .obs o), (w, .act 0), (w, .obs o'), (w, .go)]

/-- Worker 0 runs a trial to state 3 below state 1 and one to state 4; worker 1 runs a trial to state 4 below state 2 and one to state 3.
The second trial of each has not been backed up. -/
def blocks : List (Nat × Choice Nat Nat) :=
  down 0 1 3 ++ List.replicate 5 (0, .go) ++ down 1 2 4 ++ List.replicate 5 (1, .go) ++ down 0 1 4 ++ down 1 2 3

/-- Each worker enters its backup of the chance node and locks the first child: the child of worker 0 is the last one of worker 1. -/
def meet : List (Nat × FChoice Nat Nat) :=
  [(0, .go), (0, .order [2, 4]), (0, .go), (1, .go), (1, .order [4, 2]), (1, .go)]

end Diamond

end Verif.LockLevel
