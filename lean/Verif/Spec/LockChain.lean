import Verif.Spec.LockLevel

/-! # A chain of three states, and a schedule in which two backups overlap -/

namespace Verif.LockLevel

open Verif.Search

namespace Chain

/-- 0 → 1 → 2, one action, every step gives reward `r`; 2 is a sink. -/
def env {R : Type} (r : R) : Env Nat Nat R where
  isSink s := s == 2
  actions s := if s = 2 then [] else [0]
  succ s _ := [s + 1]
  reward _ _ _ := r

/-- A trial ends when it has added a node (`mcts_mode`). -/
def mgr {R : Type} : Manager Nat R where
  maxDepth := 5
  mctsMode := true
  twoPlayer := false
  useTable := false
  numMutexes := 0
  heuristic := none

def hash (_ : Int × Nat) : Nat := 0

def g (w n : Nat) : List (Nat × FChoice Nat Nat) := List.replicate n (w, .go)

/-- Worker 0 visits states 0 and 1. -/
def down0 : List (Nat × FChoice Nat Nat) :=
  g 0 3 ++ [(0, .order [])] ++ g 0 1 ++ [(0, .act 0)] ++ g 0 5 ++ [(0, .obs 1)] ++ g 0 7

/-- Worker 1 visits states 0, 1 and 2. -/
def down1 : List (Nat × FChoice Nat Nat) :=
  g 1 3 ++ [(1, .order [0])] ++ g 1 3 ++ [(1, .act 0)] ++ g 1 5 ++ [(1, .obs 1)] ++ g 1 4 ++
  [(1, .order [])] ++ g 1 1 ++ [(1, .act 0)] ++ g 1 5 ++ [(1, .obs 2)] ++ g 1 7

/-- Two rounds of reading one child. -/
def first (w k : Nat) : List (Nat × FChoice Nat Nat) := g w 1 ++ [(w, .order [k])] ++ g w 5
def second (w k : Nat) : List (Nat × FChoice Nat Nat) := [(w, .order [k])] ++ g w 8

/-- Worker 1 backs up the lower chance node, worker 0 begins to back up the upper one, worker 1 backs up the decision node
in between, worker 0 goes on. -/
def sched : List (Nat × FChoice Nat Nat) :=
  down0 ++ down1 ++ (first 1 2 ++ second 1 2) ++ first 0 1 ++ (first 1 1 ++ second 1 1) ++ second 0 1

end Chain

end Verif.LockLevel
