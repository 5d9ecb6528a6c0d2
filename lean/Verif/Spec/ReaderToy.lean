import Verif.Spec.Reader
import Verif.Model.LockAlgs
import Verif.Spec.UctToy
import Verif.Spec.LockToy

/-! # A concrete UCT search, one trial after the other, at the level of locks (for C103) -/

namespace Verif.Prog.ReadToy

open Verif.Search Verif.LockLevel Verif.Uct

/-- One move with two actions, of reward 0 and 1. -/
def env : Env Nat Nat ℚ where
  isSink s := decide (1 ≤ s)
  actions _ := [0, 1]
  succ _ _ := [1]
  reward _ a _ := a

def mgr : Manager Nat ℚ where
  maxDepth := 1
  mctsMode := true
  twoPlayer := false
  useTable := false
  numMutexes := 1
  heuristic := none

/-- UCT that takes random actions, and recommends the most visited one. -/
def cfg : Uct.Cfg Nat Nat ℚ where
  bias := 1
  pseudo := 0
  mostVisited := true
  epsilon := 1 / 2
  prior := none
  term N n := N / (n + 1)
  low := -1000000

abbrev alg := uct cfg mgr
abbrev code := uctCode cfg

abbrev F := FSt Nat Nat ℚ (Stats ℚ) (Stats ℚ)

/-- A trial of worker 0 whose action `a` is new. -/
def newTrial (a : Nat) : List (Nat × FChoice Nat Nat) :=
  List.replicate 3 (0, .go) ++ [(0, .act a)] ++ List.replicate 5 (0, .go) ++ [(0, .obs 1)] ++ List.replicate 18 (0, .go)

/-- A trial of worker 0 whose action `a` has been tried before. -/
def oldTrial (a : Nat) : List (Nat × FChoice Nat Nat) :=
  List.replicate 3 (0, .go) ++ [(0, .act a)] ++ List.replicate 4 (0, .go) ++ [(0, .obs 1)] ++ List.replicate 17 (0, .go)

/-- Run a schedule from the beginning, or from a given state. -/
def start (ls : List (Nat × FChoice Nat Nat)) : Option (F × List (Search.Event Nat Nat ℚ)) :=
  fexec env mgr LockLevel.Toy.hash alg code (finit env mgr alg 1 0 0 0 []) [] ls
def goOn (p : F × List (Search.Event Nat Nat ℚ)) (ls : List (Nat × FChoice Nat Nat)) : Option (F × List (Search.Event Nat Nat ℚ)) :=
  fexec env mgr LockLevel.Toy.hash alg code p.1 p.2 ls

/-- Three trials: action 0 twice, action 1 once. -/
def first : List (Nat × FChoice Nat Nat) := newTrial 0 ++ oldTrial 0 ++ newTrial 1
/-- Four more trials: each action twice. -/
def second : List (Nat × FChoice Nat Nat) := oldTrial 0 ++ oldTrial 1 ++ oldTrial 0 ++ oldTrial 1

end Verif.Prog.ReadToy
