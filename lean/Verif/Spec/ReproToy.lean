import Verif.Spec.Repro
import Verif.Spec.ReaderToy

/-! # A concrete UCT search with seeded random numbers (for C105) -/

namespace Verif.Prog.SeedToy

open Verif.Search Verif.LockLevel Verif.Uct

/-- Two moves with two actions each; the reward is the action. -/
def env : Env Nat Nat ℚ where
  isSink s := decide (2 ≤ s)
  actions _ := [0, 1]
  succ s _ := [s + 1]
  reward _ a _ := a

/-- Every trial goes to the end. -/
def mgr : Manager Nat ℚ where
  maxDepth := 2
  mctsMode := false
  twoPlayer := false
  useTable := false
  numMutexes := 1
  heuristic := none

/-- UCT that takes random actions. -/
abbrev alg := uct ReadToy.cfg mgr
abbrev code := uctCode ReadToy.cfg

abbrev F := FSt Nat Nat ℚ (Stats ℚ) (Stats ℚ)

/-- The random actions: 0, 0, 1, 1, 0, 0, 1, 1, ... -/
def draw (k : Nat) : Nat := k / 2 % 2

/-- How many actions have been drawn. -/
def drawn (ms : List (Nat × FChoice Nat Nat)) : Nat := ms.countP fun p => match p.2 with | .act _ => true | _ => false

/-- What worker `i` does next in state `f`, if `k` actions have been drawn. -/
def choice (f : F) (i k : Nat) : FChoice Nat Nat :=
  match f.ws[i]? with
  | some (.vis (.sel _ _ _ _)) => .act (draw k)
  | some (.vis (.samp cur _ _ _ _ _)) => .obs (((f.dn[cur]?).map fun nd => nd.state + 1).getD 0)
  | _ => .go

/-- The fixed rule: the state follows from the moves made. -/
def pick (n : Nat) (ms : List (Nat × FChoice Nat Nat)) (i : Nat) : FChoice Nat Nat :=
  match fexec env mgr LockLevel.Toy.hash alg code (finit env mgr alg n 0 0 0 []) [] ms with
  | some (f, _) => choice f i (drawn ms)
  | none => .go

/-- The moves if the workers take their turns as given. -/
def gen (f : F) (k : Nat) : List Nat → List (Nat × FChoice Nat Nat)
  | [] => []
  | i :: is =>
    match fstep env mgr LockLevel.Toy.hash alg code f i (choice f i k) with
    | none => []
    | some (f', _) => (i, choice f i k) :: gen f' (match choice f i k with | .act _ => k + 1 | _ => k) is

/-- The moves of `n` workers from the beginning. -/
def play (n : Nat) (is : List Nat) : List (Nat × FChoice Nat Nat) := gen (finit env mgr alg n 0 0 0 []) 0 is

end Verif.Prog.SeedToy
