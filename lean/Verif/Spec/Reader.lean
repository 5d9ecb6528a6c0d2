import Verif.Model.Reader
import Verif.Spec.Program

/-! # Vocabulary for reading the results of a search (C103) -/

namespace Verif.Prog

variable {S A R X Y : Type}

/-- The client is not inside `run_trials`, and `join` has returned since the last call (or there was none). -/
def AtRest (s : St S A R X Y) (h : List (Event S A R)) : Prop := s.entry = none ∧ Pool.settled (poolPart h) = true

/-- The client calls `run_trials`. -/
def Label.isEnter : Label S A → Bool
  | .enter _ _ _ => true
  | _ => false

/-- A data race of a thread that reads `ls` without locks: a worker is about to write one of these locations. -/
def ReadRace (f : LockLevel.FSt S A R X Y) (ls : List LockLevel.Loc) : Prop :=
  ∃ (w : Nat) (pc : LockLevel.Pc S A R X Y) (l : LockLevel.Loc), f.ws[w]? = some pc ∧ l ∈ ls ∧ (l, true) ∈ LockLevel.accesses pc

/-- Two views of a node that agree on everything a loop over the valid actions asks for. -/
structure SameView [DecidableEq A] (v w : Search.View S A X Y) : Prop where
  state : v.state = w.state
  depth : v.depth = w.depth
  time : v.time = w.time
  opp : v.opp = w.opp
  visits : v.visits = w.visits
  x : v.x = w.x
  actions : v.actions = w.actions
  kids : ∀ a ∈ w.actions, Search.find? a v.kids = Search.find? a w.kids

end Verif.Prog
