import Verif.Spec.Search

/-! # The returns a node has received, read off the history of trial events -/

namespace Verif.Search

variable {S A R : Type}

/-- The returns (after the node) of the trials that were backed up through decision node `d`, newest first. -/
def returnsD (d : Nat) (h : List (Event S A R)) : List R :=
  h.filterMap fun e => match e with | .backedD _ d' args => if d' = d then some args.retAfter else none | _ => none

/-- The returns (after the node) of the trials that were backed up through chance node `c`, newest first. -/
def returnsC (c : Nat) (h : List (Event S A R)) : List R :=
  h.filterMap fun e => match e with | .backedC _ c' args => if c' = c then some args.retAfter else none | _ => none

end Verif.Search
