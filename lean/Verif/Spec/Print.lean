import Verif.Model.Print
import Verif.Spec.Search

/-!
# What a printed tree should show
-/

namespace Verif.Print

open Verif.Search

variable {S A R X Y : Type} [DecidableEq S] [DecidableEq A]

/-- Decision node `e` can be reached from decision node `d` in the tree by exactly `n` actions (and observations). -/
inductive After (st : St S A R X Y) : Nat → Nat → Nat → Prop where
  | here {d} : After st 0 d d
  | step {n d a c o e f} (h1 : childC st d a = some c) (h2 : childD st c o = some e) (h3 : After st n e f) : After st (n + 1) d f

/-- Decision nodes shown, in order. -/
def shownD (ts : List (Tok S A)) : List Nat :=
  ts.filterMap (fun t => match t with | .node true i _ _ => some i | _ => none)

/-- Chance nodes shown, in order. -/
def shownC (ts : List (Tok S A)) : List Nat :=
  ts.filterMap (fun t => match t with | .node false i _ _ => some i | _ => none)

/-- Decision nodes for which `...` is printed instead of what is below them. -/
def cutOff (ts : List (Tok S A)) : List Nat :=
  ts.filterMap (fun t => match t with | .dots i => some i | _ => none)

/-- Square brackets match: no prefix closes more than it opened, and all are closed in the end. -/
def Balanced (cs : List Char) : Prop :=
  (∀ p, p <+: cs → p.count ']' ≤ p.count '[') ∧ cs.count '[' = cs.count ']'

/-- A text without square brackets. -/
def NoBrackets (cs : List Char) : Prop := '[' ∉ cs ∧ ']' ∉ cs

end Verif.Print
