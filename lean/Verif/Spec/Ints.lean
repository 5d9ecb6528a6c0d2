import Verif.Spec.Search

/-! # Integers of the program (C92)

The model's counters are unbounded; the program's are `int`s. -/

namespace Verif.Search

/-- The value can be represented by an `int` (32 bits); a computation whose result cannot has undefined behaviour. -/
def FitsInt (z : Int) : Prop := -2 ^ 31 ≤ z ∧ z ≤ 2 ^ 31 - 1

instance (z : Int) : Decidable (FitsInt z) := inferInstanceAs (Decidable (_ ∧ _))

variable {S A R X Y : Type}

/-- `cd` and `cc` are counters in the data of the nodes, such as `num_backups`: they start with at most `c0`, a visit to a leaf and a backup add at most one each
and nothing else changes them. -/
structure IsCounter [DecidableEq S] [DecidableEq A] (alg : Alg S A R X Y) (cd : X → Nat) (cc : Y → Nat) (c0 : Nat) : Prop where
  initD : ∀ s dep tim h, cd (alg.initD s dep tim h) ≤ c0
  initC : ∀ s a dep tim, cc (alg.initC s a dep tim) ≤ c0
  visitD : ∀ leaf x, cd (alg.visitD leaf x) ≤ cd x + (if leaf then 1 else 0)
  visitC : ∀ y, cc (alg.visitC y) ≤ cc y
  backupD : ∀ v ctx args, cd (alg.backupD v ctx args) ≤ cd v.x + 1
  backupC : ∀ s a y kids args, cc (alg.backupC s a y kids args) ≤ cc y + 1

/-- Every `int` the base classes and the search policies compute from a decision node: `num_visits` (also plus 1, plus 3 in ments_decision_node.cpp:205, 217), depth and
timestep, and those of its children (thts_decision_node.cpp:160-165, thts_chance_node.cpp:139-146). -/
def DNode.ints (nd : DNode S A R X) : List Int :=
  [nd.visits, nd.visits + 1, nd.visits + 3, nd.depth, nd.time, nd.depth + 1, nd.time + 1]

/-- The same for a chance node. -/
def CNode.ints (nc : CNode S A R Y) : List Int := [nc.visits, nc.visits + 1, nc.depth, nc.time, nc.depth + 1, nc.time + 1]

end Verif.Search
