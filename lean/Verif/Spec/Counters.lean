import Verif.Spec.Search

/-! # Counters that count backups (C107)

`Counts` describes, one method at a time, what an algorithm does to a counter it keeps in its nodes, such as `num_backups`. -/

namespace Verif.Search

variable {S A R X Y : Type}

/-- `cd` (decision nodes) and `cc` (chance nodes) are counters of backups: they start at `d0` and `c0`; every backup adds one; if `leaves` is set, visiting a leaf adds one;
nothing else changes them.  `intact` says of which decision nodes this is claimed: a node that is intact after a call was so before. -/
structure Counts [DecidableEq S] [DecidableEq A] (alg : Alg S A R X Y) (intact : X → Prop) (cd : X → Nat) (cc : Y → Nat) (leaves : Bool) (d0 c0 : Nat) : Prop where
  initD : ∀ s dep tim h, intact (alg.initD s dep tim h) → cd (alg.initD s dep tim h) = d0
  initC : ∀ s a dep tim, cc (alg.initC s a dep tim) = c0
  visitD : ∀ leaf x, intact (alg.visitD leaf x) → intact x ∧ cd (alg.visitD leaf x) = cd x + (if leaf && leaves then 1 else 0)
  visitC : ∀ y, cc (alg.visitC y) = cc y
  backupD : ∀ v ctx args, intact (alg.backupD v ctx args) → intact v.x ∧ cd (alg.backupD v ctx args) = cd v.x + 1
  backupC : ∀ s a y kids args, cc (alg.backupC s a y kids args) = cc y + 1

/-- Trials that visited decision node `d` and that its counter leaves out: those that ended there, unless it is a leaf and leaves are counted. -/
def leftOut [DecidableEq S] [DecidableEq A] (env : Env S A R) (m : Manager S R) (leaves : Bool) (d : Nat) (nd : DNode S A R X) (h : List (Event S A R)) : Nat :=
  if (env.isSink nd.state || decide (m.maxDepth ≤ nd.depth)) && leaves then 0 else trialsEndedAt d h

/-- Workers that are in the middle of a trial. -/
def running (st : St S A R X Y) : Nat := st.ws.countP fun p => match p with | .idle => false | _ => true

end Verif.Search
