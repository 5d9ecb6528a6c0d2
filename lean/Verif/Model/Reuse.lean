import Verif.Model.Search

/-!
# Model of moving a search to another root (src/thts.cpp:74-90)
-/

namespace Verif.Search

variable {S A R X Y : Type}

/-- `ThtsPool::set_new_env`, thts.cpp:76-89, called between two searches with the same manager and with a node of the tree as new root:
only `root_node` changes.  (The check at its beginning is part of `Verif.Model.Pool`; the logger is left out.  Nodes that are no longer
below the root are destroyed when the caller lets go of them; here they stay, and nothing leads to them.) -/
def setRoot (st : St S A R X Y) (d : Nat) : St S A R X Y := { st with root := d }

end Verif.Search
