import Verif.Model.FpMents
import Verif.Model.FpSearch

/-!
# DB-MENTS with doubles (src/algorithms/ments/dbments_decision_node.cpp, src/algorithms/ments/dbments_chance_node.cpp)
-/

namespace Verif.Fp

open Verif.Search Verif.Backups
open Verif.Sampling (Draw)

/-- Data of `DBMentsDNode` and of `DBMentsCNode` (include/algorithms/ments/dbments_decision_node.h, dbments_chance_node.h): a MENTS node and a DP node. -/
structure DBF where
  soft : SoftF
  dp : Dp ℚ

variable {S A X Y : Type} [DecidableEq A]

/-- DB-MENTS with doubles: constructors dbments_decision_node.cpp:6-20 and dbments_chance_node.cpp:9-25, `visit` dbments_decision_node.cpp:25-28, `backup`
dbments_decision_node.cpp:60-69 and dbments_chance_node.cpp:32-41; actions are selected as by MENTS.  `lr s a` is `local_reward`. -/
noncomputable def dbmentsF (ex lg : ℚ → ℚ) (cfg : MentsCfg) (lr : S → A → ℚ) : Alg S A ℚ DBF DBF where
  initVisits := 0
  initD _ _ _ h := { soft := softFInitD h, dp := dpInitD h }
  initC _ _ _ _ := { soft := softFInitC cfg, dp := dpInitC }
  visitD leaf x := { soft := softFVisit leaf x.soft, dp := dpVisit leaf x.dp }
  visitC y := y
  canSelect v _ a := mentsCanSelect ex lg cfg DBF.soft v a
  backupD v _ _ := { soft := softFBackupD ex lg cfg DBF.soft v v.x.soft, dp := dpBackupD v.opp (v.kids.map fun k => k.2.2.dp) v.x.dp }
  backupC s a y kids _ := { soft := softFBackupC (lr s a) (kids.map fun k => k.2.soft) y.soft, dp := Fp.dpBackupC (lr s a) (kids.map fun k => k.2.dp) y.dp }

/-- `DBMentsDNode::recommend_action_best_dp_value` (dbments_decision_node.cpp:33-42): comparisons only.  A value that is not a number is outside the model. -/
def recommendDpF (cfg : MentsCfg) (py : Y → Dp ℚ) (v : View S A X Y) (raw : Nat) (iter : List (A × ℚ) → List (A × ℚ)) : Option A :=
  recommendBestOrRandom cfg.low cfg.threshold v.opp v.actions (v.kids.map fun k => (k.1, (py k.2.2).n, (py k.2.2).val.getD 0)) raw iter

end Verif.Fp
