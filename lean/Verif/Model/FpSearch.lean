import Verif.Model.FpCode
import Verif.Model.Backups

/-!
# Searches with doubles

The search of `Model/Search.lean` over the rationals; rewards and heuristic values are doubles, and the node data is computed with rounded operations.  The search
itself only adds rewards up for the backups.  As `args.after` lists what has been added, the node data below uses the rounded sum `sumAfter args.after` in the place
of the exact sum `args.retAfter`.
-/

namespace Verif.Fp

open Verif.Search Verif.Backups
open Verif.Uct (Stats)

/-- `total_return_after` of `run_backup_phase` (src/thts.cpp:199-205) in doubles, from the entries of `rewards_after`: it starts with the heuristic value, and each
iteration adds one reward. -/
def sumAfter : List ℚ → ℚ
  | [] => 0
  | hv :: rewards => rewards.foldl fadd hv

/-- `DPCNode::backup_dp_impl` (src/algorithms/common/dp_chance_node.cpp:28-41) in doubles.  Simplified as `Verif.Backups.dpBackupC`. -/
def dpBackupC (localReward : ℚ) (kids : List (Dp ℚ)) (y : Dp ℚ) : Dp ℚ :=
  { n := y.n + 1, val := (finiteKids kids).map fun l => chanceValue localReward l }

variable {S A : Type} [DecidableEq A]

/-- UCT and PUCT (src/algorithms/uct/uct_decision_node.cpp:34-40, 258-261, uct_chance_node.cpp:59-62) with doubles.  Simplified: any legal action may be selected.
`pseudo` is `heuristic_psuedo_trials` (0 without a heuristic). -/
def avgAlg (pseudo : Nat) : Alg S A ℚ (Stats ℚ) (Stats ℚ) where
  initVisits := pseudo
  initD _ _ _ h := ⟨pseudo, h⟩
  initC _ _ _ _ := ⟨0, 0⟩
  visitD _ x := x
  visitC y := y
  canSelect v _ a := decide (a ∈ v.actions)
  backupD v _ args := backupAvg v.x (sumAfter args.after)
  backupC _ _ y _ args := backupAvg y (sumAfter args.after)

/-- The DP part of DB-MENTS, DENTS and EST (src/algorithms/common/dp_decision_node.cpp:61-74, dp_chance_node.cpp:28-41) with doubles: the comparisons and the
multiplication by `opp_coeff` are exact, the chance node's mean is not.  Simplified: any legal action may be selected.  `lr s a` is `local_reward`. -/
def dpAlg (lr : S → A → ℚ) : Alg S A ℚ (Dp ℚ) (Dp ℚ) where
  initVisits := 0
  initD _ _ _ h := dpInitD h
  initC _ _ _ _ := dpInitC
  visitD leaf x := dpVisit leaf x
  visitC y := y
  canSelect v _ a := decide (a ∈ v.actions)
  backupD v _ _ := dpBackupD v.opp (v.kids.map fun k => k.2.2) v.x
  backupC s a y kids _ := dpBackupC (lr s a) (kids.map fun k => k.2) y

end Verif.Fp
