import Verif.Model.Search
import Verif.Model.Sampling
import Mathlib.Analysis.SpecialFunctions.Log.Basic

/-!
# Value, entropy and average backups (src/algorithms/common/)

The mixin classes `DPDNode`/`DPCNode`, `EmpNode`, `EntDNode`/`EntCNode`.  Numbers are an arbitrary linearly ordered field `𝕜`
(ℝ for the entropy).  An `unordered_map` of children is the list of the children in iteration order.
-/

namespace Verif.Backups

open Verif.Search Verif.Sampling

section
variable {K 𝕜 : Type} [Field 𝕜] [LinearOrder 𝕜]

/-- `opp_coeff` (dp_decision_node.cpp:27, 62, emp_node.cpp:27, ent_decision_node.cpp:47). -/
def oppCoeff (opp : Bool) : 𝕜 := if opp then -1 else 1

/-! ## Running weighted mean -/

/-- The loop shared by `DPCNode::backup_dp_impl` (dp_chance_node.cpp:31-37), `EntCNode::backup_ent_impl`
(ent_chance_node.cpp:22-29) and `MentsCNode::backup_soft` (ments_chance_node.cpp:81-87): pairs of `num_backups` and value of
the children, running value, `sum_child_backups`. -/
def meanLoop : List (Nat × 𝕜) → 𝕜 → 𝕜 → 𝕜
  | [], val, _ => val
  | (n, x) :: rest, val, sum =>
    if n = 0 then meanLoop rest val sum
    else
      let sum' := sum + n
      meanLoop rest (val * ((sum' - n) / sum') + n * x / sum') sum'

/-! ## DP -/

/-- Data of `DPDNode` and of `DPCNode` (dp_decision_node.h, dp_chance_node.h).  `val = none` stands for a value that is not
finite. -/
structure Dp (𝕜 : Type) where
  n : Nat
  val : Option 𝕜
  deriving DecidableEq, Repr

/-- Constructor of `DPDNode` (dp_decision_node.h: `num_backups(1), dp_value(dp_value)`). -/
def dpInitD (heur : 𝕜) : Dp 𝕜 := { n := 1, val := some heur }

/-- Constructor of `DPCNode` (dp_chance_node.h: `num_backups(0), dp_value(0.0)`). -/
def dpInitC : Dp 𝕜 := { n := 0, val := some 0 }

/-- `DPDNode::visit_dp` (dp_decision_node.cpp:15-17). -/
def dpVisit (leaf : Bool) (x : Dp 𝕜) : Dp 𝕜 := if leaf then { x with n := x.n + 1 } else x

/-- The loop of `DPDNode::backup_dp_impl` (dp_decision_node.cpp:65-71).  The running value `none` is `opp_coeff * -inf`, below
every finite value in the comparison of line 68. -/
def maxLoop (opp : Bool) : List (Nat × 𝕜) → Option 𝕜 → Option 𝕜
  | [], best => best
  | (n, x) :: rest, best =>
    if n = 0 then maxLoop opp rest best
    else match best with
      | none => maxLoop opp rest (some x)
      | some b => if oppCoeff opp * x > oppCoeff opp * b then maxLoop opp rest (some x) else maxLoop opp rest (some b)

/-- The children's counts and values, if all values are finite. -/
def finiteKids : List (Dp 𝕜) → Option (List (Nat × 𝕜))
  | [] => some []
  | y :: rest => match y.val, finiteKids rest with
    | some x, some l => some ((y.n, x) :: l)
    | _, _ => none

/-- `DPDNode::backup_dp_impl` (dp_decision_node.cpp:61-74).  Simplified: if some child's value is not finite, neither
is the result (`Verif.Props.Dp` proves that this does not happen in a search). -/
def dpBackupD (opp : Bool) (kids : List (Dp 𝕜)) (x : Dp 𝕜) : Dp 𝕜 :=
  { n := x.n + 1, val := (finiteKids kids).bind fun l => maxLoop opp l none }

/-- `DPCNode::backup_dp_impl` (dp_chance_node.cpp:28-41).  Simplified as `dpBackupD`. -/
def dpBackupC (localReward : 𝕜) (kids : List (Dp 𝕜)) (y : Dp 𝕜) : Dp 𝕜 :=
  { n := y.n + 1, val := (finiteKids kids).map fun l => meanLoop l 0 0 + localReward }

/-- `recommend_action_best_dp_value_impl` (dp_decision_node.cpp:24-44) and `recommend_action_best_emp_value_impl`
(emp_node.cpp:24-44): children as (action, `num_backups`, value); `iter` is the iteration order of the local maps. -/
def recommendBest (low : 𝕜) (threshold : Int) (opp : Bool) (kids : List (K × Nat × 𝕜)) (raw : Nat)
    (iter : List (K × 𝕜) → List (K × 𝕜)) : Option K :=
  let thresholded := (kids.filter fun p => decide (threshold ≤ (p.2.1 : Int))).map fun p => (p.1, oppCoeff opp * p.2.2)
  let others := (kids.filter fun p => decide (¬ threshold ≤ (p.2.1 : Int))).map fun p => (p.1, oppCoeff opp * p.2.2)
  if 0 < thresholded.length then getMaxKey low (iter thresholded) raw else getMaxKey low (iter others) raw

/-- `DBMentsDNode::recommend_action_best_dp_value` (dbments_decision_node.cpp:33-42) and
`DentsDNode::recommend_action_best_empirical_value` (dents_decision_node.cpp:72-81). -/
def recommendBestOrRandom (low : 𝕜) (threshold : Int) (opp : Bool) (actions : List K) (kids : List (K × Nat × 𝕜)) (raw : Nat)
    (iter : List (K × 𝕜) → List (K × 𝕜)) : Option K :=
  if kids.length = 0 then sampleUniform actions raw else recommendBest low threshold opp kids raw iter

/-! ## Empirical averages -/

/-- Data of `EmpNode` (emp_node.h). -/
structure Emp (𝕜 : Type) where
  n : Nat
  avg : 𝕜
  deriving DecidableEq, Repr

/-- `EmpNode::visit_emp` (emp_node.cpp:15-17). -/
def empVisit (leaf : Bool) (x : Emp 𝕜) : Emp 𝕜 := if leaf then { x with n := x.n + 1 } else x

/-- `EmpNode::backup_emp` (emp_node.cpp:49-52). -/
def empBackup (x : Emp 𝕜) (ret : 𝕜) : Emp 𝕜 :=
  let n := x.n + 1
  { n := n, avg := x.avg + (ret - x.avg) / (n : 𝕜) }

end

/-! ## Entropy -/

section
variable {K : Type} [DecidableEq K]

/-- Data of `EntDNode` (ent_decision_node.h). -/
structure EntD where
  n : Nat
  loc : ℝ
  sub : ℝ

/-- Data of `EntCNode` (ent_chance_node.h). -/
structure EntC where
  n : Nat
  sub : ℝ

/-- The loop of `EntDNode::backup_ent_impl` computing `local_entropy` (ent_decision_node.cpp:39-44). -/
noncomputable def localEntropy : List (K × ℝ) → ℝ → ℝ
  | [], acc => acc
  | (_, p) :: rest, acc => if p = 0 then localEntropy rest acc else localEntropy rest (acc - p * Real.log p)

/-- The loop of `EntDNode::backup_ent_impl` over the children (ent_decision_node.cpp:49-53); `policy[action]` of a missing key
is 0. -/
noncomputable def subtreeLoop (policy : List (K × ℝ)) : List (K × EntC) → ℝ → ℝ
  | [], acc => acc
  | (a, c) :: rest, acc => subtreeLoop policy rest (acc + (find? a policy).getD 0 * c.sub)

/-- `EntDNode::backup_ent_impl` (ent_decision_node.cpp:34-54). -/
noncomputable def entBackupD (opp : Bool) (policy : List (K × ℝ)) (kids : List (K × EntC)) (x : EntD) : EntD :=
  let loc := localEntropy policy 0
  { n := x.n + 1, loc := loc, sub := subtreeLoop policy kids (oppCoeff opp * loc) }

/-- `EntCNode::backup_ent_impl` (ent_chance_node.cpp:17-30). -/
noncomputable def entBackupC (kids : List EntD) (y : EntC) : EntC :=
  { n := y.n + 1, sub := meanLoop (kids.map fun x => (x.n, x.sub)) 0 0 }

end

end Verif.Backups
