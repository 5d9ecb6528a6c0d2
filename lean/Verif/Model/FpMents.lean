import Verif.Model.FpCode
import Verif.Model.Backups

/-!
# MENTS with doubles (src/algorithms/ments/ments_decision_node.cpp, ments_chance_node.cpp)

The search of `Model/Search.lean` over the rationals, with the rounded operations of `Model/FpCode.lean`.  Simplified as there: no prior policy, a constant
temperature, no overflow.  `ex` and `lg` are the library's `exp` and `log`.
-/

namespace Verif.Fp

open Verif.Search Verif.Sampling

variable {S A X Y : Type} [DecidableEq S] [DecidableEq A]

/-- The members of `MentsManager` (include/algorithms/ments/ments_manager.h) used here. -/
structure MentsCfg where
  temp : ℚ
  /-- `default_q_value` -/
  defaultQ : ℚ
  epsilon : ℚ
  /-- `root_node_epsilon` -/
  rootEpsilon : ℚ
  /-- `max_explore_prob` -/
  maxExplore : ℚ
  /-- `recommend_visit_threshold` -/
  threshold : Int
  /-- `numeric_limits<double>::lowest()` -/
  low : ℚ

/-- `num_backups` and `soft_value` of `MentsDNode` or `MentsCNode`. -/
structure SoftF where
  n : Nat
  val : ℚ

/-- `opp_coeff` (ments_decision_node.cpp:111, 340). -/
def oppSign (opp : Bool) : ℚ := if opp then -1 else 1

/-- `MentsDNode` constructor (ments_decision_node.cpp:20-39). -/
def softFInitD (heur : ℚ) : SoftF := { n := 0, val := heur }

/-- `MentsCNode` constructor (ments_chance_node.cpp:11-30). -/
def softFInitC (cfg : MentsCfg) : SoftF := { n := 0, val := cfg.defaultQ }

/-- `MentsDNode::visit` (ments_decision_node.cpp:95-100). -/
def softFVisit (leaf : Bool) (x : SoftF) : SoftF := if leaf then { x with n := x.n + 1 } else x

/-- `MentsDNode::get_soft_q_value` (ments_decision_node.cpp:108-127); `py` is the MENTS part of the chance node data.  The multiplication by `opp_coeff` is exact. -/
def softQ (cfg : MentsCfg) (py : Y → SoftF) (v : View S A X Y) (a : A) : ℚ :=
  match find? a v.kids with
  | some (_, y) => (py y).val * oppSign v.opp
  | none => cfg.defaultQ * oppSign v.opp

/-- The actions with their soft values, as `compute_action_weights` goes through them (ments_decision_node.cpp:149-176). -/
def softQs (cfg : MentsCfg) (py : Y → SoftF) (v : View S A X Y) : List (A × ℚ) := v.actions.map fun a => (a, softQ cfg py v a)

/-- `MentsDNode::backup_soft` (ments_decision_node.cpp:330-343). -/
def softFBackupD (ex lg : ℚ → ℚ) (cfg : MentsCfg) (py : Y → SoftF) (v : View S A X Y) (x : SoftF) : SoftF :=
  { n := x.n + 1, val := softValue ex lg (oppSign v.opp) cfg.temp cfg.low (softQs cfg py v) }

/-- `MentsCNode::backup_soft` (ments_chance_node.cpp:75-90). -/
def softFBackupC (localReward : ℚ) (kids : List SoftF) (y : SoftF) : SoftF :=
  { n := y.n + 1, val := chanceValue localReward (kids.map fun k => (k.n, k.val)) }

/-- `lambda` of `compute_action_distribution` (ments_decision_node.cpp:201-208).  Nodes are visited before an action is selected; for a node without visits the
logarithm would be 0 and the quotient infinite. -/
def mentsLambda (lg : ℚ → ℚ) (cfg : MentsCfg) (v : View S A X Y) : ℚ :=
  let eps := if v.depth = 0 ∧ cfg.rootEpsilon > 0 then cfg.rootEpsilon else cfg.epsilon
  if v.visits = 0 then cfg.maxExplore else exploreProb eps (lg (v.visits + 1)) cfg.maxExplore

/-- Can `select_action` (ments_decision_node.cpp:253-255) return `a`, for some draw and map order? -/
noncomputable def mentsCanSelect (ex lg : ℚ → ℚ) (cfg : MentsCfg) (py : Y → SoftF) (v : View S A X Y) (a : A) : Bool :=
  @decide (∃ u iter, 0 ≤ u ∧ u < 1 ∧ IsDouble u ∧ (∀ l, List.Perm (iter l) l) ∧
    selectMents ex cfg.temp cfg.low (mentsLambda lg cfg v) iter (softQs cfg py v) u = .key a) (Classical.propDecidable _)

/-- MENTS with doubles.  `lr s a` is `local_reward`. -/
noncomputable def ments (ex lg : ℚ → ℚ) (cfg : MentsCfg) (lr : S → A → ℚ) : Alg S A ℚ SoftF SoftF where
  initVisits := 0
  initD _ _ _ h := softFInitD h
  initC _ _ _ _ := softFInitC cfg
  visitD leaf x := softFVisit leaf x
  visitC y := y
  canSelect v _ a := mentsCanSelect ex lg cfg id v a
  backupD v _ _ := softFBackupD ex lg cfg id v v.x
  backupC s a y kids _ := softFBackupC (lr s a) (kids.map fun k => k.2) y

/-- Has the action a child with enough visits (ments_decision_node.cpp:270)? -/
def softMet (cfg : MentsCfg) (v : View S A X Y) (a : A) : Bool :=
  match find? a v.kids with
  | some (n, _) => decide (cfg.threshold ≤ (n : Int))
  | none => false

/-- `recommend_action_best_soft_value` (ments_decision_node.cpp:262-281): comparisons only. -/
def recommendSoftF (cfg : MentsCfg) (py : Y → SoftF) (v : View S A X Y) (raw : Nat) (iter : List (A × ℚ) → List (A × ℚ)) : Option A :=
  let thresholded := (softQs cfg py v).filter fun p => softMet cfg v p.1
  let others := (softQs cfg py v).filter fun p => ! softMet cfg v p.1
  if 0 < thresholded.length then getMaxKey cfg.low (iter thresholded) raw else getMaxKey cfg.low (iter others) raw

end Verif.Fp
