import Verif.Model.Backups
import Verif.Model.Decay

/-!
# MENTS (src/algorithms/ments/ments_decision_node.cpp, ments_chance_node.cpp)

Real arithmetic.  `Except Bad` makes exceptions, null dereferences and results that are not a number explicit.  The virtual
function `get_soft_q_value`, overridden by DENTS and EST, is a parameter of the functions that call it.
-/

namespace Verif.Ments

open Verif.Search Verif.Sampling Verif.Backups Verif.Decay

variable {S A X Y : Type} [DecidableEq S] [DecidableEq A]

/-- What can go wrong. -/
inductive Bad where
  /-- a result is not a number or infinite -/
  | nan
  /-- `policy_prior->at(action)` throws -/
  | noKey
  /-- `policy_prior` is a null pointer and dereferenced -/
  | nullPrior
  /-- `context.get_value_ptr(key)` throws: no entry for the key (src/thts_env_context.cpp:11-13) -/
  | noEntry
  deriving DecidableEq, Repr

/-- `MentsManager` (include/algorithms/ments/ments_manager.h). -/
structure Cfg (S A : Type) where
  temp : ℝ
  /-- `prior_policy_search_weight` -/
  priorWeight : ℝ
  epsilon : ℝ
  /-- `root_node_epsilon` -/
  rootEpsilon : ℝ
  /-- `max_explore_prob` -/
  maxExplore : ℝ
  /-- `temp_decay_fn`; `none` is `nullptr` -/
  decay : Option (ℝ → ℝ)
  /-- `temp_decay_min_temp` -/
  minTemp : ℝ
  /-- `temp_decay_visits_scale` -/
  scale : ℝ
  /-- `temp_decay_root_node_visits_scale` -/
  rootScale : ℝ
  /-- `default_q_value` -/
  defaultQ : ℝ
  /-- `shift_pseudo_q_values` -/
  shift : Bool
  /-- `psuedo_q_value_offset` -/
  offset : ℝ
  /-- `recommend_visit_threshold` -/
  threshold : Int
  /-- `recommend_most_visited` -/
  mostVisited : Bool
  /-- `prior_fn` (a map in iteration order); `none` is `nullptr`.  The node stores `prior_fn(state)`; it never changes. -/
  prior : Option (S → List (A × ℝ))
  /-- `numeric_limits<double>::lowest()` -/
  low : ℝ

/-- The constants `EPS`, `LOG_MIN_ARG`, `LOG_MAX_ARG`, `MIN_LOG_WEIGHT`, `MAX_LOG_WEIGHT` (ments_decision_node.cpp:13-17). -/
noncomputable def EPS : ℝ := 1 / 10 ^ 16
noncomputable def logMinArg : ℝ := 1 / 10 ^ 32
noncomputable def logMaxArg : ℝ := 10 ^ 32
noncomputable def minLogWeight : ℝ := -32
noncomputable def maxLogWeight : ℝ := 32

/-- The clamped logarithm of a prior weight (ments_decision_node.cpp:49-54 and 116-121). -/
noncomputable def logWeight (weight : ℝ) : ℝ :=
  if logMaxArg ≤ weight then maxLogWeight
  else if logMinArg < weight then Real.log weight
  else minLogWeight

/-- The loop of the constructor (ments_decision_node.cpp:45-57): `mean_log_weight` and `i` (never changed). -/
noncomputable def shiftLoop : List (A × ℝ) → ℝ → ℝ → ℝ
  | [], mean, _ => mean
  | (_, w) :: rest, mean, i => shiftLoop rest (mean * ((i - 1) / i) + logWeight w / i) i

/-- `psuedo_q_value_offset` of a node as set by the constructor (ments_decision_node.cpp:35, 41-59). -/
noncomputable def nodeOffset (cfg : Cfg S A) (s : S) : ℝ :=
  match cfg.prior with
  | none => 0
  | some f => if cfg.shift then cfg.offset - shiftLoop (f s) 0 1 else 0

/-- `is_root_node` (thts_decision_node.cpp:126-128). -/
def isRoot (v : View S A X Y) : Bool := decide (v.depth = 0)

/-- `get_temp` (ments_decision_node.cpp:75-86). -/
noncomputable def getTemp (cfg : Cfg S A) (v : View S A X Y) : ℝ :=
  match cfg.decay with
  | none => cfg.temp
  | some f =>
    let scale := if isRoot v = true ∧ cfg.rootScale > 0 then cfg.rootScale else cfg.scale
    decayedTemp f cfg.temp cfg.minTemp v.visits scale

/-- The part of `get_soft_q_value` for actions without a child (ments_decision_node.cpp:114-126). -/
noncomputable def untriedQ (cfg : Cfg S A) (v : View S A X Y) (a : A) : Except Bad ℝ :=
  match cfg.prior with
  | some f => match find? a (f v.state) with
    | none => .error .noKey
    | some weight => .ok (logWeight weight + nodeOffset cfg v.state)
  | none => .ok (cfg.defaultQ * oppCoeff v.opp)

/-- The values `get_soft_q_value` gives to the valid actions, in order; `q` is that function. -/
noncomputable def qList (q : A → Except Bad ℝ) : List A → Except Bad (List (A × ℝ))
  | [] => .ok []
  | a :: rest => match q a, qList q rest with
    | .ok x, .ok l => .ok ((a, x) :: l)
    | .error e, _ => .error e
    | .ok _, .error e => .error e

/-- Normalisation term (ments_decision_node.cpp:160-166). -/
noncomputable def normTerm (temp : ℝ) : List (A × ℝ) → ℝ → ℝ
  | [], norm => norm
  | (_, q) :: rest, norm => normTerm temp rest (if norm < q / temp then q / temp else norm)

/-- `compute_action_weights` (ments_decision_node.cpp:149-176): weights, their sum, the normalisation term.  `action_weights`
is keyed by action; simplified: the list of valid actions has no repetitions. -/
noncomputable def weights (low temp : ℝ) (qs : List (A × ℝ)) : List (A × ℝ) × ℝ × ℝ :=
  let norm := normTerm temp qs low
  let ws := qs.map fun p => (p.1, Real.exp (p.2 / temp - norm))
  (ws, ws.foldl (fun s p => s + p.2) 0, norm)

/-- `lambda` (ments_decision_node.cpp:203-209).  `log(num_visits+1)` is 0 at a node without visits: the quotient is then
infinite, or not a number if epsilon is 0. -/
noncomputable def lambda (cfg : Cfg S A) (v : View S A X Y) : Except Bad ℝ :=
  let eps := if isRoot v = true ∧ cfg.rootEpsilon > 0 then cfg.rootEpsilon else cfg.epsilon
  if v.visits = 0 then
    if 0 < eps then .ok cfg.maxExplore else .error .nan
  else
    let lam := eps / Real.log (v.visits + 1)
    .ok (if lam > cfg.maxExplore then cfg.maxExplore else lam)

/-- The final probability of an action, before dropping near zero ones (ments_decision_node.cpp:216-222): its weight `w`, the sum
of the weights, the number of actions. -/
noncomputable def interpolate (cfg : Cfg S A) (v : View S A X Y) (lam sum : ℝ) (numActions : Nat) (a : A) (w : ℝ) : Except Bad ℝ :=
  let p := w * ((1 - lam) / sum)
  let unif := lam * (1 / (numActions : ℝ))
  if cfg.priorWeight > 0 then
    let lamTilde := cfg.priorWeight / Real.log (v.visits + 3)
    match cfg.prior with
    | none => .error .nullPrior
    | some f => match find? a (f v.state) with
      | none => .error .noKey
      | some pr => .ok (p * (1 - lamTilde) + (1 - lam) * lamTilde * pr + unif)
  else .ok (p + unif)

/-- The loop of `compute_action_distribution` (ments_decision_node.cpp:215-226). -/
noncomputable def interpolateAll (cfg : Cfg S A) (v : View S A X Y) (lam sum : ℝ) (numActions : Nat) :
    List (A × ℝ) → Except Bad (List (A × ℝ))
  | [] => .ok []
  | (a, w) :: rest => match interpolate cfg v lam sum numActions a w, interpolateAll cfg v lam sum numActions rest with
    | .ok p, .ok l => .ok ((a, p) :: l)
    | .error e, _ => .error e
    | .ok _, .error e => .error e

/-- `compute_action_distribution` without the removal of near zero probabilities (ments_decision_node.cpp:190-226).  A `lambda`
that is not a number does no harm if there is no action. -/
noncomputable def fullDistr (cfg : Cfg S A) (q : A → Except Bad ℝ) (v : View S A X Y) : Except Bad (List (A × ℝ)) :=
  match qList q v.actions, lambda cfg v with
  | .ok qs, .ok lam =>
    let (ws, sum, _) := weights cfg.low (getTemp cfg v) qs
    interpolateAll cfg v lam sum v.actions.length ws
  | .error e, _ => .error e
  | .ok [], .error _ => .ok []
  | .ok (_ :: _), .error e => .error e

/-- `compute_action_distribution` (ments_decision_node.cpp:190-231). -/
noncomputable def actionDistr (cfg : Cfg S A) (q : A → Except Bad ℝ) (v : View S A X Y) : Except Bad (List (A × ℝ)) :=
  match fullDistr cfg q v with
  | .ok l => .ok (l.filter fun p => ¬ p.2 < EPS)
  | .error e => .error e

/-- `select_action_ments` (ments_decision_node.cpp:240-248) without the creation of the child: the draw, for the uniform number
`u`; `iter` is the iteration order of `action_distr`, `eps` the constant of helper_templates.cc:17. -/
noncomputable def selectAction (eps : ℝ) (cfg : Cfg S A) (q : A → Except Bad ℝ) (v : View S A X Y) (u : ℝ)
    (iter : List (A × ℝ) → List (A × ℝ)) : Except Bad (Draw A) :=
  match actionDistr cfg q v with
  | .ok l => .ok (sampleFrom eps (iter l) true u)
  | .error e => .error e

/-- `soft_value` computed by `backup_soft` (ments_decision_node.cpp:330-343).  With no valid action the code computes
`log(0)`; the search never backs such a node up. -/
noncomputable def softValue (cfg : Cfg S A) (q : A → Except Bad ℝ) (v : View S A X Y) : Except Bad ℝ :=
  match qList q v.actions with
  | .ok qs =>
    let (_, sum, norm) := weights cfg.low (getTemp cfg v) qs
    .ok (oppCoeff v.opp * getTemp cfg v * (Real.log sum + norm))
  | .error e => .error e

/-! ## Recommendations -/

/-- Has the action a child with enough visits (ments_decision_node.cpp:270)? -/
def metThreshold (cfg : Cfg S A) (v : View S A X Y) (a : A) : Bool :=
  match find? a v.kids with
  | some (n, _) => decide (cfg.threshold ≤ (n : Int))
  | none => false

/-- `recommend_action_best_soft_value` (ments_decision_node.cpp:262-281). -/
noncomputable def recommendSoft (cfg : Cfg S A) (q : A → Except Bad ℝ) (v : View S A X Y) (raw : Nat)
    (iter : List (A × ℝ) → List (A × ℝ)) : Except Bad (Option A) :=
  match qList q v.actions with
  | .error e => .error e
  | .ok qs =>
    let thresholded := qs.filter fun p => metThreshold cfg v p.1
    let others := qs.filter fun p => ! metThreshold cfg v p.1
    .ok (if 0 < thresholded.length then getMaxKey cfg.low (iter thresholded) raw else getMaxKey cfg.low (iter others) raw)

/-- `recommend_action_most_visited` (ments_decision_node.cpp:286-301). -/
def recommendVisited (lowI : Int) (v : View S A X Y) (raw : Nat) (iter : List (A × Int) → List (A × Int)) : Option A :=
  let vals := v.actions.filterMap fun a => (find? a v.kids).map fun y => (a, (y.1 : Int))
  if vals.length = 0 then sampleUniform v.actions raw else getMaxKey lowI (iter vals) raw

/-- `MentsDNode::recommend_action` (ments_decision_node.cpp:308-314). -/
noncomputable def recommend (cfg : Cfg S A) (q : A → Except Bad ℝ) (lowI : Int) (v : View S A X Y) (raw : Nat)
    (iter : List (A × ℝ) → List (A × ℝ)) (iterI : List (A × Int) → List (A × Int)) : Except Bad (Option A) :=
  if cfg.mostVisited then .ok (recommendVisited lowI v raw iterI) else recommendSoft cfg q v raw iter

/-! ## Node data and the instance of the search schema -/

/-- `num_backups` and `soft_value` of `MentsDNode` or `MentsCNode`; `val = none` stands for a value that is not finite. -/
structure Soft where
  n : Nat
  val : Option ℝ

/-- `MentsDNode` constructor (ments_decision_node.cpp:20-39): the heuristic value is 0 without a heuristic function. -/
def softInitD (heur : ℝ) : Soft := { n := 0, val := some heur }

/-- `MentsCNode` constructor (ments_chance_node.cpp:11-30). -/
def softInitC (cfg : Cfg S A) : Soft := { n := 0, val := some cfg.defaultQ }

/-- `MentsDNode::visit` (ments_decision_node.cpp:95-100). -/
def softVisit (leaf : Bool) (x : Soft) : Soft := if leaf then { x with n := x.n + 1 } else x

/-- `MentsDNode::get_soft_q_value` (ments_decision_node.cpp:108-127); `py` is the MENTS part of the chance node data. -/
noncomputable def mentsQ (cfg : Cfg S A) (py : Y → Soft) (v : View S A X Y) (a : A) : Except Bad ℝ :=
  match find? a v.kids with
  | some (_, y) => match (py y).val with
    | some soft => .ok (soft * oppCoeff v.opp)
    | none => .error .nan
  | none => untriedQ cfg v a

/-- `backup_soft` of a decision node (ments_decision_node.cpp:330-343). -/
noncomputable def softBackupD (cfg : Cfg S A) (q : A → Except Bad ℝ) (v : View S A X Y) (x : Soft) : Soft :=
  { n := x.n + 1, val := match softValue cfg q v with | .ok s => some s | .error _ => none }

/-- The children's counts and values, if all values are finite. -/
def finiteSoft : List Soft → Option (List (Nat × ℝ))
  | [] => some []
  | y :: rest => match y.val, finiteSoft rest with
    | some x, some l => some ((y.n, x) :: l)
    | _, _ => none

/-- `MentsCNode::backup_soft` (ments_chance_node.cpp:75-90).  Simplified: if some child's value is not finite, neither is the
result. -/
noncomputable def softBackupC (localReward : ℝ) (kids : List Soft) (y : Soft) : Soft :=
  { n := y.n + 1, val := (finiteSoft kids).map fun l => meanLoop l 0 0 + localReward }

/-- Can `select_action` return `a`, for some draw and map order? -/
noncomputable def selectable (eps : ℝ) (cfg : Cfg S A) (q : A → Except Bad ℝ) (v : View S A X Y) (a : A) : Bool :=
  @decide (∃ u iter, 0 ≤ u ∧ u < 1 ∧ (∀ l, List.Perm (iter l) l) ∧ selectAction eps cfg q v u iter = .ok (.key a))
    (Classical.propDecidable _)

/-- MENTS: constructors ments_decision_node.cpp:20-62 and ments_chance_node.cpp:11-30, `visit` ments_decision_node.cpp:95-100 and
ments_chance_node.cpp:35-37, `select_action` ments_decision_node.cpp:253-255, `backup` ments_decision_node.cpp:348-356 and
ments_chance_node.cpp:95-103.  `lr` is the environment's `get_reward_itfc(state, action)` without observation. -/
noncomputable def ments (eps : ℝ) (cfg : Cfg S A) (lr : S → A → ℝ) : Alg S A ℝ Soft Soft where
  initVisits := 0
  initD _ _ _ h := softInitD h
  initC _ _ _ _ := softInitC cfg
  visitD leaf x := softVisit leaf x
  visitC y := y
  canSelect v _ a := selectable eps cfg (mentsQ cfg id v) v a
  backupD v _ _ := softBackupD cfg (mentsQ cfg id v) v v.x
  backupC s a y kids _ := softBackupC (lr s a) (kids.map fun k => k.2) y

end Verif.Ments
