import Verif.Model.Search
import Verif.Model.Sampling
import Mathlib.Algebra.Order.Group.Unbundled.Abs
import Mathlib.Analysis.SpecialFunctions.Pow.Real

/-!
# UCT and PUCT (src/algorithms/uct/)

Written over an arbitrary linearly ordered field `𝕜`, with the exploration term as a parameter: `uctTerm` and `puctTerm` below
are the two used by the code (over ℝ).  Children maps are looked up with `Verif.Search.find?`.
A function returning `none` stands for undefined behaviour or an exception.
-/

namespace Verif.Uct

open Verif.Search Verif.Sampling

variable {S A 𝕜 : Type} [DecidableEq S] [DecidableEq A] [Field 𝕜] [LinearOrder 𝕜]

/-- `num_backups` and `avg_return`: the data of `UctDNode` and of `UctCNode`
(include/algorithms/uct/uct_decision_node.h, uct_chance_node.h). -/
structure Stats (𝕜 : Type) where
  n : Nat
  avg : 𝕜
  deriving DecidableEq, Repr

/-- `UctManager` (include/algorithms/uct/uct_manager.h), plus the virtual function `compute_ucb_term` and
`numeric_limits<double>::lowest()`. -/
structure Cfg (S A 𝕜 : Type) where
  /-- `bias`; `-1` is `USE_AUTO_BIAS` -/
  bias : 𝕜
  /-- `heuristic_psuedo_trials` -/
  pseudo : Nat
  /-- `recommend_most_visited` -/
  mostVisited : Bool
  /-- `epsilon_exploration` -/
  epsilon : 𝕜
  /-- `prior_fn`; `none` is `nullptr`.  The node stores `prior_fn(state)` (uct_decision_node.cpp:42-44); it never changes. -/
  prior : Option (S → List (A × 𝕜))
  /-- `compute_ucb_term` -/
  term : Nat → Nat → 𝕜
  /-- `numeric_limits<double>::lowest()` -/
  low : 𝕜

/-- `UctDNode::compute_ucb_term` (uct_decision_node.cpp:67-71). -/
noncomputable def uctTerm (numVisits childVisits : Nat) : ℝ :=
  let n : ℝ := if numVisits > 0 then numVisits else 1
  let c : ℝ := if childVisits > 0 then childVisits else 1
  Real.sqrt (Real.log n / c)

/-- `PuctDNode::compute_ucb_term` (puct_decision_node.cpp:24-32). -/
noncomputable def puctTerm (power : ℝ) (numVisits childVisits : Nat) : ℝ :=
  let n : ℝ := if numVisits > 0 then numVisits else 1
  let c : ℝ := if childVisits > 0 then childVisits else 1
  if power ≠ 1 / 2 then n ^ power / c else Real.sqrt n / c

/-- The child of an action, if it exists: `has_child_node`, `get_child_node`. -/
def kid (v : View S A (Stats 𝕜) (Stats 𝕜)) (a : A) : Option (Nat × Stats 𝕜) := find? a v.kids

/-- `opp_coeff` (uct_decision_node.cpp:96, 205). -/
def oppCoeff (v : View S A (Stats 𝕜) (Stats 𝕜)) : 𝕜 := if v.opp then -1 else 1

/-- The bias used (uct_decision_node.cpp:102-110). -/
def biasOf (cfg : Cfg S A 𝕜) (v : View S A (Stats 𝕜) (Stats 𝕜)) : 𝕜 :=
  if cfg.bias = -1 then
    v.actions.foldl (fun bias a => match kid v a with
      | none => bias
      | some (_, y) => if bias < |y.avg| then |y.avg| else bias) (1 / 1000)
  else cfg.bias

/-- `has_prior` (uct_decision_node.cpp:52-55). -/
def hasPrior (cfg : Cfg S A 𝕜) : Bool := cfg.prior.isSome

/-- The value computed for one action in `fill_ucb_values` (uct_decision_node.cpp:114-125).  `none`: `policy_prior->at`
throws. -/
def ucbValue (cfg : Cfg S A 𝕜) (v : View S A (Stats 𝕜) (Stats 𝕜)) (a : A) : Option 𝕜 :=
  let childVisits := match kid v a with | some (n, _) => n | none => 0
  let val := cfg.term v.visits childVisits * biasOf cfg v
  let val' : Option 𝕜 := match cfg.prior with
    | none => some val
    | some f => (find? a (f v.state)).map (val * ·)
  val'.map fun val => match kid v a with
    | some (_, y) => val + oppCoeff v * y.avg
    | none => val

/-- The loop of `fill_ucb_values` (uct_decision_node.cpp:113-128): the assignments made to the map. -/
def fillFrom (cfg : Cfg S A 𝕜) (v : View S A (Stats 𝕜) (Stats 𝕜)) : List A → Option (List (A × 𝕜))
  | [] => some []
  | a :: rest => match ucbValue cfg v a, fillFrom cfg v rest with
    | some val, some l => some ((a, val) :: l)
    | _, _ => none

/-- `actions_yet_to_try` (uct_decision_node.cpp:144-149). -/
def untried (v : View S A (Stats 𝕜) (Stats 𝕜)) : List A := v.actions.filter fun a => (kid v a).isNone

/-- `select_action_ucb` (uct_decision_node.cpp:141-169), without the creation of the child (`Verif.Search.createC`).
`raw` is the random integer used, `iter` turns the assignments made to `ucb_values` into that map's iteration order. -/
def selectUcb (cfg : Cfg S A 𝕜) (v : View S A (Stats 𝕜) (Stats 𝕜)) (raw : Nat) (iter : List (A × 𝕜) → List (A × 𝕜)) :
    Option A :=
  if hasPrior cfg = false ∧ 0 < (untried v).length then sampleUniform (untried v) raw
  else (fillFrom cfg v v.actions).bind fun vals => getMaxKey cfg.low (iter vals) raw

/-- `select_action_random` (uct_decision_node.cpp:174-181). -/
def selectRandom (v : View S A (Stats 𝕜) (Stats 𝕜)) (raw : Nat) : Option A := sampleUniform v.actions raw

/-- `select_action` (uct_decision_node.cpp:189-197); `u` is the uniform draw (used only if epsilon is positive). -/
def selectAction (cfg : Cfg S A 𝕜) (v : View S A (Stats 𝕜) (Stats 𝕜)) (u : 𝕜) (raw : Nat)
    (iter : List (A × 𝕜) → List (A × 𝕜)) : Option A :=
  if 0 < cfg.epsilon ∧ u < cfg.epsilon then selectRandom v raw else selectUcb cfg v raw iter

/-- `recommend_action_best_empirical` (uct_decision_node.cpp:204-220). -/
def recommendBest (cfg : Cfg S A 𝕜) (v : View S A (Stats 𝕜) (Stats 𝕜)) (raw : Nat) (iter : List (A × 𝕜) → List (A × 𝕜)) :
    Option A :=
  let vals := v.actions.filterMap fun a => (kid v a).map fun y => (a, oppCoeff v * y.2.avg)
  if vals.length = 0 then sampleUniform v.actions raw else getMaxKey cfg.low (iter vals) raw

/-- `recommend_action_most_visited` (uct_decision_node.cpp:225-240).  `lowI` is `numeric_limits<int>::lowest()`. -/
def recommendVisited (lowI : Int) (v : View S A (Stats 𝕜) (Stats 𝕜)) (raw : Nat) (iter : List (A × Int) → List (A × Int)) :
    Option A :=
  let vals := v.actions.filterMap fun a => (kid v a).map fun y => (a, (y.1 : Int))
  if vals.length = 0 then sampleUniform v.actions raw else getMaxKey lowI (iter vals) raw

/-- `recommend_action` (uct_decision_node.cpp:247-253). -/
def recommend (cfg : Cfg S A 𝕜) (lowI : Int) (v : View S A (Stats 𝕜) (Stats 𝕜)) (raw : Nat)
    (iter : List (A × 𝕜) → List (A × 𝕜)) (iterI : List (A × Int) → List (A × Int)) : Option A :=
  if cfg.mostVisited then recommendVisited lowI v raw iterI else recommendBest cfg v raw iter

/-- `backup_average_return` (uct_decision_node.cpp:258-261, uct_chance_node.cpp:59-62). -/
def backupAvg (s : Stats 𝕜) (ret : 𝕜) : Stats 𝕜 :=
  let n := s.n + 1
  { n := n, avg := s.avg + (ret - s.avg) / (n : 𝕜) }

/-- Can `select_action` return `a`, for some draws?  The random integer matters only modulo the number of candidates, the uniform
draw only through its comparison with epsilon, and the iteration order only among equal values, so it is enough to
try these; `Verif.Uct.selectable_iff` proves that nothing is missed. -/
def selectable (cfg : Cfg S A 𝕜) (v : View S A (Stats 𝕜) (Stats 𝕜)) (a : A) : Bool :=
  [0, cfg.epsilon].any fun u => decide (0 ≤ u ∧ u < 1) && (List.range v.actions.length).any fun raw =>
    decide (selectAction cfg v u raw id = some a)

/-- UCT as an instance of the search schema: constructors uct_decision_node.cpp:19-45 and uct_chance_node.cpp:11-29, `visit` adds
nothing (uct_decision_node.cpp:60-62, uct_chance_node.cpp:34-36), `backup` uct_decision_node.cpp:266-274, uct_chance_node.cpp:67-75. -/
def uct (cfg : Cfg S A 𝕜) (m : Manager S 𝕜) : Alg S A 𝕜 (Stats 𝕜) (Stats 𝕜) where
  initVisits := if m.heuristic.isSome then cfg.pseudo else 0
  initD _ _ _ h := if m.heuristic.isSome then { n := cfg.pseudo, avg := h } else { n := 0, avg := 0 }
  initC _ _ _ _ := { n := 0, avg := 0 }
  visitD _ x := x
  visitC y := y
  canSelect v _ a := selectable cfg v a
  backupD v _ args := backupAvg v.x args.retAfter
  backupC _ _ y _ args := backupAvg y args.retAfter

end Verif.Uct
