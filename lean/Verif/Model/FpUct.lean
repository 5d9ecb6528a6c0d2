import Verif.Model.FpSearch

/-!
# UCT and PUCT in doubles (src/algorithms/uct/)

As `Model/Uct.lean`, with every operation rounded.  Comparisons, absolute values and the multiplication by `opp_coeff` are exact.
-/

namespace Verif.Fp

open Verif.Search Verif.Sampling
open Verif.Uct (Stats Cfg kid oppCoeff hasPrior untried)

variable {S A : Type} [DecidableEq S] [DecidableEq A]

/-- `num_visits_d`, `child_visits_d` (uct_decision_node.cpp:68-69, puct_decision_node.cpp:26-27). -/
def countOf (n : Nat) : ℚ := if n > 0 then fl n else 1

/-- `UctDNode::compute_ucb_term` (uct_decision_node.cpp:67-71).  `lg`, `sq` are the library's `log` and `sqrt`. -/
def uctTerm (lg sq : ℚ → ℚ) (numVisits childVisits : Nat) : ℚ := sq (fdiv (lg (countOf numVisits)) (countOf childVisits))

/-- `PuctDNode::compute_ucb_term` (puct_decision_node.cpp:24-32).  `pw`, `sq` are the library's `pow` and `sqrt`. -/
def puctTerm (pw : ℚ → ℚ → ℚ) (sq : ℚ → ℚ) (power : ℚ) (numVisits childVisits : Nat) : ℚ :=
  if power ≠ 1 / 2 then fdiv (pw (countOf numVisits) power) (countOf childVisits) else fdiv (sq (countOf numVisits)) (countOf childVisits)

/-- `AUTO_BIAS_MIN_BIAS` (include/algorithms/uct/uct_manager.h:11). -/
def minBias : ℚ := fl (1 / 1000)

/-- The bias used (uct_decision_node.cpp:102-110). -/
def biasOf (cfg : Cfg S A ℚ) (v : View S A (Stats ℚ) (Stats ℚ)) : ℚ :=
  if cfg.bias = -1 then
    v.actions.foldl (fun bias a => match kid v a with
      | none => bias
      | some (_, y) => if bias < |y.avg| then |y.avg| else bias) minBias
  else cfg.bias

/-- The value computed for one action in `fill_ucb_values` (uct_decision_node.cpp:114-125).  `none`: `policy_prior->at` throws. -/
def ucbValue (cfg : Cfg S A ℚ) (v : View S A (Stats ℚ) (Stats ℚ)) (a : A) : Option ℚ :=
  let childVisits := match kid v a with | some (n, _) => n | none => 0
  let val := fmul (fadd 0 (cfg.term v.visits childVisits)) (biasOf cfg v)
  let val' : Option ℚ := match cfg.prior with
    | none => some val
    | some f => (find? a (f v.state)).map (fmul val ·)
  val'.map fun val => match kid v a with
    | some (_, y) => fadd val (oppCoeff v * y.avg)
    | none => val

/-- The loop of `fill_ucb_values` (uct_decision_node.cpp:113-128): the assignments made to the map. -/
def fillFrom (cfg : Cfg S A ℚ) (v : View S A (Stats ℚ) (Stats ℚ)) : List A → Option (List (A × ℚ))
  | [] => some []
  | a :: rest => match ucbValue cfg v a, fillFrom cfg v rest with
    | some val, some l => some ((a, val) :: l)
    | _, _ => none

/-- `select_action_ucb` (uct_decision_node.cpp:141-169), without the creation of the child (`Verif.Search.createC`).  `raw` is the random integer used, `iter` turns the
assignments made to `ucb_values` into that map's iteration order. -/
def selectUcb (cfg : Cfg S A ℚ) (v : View S A (Stats ℚ) (Stats ℚ)) (raw : Nat) (iter : List (A × ℚ) → List (A × ℚ)) : Option A :=
  if hasPrior cfg = false ∧ 0 < (untried v).length then sampleUniform (untried v) raw
  else (fillFrom cfg v v.actions).bind fun vals => getMaxKey cfg.low (iter vals) raw

/-- `select_action` (uct_decision_node.cpp:189-197); `u` is the uniform draw (used only if epsilon is positive). -/
def selectAction (cfg : Cfg S A ℚ) (v : View S A (Stats ℚ) (Stats ℚ)) (u : ℚ) (raw : Nat) (iter : List (A × ℚ) → List (A × ℚ)) : Option A :=
  if 0 < cfg.epsilon ∧ u < cfg.epsilon then Uct.selectRandom v raw else selectUcb cfg v raw iter

/-- Can `select_action` return `a`, for some draws?  As `Verif.Uct.selectable`; `Verif.Fp.selectable_iff` proves that nothing is missed. -/
def selectable (cfg : Cfg S A ℚ) (v : View S A (Stats ℚ) (Stats ℚ)) (a : A) : Bool :=
  [0, cfg.epsilon].any fun u => decide (0 ≤ u ∧ u < 1) && (List.range v.actions.length).any fun raw =>
    decide (selectAction cfg v u raw id = some a)

/-- UCT and PUCT with doubles as an instance of the search schema: constructors uct_decision_node.cpp:19-45 and uct_chance_node.cpp:11-29, `visit` adds nothing
(uct_decision_node.cpp:60-62, uct_chance_node.cpp:34-36), `backup` uct_decision_node.cpp:266-274, uct_chance_node.cpp:67-75.  `cfg.pseudo` is
`heuristic_psuedo_trials` (0 without a heuristic; the heuristic value is then 0 as well). -/
def uct (cfg : Cfg S A ℚ) : Alg S A ℚ (Stats ℚ) (Stats ℚ) where
  initVisits := cfg.pseudo
  initD _ _ _ h := ⟨cfg.pseudo, h⟩
  initC _ _ _ _ := ⟨0, 0⟩
  visitD _ x := x
  visitC y := y
  canSelect v _ a := selectable cfg v a
  backupD v _ args := backupAvg v.x (sumAfter args.after)
  backupC _ _ y _ args := backupAvg y (sumAfter args.after)

end Verif.Fp
