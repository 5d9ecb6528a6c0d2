import Verif.Model.Fp
import Verif.Model.Sampling
import Verif.Model.Uct

/-!
# The code's arithmetic on doubles

The functions whose exact versions are in `Model/Sampling.lean`, `Model/Uct.lean`, `Model/McEval.lean` and `Model/Ments.lean`, with every operation
rounded as the code performs it.  Simplifications: no extended precision and no fused multiply-add; no overflow.  `(double) n` of a count is `fl n`.
-/

namespace Verif.Fp

open Verif.Sampling (Draw)

variable {K : Type}

/-- `EPS` of src/helper_templates.cc:17. -/
def EPS12 : ℚ := fl (1 / 10 ^ 12)

/-- `EPS` of src/algorithms/ments/ments_decision_node.cpp:13. -/
def EPS16 : ℚ := fl (1 / 10 ^ 16)

/-- The loop of `sample_from_distribution` (src/helper_templates.cc:78-97).  `n` is `distr_size`, `i` the counter, `run` is `running_prob_mass`. -/
def sampleLoop (sum eps u : ℚ) (n : Nat) : Nat → ℚ → List (K × ℚ) → Draw K
  | _, _, [] => .tooLittle
  | i, run, (k, w) :: rest =>
    let run' := fadd run (fdiv w sum)
    let i' := i + 1
    if fadd sum eps < run' ∨ (sum ≤ run' ∧ i' < n) then .tooMuch
    else if u < run' then .key k
    else sampleLoop sum eps u n i' run' rest

/-- Sum of the weights (src/helper_templates.cc:67-70). -/
def sumWeights (dist : List (K × ℚ)) : ℚ := dist.foldl (fun s p => fadd s p.2) 0

/-- `sample_from_distribution` (src/helper_templates.cc:63-110). -/
def sampleFrom (dist : List (K × ℚ)) (normalised : Bool) (u : ℚ) : Draw K :=
  let sum := if normalised then 1 else sumWeights dist
  sampleLoop sum EPS12 u dist.length 0 0 dist

/-- `UctDNode::backup_average_return` (src/algorithms/uct/uct_decision_node.cpp:258-261), `UctCNode::backup_average_return`
(src/algorithms/uct/uct_chance_node.cpp:59-62) and `EmpNode::backup_emp` (src/algorithms/common/emp_node.cpp:49-52). -/
def backupAvg (s : Uct.Stats ℚ) (ret : ℚ) : Uct.Stats ℚ :=
  { n := s.n + 1, avg := fadd s.avg (fdiv (fsub ret s.avg) (fl ((s.n + 1 : Nat) : ℚ))) }

/-- `total_return_after` of `run_backup_phase` (src/thts.cpp:199-205) for a node: `rewards` are the rewards from the node on, in the order of the
trial, `hv` the heuristic value at the end.  The code adds them from the last one. -/
def returnAfter (hv : ℚ) (rewards : List ℚ) : ℚ := rewards.foldr (fun r total => fadd total r) hv

/-- `MCEvaluator::get_mean_return` (src/mc_eval.cpp:152-159). -/
def meanReturn (returns : List ℚ) : ℚ :=
  let weight := fdiv 1 (fl (returns.length : ℚ))
  returns.foldl (fun mean val => fadd mean (fmul weight val)) 0

/-- One child in `MentsCNode::backup_soft` (src/algorithms/ments/ments_chance_node.cpp:82-86) and `DPCNode::backup_dp_impl`
(src/algorithms/common/dp_chance_node.cpp:32-36): the value and the sum of backups so far, and a child's number of backups and value. -/
def chanceStep (acc : ℚ × ℚ) (child : Nat × ℚ) : ℚ × ℚ :=
  if child.1 = 0 then acc
  else
    let sum := fadd acc.2 (fl child.1)
    let val := fmul acc.1 (fdiv (fsub sum (fl child.1)) sum)
    (fadd val (fdiv (fmul (fl child.1) child.2) sum), sum)

/-- The value of a chance node after `MentsCNode::backup_soft` (src/algorithms/ments/ments_chance_node.cpp:75-90) or `DPCNode::backup_dp_impl`
(src/algorithms/common/dp_chance_node.cpp:28-41), from the children's numbers of backups and values. -/
def chanceValue (localReward : ℚ) (children : List (Nat × ℚ)) : ℚ :=
  fadd (children.foldl chanceStep (0, 0)).1 localReward

/-- The normalisation term of `MentsDNode::compute_action_weights` (src/algorithms/ments/ments_decision_node.cpp:159-166): the largest value over
temperature; `low` is `numeric_limits<double>::lowest()`. -/
def normTerm (temp low : ℚ) (qs : List (K × ℚ)) : ℚ :=
  qs.foldl (fun best p => if best < fdiv p.2 temp then fdiv p.2 temp else best) low

/-- `MentsDNode::compute_action_weights` (src/algorithms/ments/ments_decision_node.cpp:168-175) from the actions with their soft values (times the
opponent's sign): the weights.  `ex` is the library's `exp`. -/
def actionWeights (ex : ℚ → ℚ) (temp low : ℚ) (qs : List (K × ℚ)) : List (K × ℚ) :=
  qs.map fun p => (p.1, ex (fsub (fdiv p.2 temp) (normTerm temp low qs)))

/-- `lambda` in `MentsDNode::compute_action_distribution` (src/algorithms/ments/ments_decision_node.cpp:201-208): `epsilon` is the exploration parameter in
force and `lg` what the library's `log` returns for `num_visits + 1`. -/
def exploreProb (epsilon lg maxExplore : ℚ) : ℚ :=
  let lam := fdiv epsilon lg
  if maxExplore < lam then maxExplore else lam

/-- The distribution of `MentsDNode::compute_action_distribution` before removing actions (src/algorithms/ments/ments_decision_node.cpp:210-225), from
the weights and their sum as computed by the virtual function `compute_action_weights`.  Simplified: without a prior policy
(`prior_policy_search_weight` not positive, the default). -/
def mixtureW (lam sum : ℚ) (ws : List (K × ℚ)) : List (K × ℚ) :=
  let uniform := fdiv 1 (fl (ws.length : ℚ))
  ws.map fun p => (p.1, fadd (fmul p.2 (fdiv (fsub 1 lam) sum)) (fmul lam uniform))

/-- That distribution with the sum computed as in `MentsDNode::compute_action_weights` (src/algorithms/ments/ments_decision_node.cpp:169-174). -/
def mixture (lam : ℚ) (ws : List (K × ℚ)) : List (K × ℚ) := mixtureW lam (sumWeights ws) ws

/-- `MentsDNode::compute_action_distribution` (src/algorithms/ments/ments_decision_node.cpp:190-231): actions with a probability below `EPS` are removed. -/
def actionDistr (ex : ℚ → ℚ) (temp low lam : ℚ) (qs : List (K × ℚ)) : List (K × ℚ) :=
  (mixture lam (actionWeights ex temp low qs)).filter fun p => ¬ p.2 < EPS16

/-- `MentsDNode::select_action_ments` (src/algorithms/ments/ments_decision_node.cpp:240-248): the distribution is kept in an `unordered_map` with iteration
order `iter`. -/
def selectMents (ex : ℚ → ℚ) (temp low lam : ℚ) (iter : List (K × ℚ) → List (K × ℚ)) (qs : List (K × ℚ)) (u : ℚ) : Draw K :=
  sampleFrom (iter (actionDistr ex temp low lam qs)) true u

/-- `MentsDNode::backup_soft` (src/algorithms/ments/ments_decision_node.cpp:330-343): the new `soft_value`.  `qs` are the children's values times
`opp`, `lg` is the library's `log`. -/
def softValue (ex lg : ℚ → ℚ) (opp temp low : ℚ) (qs : List (K × ℚ)) : ℚ :=
  fmul (fmul opp temp) (fadd (lg (sumWeights (actionWeights ex temp low qs))) (normTerm temp low qs))

end Verif.Fp
