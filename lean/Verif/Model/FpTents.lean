import Verif.Model.FpCode

/-!
# TENTS on doubles (src/algorithms/ments/tents/tents_decision_node.cpp)

The functions of `Model/Tents.lean` with every operation rounded.  Values are those of Q over the temperature.
-/

namespace Verif.Fp

open Verif.Sampling (Draw)

variable {K : Type}

/-- The loop of `get_sparse_action_set` (tents_decision_node.cpp:82-90): `i` and `sum_values` are doubles. -/
def sparseLoop : List (ℚ × K) → ℚ → ℚ → List (ℚ × K)
  | [], _, _ => []
  | (value, a) :: rest, i, sum =>
    let sum' := fadd sum value
    if sum' < fadd 1 (fmul (fadd i 1) value) then (value, a) :: sparseLoop rest (fadd i 1) sum' else sparseLoop rest (fadd i 1) sum'

/-- `get_sparse_action_set` (tents_decision_node.cpp:78-92) for the entries of `qval_to_act` in decreasing order.  The actions are returned with their values:
`act_to_qval` and `qval_to_act` agree (C43). -/
def sparseSet (desc : List (ℚ × K)) : List (ℚ × K) := sparseLoop desc 0 0

/-- `spmax` (tents_decision_node.cpp:99-115); `sq x` is what the library returns for `pow(x, 2.0)`.  With an empty sparse set the common term is infinite but
not used. -/
def spmax (sq : ℚ → ℚ) (desc : List (ℚ × K)) : ℚ :=
  let sp := sparseSet desc
  let sum := sp.foldl (fun s p => fadd s p.1) 0
  let common := fdiv (fmul (1 / 2) (sq (fsub sum 1))) (sq (fl (sp.length : ℚ)))
  sp.foldl (fun s p => fadd s (fsub (fdiv (sq p.1) 2) common)) (1 / 2)

/-- `compute_action_weights` (tents_decision_node.cpp:125-158): the weights and their sum, for the current values `q` of the actions; the sparse set is computed from the stored
values `desc`.  `none`: the sparse set is empty, so that the common term is `-1.0 / 0` and all weights are infinite. -/
def tentsWeights (q : K → ℚ) (desc : List (ℚ × K)) (actions : List K) : Option (List (K × ℚ) × ℚ) :=
  let sp := sparseSet desc
  if sp.isEmpty then none
  else
    let sumSparse := sp.foldl (fun s p => fadd s (q p.2)) 0
    let common := fdiv (fsub sumSparse 1) (fl (sp.length : ℚ))
    let ws := actions.map fun a => (a, if fsub (q a) common < 0 then 0 else fsub (q a) common)
    if sumWeights ws < EPS16 then some (actions.map fun a => (a, fdiv 1 (fl (actions.length : ℚ))), 1) else some (ws, sumWeights ws)

/-- `TentsDNode::select_action` (tents_decision_node.cpp:164-168), which is `select_action_ments` (ments_decision_node.cpp:240-248) with the weights above.  If the
weights are infinite then so is their sum, their quotient is not a number, and the loop of `sample_from_distribution` ends without returning, because comparing with such a
value gives `false`; so it throws. -/
def selectTents (lam : ℚ) (iter : List (K × ℚ) → List (K × ℚ)) (q : K → ℚ) (desc : List (ℚ × K)) (actions : List K) (u : ℚ) : Draw K :=
  match tentsWeights q desc actions with
  | none => .tooLittle
  | some (ws, sum) => sampleFrom (iter ((mixtureW lam sum ws).filter fun p => ¬ p.2 < EPS16)) true u

end Verif.Fp
