import Verif.Model.FpCode

/-!
# The evaluator on doubles

The return of a rollout and the second statistic of the evaluator with every operation rounded; their exact versions are in `Model/McEval.lean`.
The first statistic is `meanReturn` of `Model/FpCode.lean`.
-/

namespace Verif.Fp

/-- `MCEvaluator::get_stddev_return` (src/mc_eval.cpp:164-172), the number it returns for at least two returns.  `sq d` stands for `pow(d, 2.0)`, whose
accuracy is an assumption of the theorems.  For one return the code divides by zero, for none the mean does; both are left to `Model/McEval.lean`. -/
def spreadReturn (sq : ℚ → ℚ) (returns : List ℚ) : ℚ :=
  let mean := meanReturn returns
  let weight := fdiv 1 (fsub (fl (returns.length : ℚ)) 1)
  returns.foldl (fun stddev val => fadd stddev (fmul weight (sq (fsub val mean)))) 0

/-- The return of a rollout, `sample_return` of `MCEvaluator::run_rollout` (src/mc_eval.cpp:88, 100): its rewards added up in their order. -/
def rolloutReturn (rewards : List ℚ) : ℚ := rewards.foldl (fun total r => fadd total r) 0

end Verif.Fp
