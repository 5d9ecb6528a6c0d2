import Verif.Spec.Fp
import Mathlib.Analysis.SpecialFunctions.Log.Basic

/-!
# The library's `exp`, and the search policy of MENTS in real numbers
-/

namespace Verif.Fp

/-- The library's `exp` has relative error `α` (and an error of half the smallest double, for results that underflow) on non-positive doubles. -/
def Accurate (ex : ℚ → ℚ) (α : ℝ) : Prop := ∀ x : ℚ, x ≤ 0 → IsDouble x → |(ex x : ℝ) - Real.exp x| ≤ α * Real.exp x + tiny

/-- The probability of an action with soft value `q`, among actions with soft values `qs`: softmax with temperature `temp`, mixed with the uniform policy. -/
noncomputable def softMix {K : Type} (lam temp : ℚ) (qs : List (K × ℚ)) (q : ℚ) : ℝ :=
  (1 - lam) * (Real.exp ((q : ℝ) / temp) / (qs.map fun p => Real.exp ((p.2 : ℝ) / temp)).sum) + lam / qs.length

/-- The library's `log` has relative error `β` on doubles from one on. -/
def AccurateLog (lg : ℚ → ℚ) (β : ℝ) : Prop := ∀ x : ℚ, 1 ≤ x → IsDouble x → IsDouble (lg x) ∧ |(lg x : ℝ) - Real.log x| ≤ β * Real.log x + tiny

/-- Log-sum-exp of values over a temperature. -/
noncomputable def logSumExp {K : Type} (temp : ℚ) (qs : List (K × ℚ)) : ℝ := Real.log (qs.map fun p => Real.exp ((p.2 : ℝ) / temp)).sum

end Verif.Fp
