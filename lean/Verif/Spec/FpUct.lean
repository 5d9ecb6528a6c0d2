import Verif.Model.FpUct
import Verif.Spec.FpSearch
import Verif.Spec.FpExp
import Verif.Spec.Uct

/-! # The UCB formula in real arithmetic, and what is assumed of `sqrt` and `pow` -/

namespace Verif.Fp

open Verif.Search
open Verif.Uct (Stats Cfg avgOf visitsOf Tried)

/-- The library's `sqrt` has less than one unit in the last place of error. -/
def AccurateSqrt (sq : ℚ → ℚ) : Prop := ∀ x : ℚ, 0 ≤ x → IsDouble x → IsDouble (sq x) ∧ |(sq x : ℝ) - √x| ≤ 2 * unit * √x

/-- The library's `pow`, with exponent `p`, has relative error `γ` on doubles from one on. -/
def AccuratePow (pw : ℚ → ℚ → ℚ) (p : ℚ) (γ : ℝ) : Prop := ∀ x : ℚ, 1 ≤ x → IsDouble x → |(pw x p : ℝ) - (x : ℝ) ^ (p : ℝ)| ≤ γ * (x : ℝ) ^ (p : ℝ)

/-- The exploration term computed has relative error `δ` for counts below 2^31. -/
def AccurateTerm (term : Nat → Nat → ℚ) (explore : Nat → Nat → ℝ) (δ : ℝ) : Prop :=
  ∀ N n, N < 2 ^ 31 → n < 2 ^ 31 → 0 ≤ explore N n ∧ IsDouble (term N n) ∧ |(term N n : ℝ) - explore N n| ≤ δ * explore N n

variable {S A : Type} [DecidableEq S] [DecidableEq A]

/-- `b` is the bias: the configured one, or for the automatic bias (configured as `-1`) the largest absolute average return of a tried action, but at least the double
next to `0.001`. -/
def BiasIs (cfg : Cfg S A ℚ) (v : View S A (Stats ℚ) (Stats ℚ)) (b : ℚ) : Prop :=
  if cfg.bias = -1 then IsGreatest ({fl (1 / 1000)} ∪ {x | ∃ a ∈ v.actions, Tried v a ∧ x = |avgOf v a|}) b else b = cfg.bias

/-- The UCB formula in real arithmetic, for an exploration term `explore N n` and the stored averages. -/
noncomputable def ucbScore (explore : Nat → Nat → ℝ) (prior : A → ℚ) (bias : ℚ) (v : View S A (Stats ℚ) (Stats ℚ)) (a : A) : ℝ :=
  (if v.opp then -1 else 1) * ((avgOf v a : ℚ) : ℝ) + prior a * bias * explore v.visits (visitsOf v a)

/-- Bound on the rounding error of a UCB value: `δ` is the accuracy of the exploration term. -/
noncomputable def ucbError (δ : ℝ) (explore : Nat → Nat → ℝ) (prior : A → ℚ) (bias : ℚ) (v : View S A (Stats ℚ) (Stats ℚ)) (a : A) : ℝ :=
  (δ + 4 * unit) * (|(prior a : ℝ) * bias| * explore v.visits (visitsOf v a)) + unit * |((avgOf v a : ℚ) : ℝ)| + 2 * (|(prior a : ℝ)| + 2) * tiny

end Verif.Fp
