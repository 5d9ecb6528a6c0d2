import Verif.Spec.Sampling
import Mathlib.MeasureTheory.Measure.Prod

/-! # Probabilities for two independent draws. -/

namespace Verif.Spec
open MeasureTheory

/-- The probability that `f u v` has property `P` when `u` is a uniform draw from `[0,1)` and `v` an independent draw with
distribution `μ`. -/
noncomputable def prob2 {V β : Type} [MeasurableSpace V] (μ : Measure V) (f : ℝ → V → β) (P : β → Prop) : ℝ :=
  ((volume : Measure ℝ).prod μ).real {p : ℝ × V | 0 ≤ p.1 ∧ p.1 < 1 ∧ P (f p.1 p.2)}

end Verif.Spec
