import Mathlib.MeasureTheory.Measure.Lebesgue.Basic
import Mathlib.Algebra.BigOperators.Group.List.Basic

/-! # Specification vocabulary for sampling: weights, probabilities. -/

namespace Verif.Spec

variable {K 𝕜 : Type}

/-- Total weight of a list of weighted keys. -/
def mass [AddMonoid 𝕜] (dist : List (K × 𝕜)) : 𝕜 := (dist.map Prod.snd).sum

/-- The weight of a key in a map without repeated keys (0 if absent). -/
def weightOf [AddMonoid 𝕜] [DecidableEq K] (dist : List (K × 𝕜)) (k : K) : 𝕜 :=
  mass (dist.filter fun p => p.1 = k)

/-- `k` has the largest value of the map. -/
def IsBest [LE 𝕜] (m : List (K × 𝕜)) (k : K) : Prop := ∃ v, (k, v) ∈ m ∧ ∀ p ∈ m, p.2 ≤ v

/-- The probability, over a uniform draw `u` from `[0,1)`, that `f u` has property `P`: the length of the set of those draws. -/
noncomputable def prob {β : Type} (f : ℝ → β) (P : β → Prop) : ℝ :=
  (MeasureTheory.volume {u : ℝ | 0 ≤ u ∧ u < 1 ∧ P (f u)}).toReal

end Verif.Spec
