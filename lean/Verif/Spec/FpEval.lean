import Verif.Model.Fp

/-!
# What the spread of the returns should be (C118)
-/

namespace Verif.Fp

/-- The sample variance in exact arithmetic: the sum of the squared distances from the mean, divided by one less than the number of samples. -/
def sampleVariance (xs : List ℚ) : ℚ :=
  (xs.map fun x => (x - xs.sum / xs.length) ^ 2).sum / (xs.length - 1)

/-- A function that squares doubles with an error of at most two units in the last place (four half units), as `pow` does. -/
def SquaresWell (sq : ℚ → ℚ) : Prop := ∀ d, IsDouble d → 0 ≤ sq d ∧ |sq d - d ^ 2| ≤ 4 * unit * d ^ 2 + 2 * tiny

end Verif.Fp
