import Verif.Model.Fp
import Mathlib.Algebra.BigOperators.Group.List.Basic

/-!
# Exact counterparts of what the code computes in doubles, and what is assumed of library functions
-/

namespace Verif.Fp

variable {K : Type}

/-- Exact sum of the weights. -/
def mass (dist : List (K × ℚ)) : ℚ := (dist.map Prod.snd).sum

/-- The exact average of a list. -/
def exactMean (xs : List ℚ) : ℚ := xs.sum / xs.length

/-- The search policy of MENTS without rounding, for a weight `w` of weights with sum `S` of `n` actions, and probability `lam` of exploring. -/
def exactMix (lam S n w : ℚ) : ℚ := (1 - lam) * (w / S) + lam / n

/-- What is assumed of the library's `exp`. -/
structure GoodExp (ex : ℚ → ℚ) : Prop where
  dbl : ∀ x, IsDouble (ex x)
  nonneg : ∀ x, 0 ≤ ex x
  le_one : ∀ x, x ≤ 0 → ex x ≤ 1
  zero : ex 0 = 1

/-- Number of backups of all children. -/
def backups (children : List (Nat × ℚ)) : Nat := (children.map Prod.fst).sum

/-- The weighted sum of the children's values. -/
def weighted (children : List (Nat × ℚ)) : ℚ := (children.map fun p => (p.1 : ℚ) * p.2).sum

/-- The sparse set of values in decreasing order, in exact arithmetic: the `i`-th value, of the first `i` values with sum `s`, belongs to it if `1 + i v > s`. -/
def support : Nat → ℚ → List (ℚ × K) → List (ℚ × K)
  | _, _, [] => []
  | i, s, (v, a) :: rest => if s + v < 1 + (i + 1) * v then (v, a) :: support (i + 1) (s + v) rest else support (i + 1) (s + v) rest

/-- No value is within `m` of the boundary of the sparse set. -/
def Clear (m : ℚ) : Nat → ℚ → List (ℚ × K) → Prop
  | _, _, [] => True
  | i, s, (v, _) :: rest => m < |1 + (i + 1) * v - (s + v)| ∧ Clear m (i + 1) (s + v) rest

/-- The spmax formula for the values of the sparse set. -/
def spmaxOf (vs : List ℚ) : ℚ := 1 / 2 + (vs.map fun v => v ^ 2 / 2 - (vs.sum - 1) ^ 2 / (2 * (vs.length : ℚ) ^ 2)).sum

/-- The sparsemax weight of a value, for the values `vs` of the sparse set: what it is above the threshold at which the weights sum to one. -/
def sparsemaxOf (vs : List ℚ) (v : ℚ) : ℚ := max 0 (v - (vs.sum - 1) / (vs.length : ℚ))

/-- What is assumed of the library's `pow(x, 2.0)`: less than two units in the last place of error. -/
structure GoodSq (sq : ℚ → ℚ) : Prop where
  dbl : ∀ x, IsDouble (sq x)
  err : ∀ x, |sq x - x ^ 2| ≤ 2 * unit * x ^ 2 + tiny

end Verif.Fp
