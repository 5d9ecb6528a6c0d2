import Verif.Model.Tents
import Verif.Spec.Ments

/-! # What the policies of TENTS and RENTS should be -/

namespace Verif.Tents

open Verif.Search Verif.Sampling Verif.Spec Verif.Backups Verif.Ments

variable {S A X Y : Type} [DecidableEq S] [DecidableEq A]

/-- The documented mixture (include/algorithms/ments/ments_manager.h) with base policy `b` in place of the energy based one. -/
noncomputable def mixture (cfg : Cfg S A) (v : View S A X Y) (b : A → ℝ) (a : A) : ℝ :=
  (1 - uniformWeight cfg v) * (1 - priorWeightAt cfg v) * b a
    + (1 - uniformWeight cfg v) * priorWeightAt cfg v * priorAt cfg v a
    + uniformWeight cfg v * (1 / v.actions.length)

/-- A base distribution over the valid actions. -/
structure IsDistr (acts : List A) (b : A → ℝ) : Prop where
  nonneg : ∀ a ∈ acts, 0 ≤ b a
  sum : (acts.map b).sum = 1

/-- `p` is the distribution over the actions closest to `z` (the sparsemax of `z`). -/
def IsSparsemax (acts : List A) (z p : A → ℝ) : Prop :=
  IsDistr acts p ∧ ∀ r, IsDistr acts r → (acts.map fun a => (p a - z a) ^ 2).sum ≤ (acts.map fun a => (r a - z a) ^ 2).sum

/-- Expected value plus Tsallis entropy (index 2) of a distribution, the objective of TENTS. -/
noncomputable def tsallisObjective (acts : List A) (z r : A → ℝ) : ℝ :=
  (acts.map fun a => r a * z a).sum + 1 / 2 * (1 - (acts.map fun a => r a ^ 2).sum)

/-- `P` are the probabilities a policy lists; actions it does not list have probability zero. -/
def Listed (l : List (A × ℝ)) (P : A → ℝ) : Prop := ∀ a, (∀ p, (a, p) ∈ l → P a = p) ∧ ((∀ p, (a, p) ∉ l) → P a = 0)

/-- `∑ P exp(Q/temp)` over the valid actions. -/
noncomputable def relPartition (temp : ℝ) (P Q : A → ℝ) (acts : List A) : ℝ := (acts.map fun a => P a * Real.exp (Q a / temp)).sum

/-- The RENTS policy relative to `P`: proportional to `P exp(Q/temp)`; uniform if all these weights vanish relative to
`exp M` (`M` is the largest `Q/temp`). -/
noncomputable def relPolicy (temp : ℝ) (P Q : A → ℝ) (M : ℝ) (acts : List A) (a : A) : ℝ :=
  if relPartition temp P Q acts < 1 / 10 ^ 16 * Real.exp M then 1 / acts.length
  else P a * Real.exp (Q a / temp) / relPartition temp P Q acts

/-- The value of a RENTS node for the player to move. -/
noncomputable def relValue (temp : ℝ) (P Q : A → ℝ) (M : ℝ) (acts : List A) : ℝ :=
  if relPartition temp P Q acts < 1 / 10 ^ 16 * Real.exp M then temp * M
  else temp * Real.log (relPartition temp P Q acts)

end Verif.Tents
