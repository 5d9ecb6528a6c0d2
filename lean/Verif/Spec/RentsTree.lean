import Verif.Spec.TentsTree

/-! # How much the value of a RENTS node can fall short of the largest value of its actions

The value of a node is computed relative to the policy its parent had when the trial passed it.  An action that is rare in that policy
counts little, one that is not listed counts nothing. -/

namespace Verif.Tents

open Verif.Search Verif.Backups Verif.Ments Verif.Spec Verif.Random

variable {S A : Type}

/-- All states that are not sinks have the same actions. -/
def SameActions (env : Env S A ℝ) : Prop :=
  ∀ s s', env.isSink s = false → env.isSink s' = false → ∀ a ∈ env.actions s', a ∈ env.actions s

/-- The parent's policy gives at least the probability `p` to every action in the first `N` trials: `p` is zero (which says nothing), or all states
have the same actions and `p` is the probability with which they are explored. -/
def FloorOk (cfg : Cfg S A) (env : Env S A ℝ) (B N : Nat) (p : ℝ) : Prop :=
  p = 0 ∨ (SameActions env ∧ p = softExplore cfg B N ∧ 1 / 10 ^ 16 ≤ p ∧ ∀ s, (env.actions s).length ≤ B)

/-- How much less than the largest value of its actions the value of a node can be, in temperatures, if the parent's policy gives at least `p` to
every action: `log (1 / p)`; whatever the policy, `16 log 10`. -/
noncomputable def loss (p : ℝ) : ℝ := if p = 0 then 16 * Real.log 10 else Real.log (1 / p)

end Verif.Tents
