import Verif.Model.Ments
import Verif.Spec.Sampling
import Mathlib.Order.Bounds.Basic

/-!
# The documented MENTS search policy

include/algorithms/ments/ments_manager.h documents it as `(1-w2)(1-wp)*p1 + (1-w2)*wp*pp + w2*p2` with the energy based policy
`p1`, the uniform policy `p2` and the prior policy `pp`.
-/

namespace Verif.Ments

open Verif.Search

variable {S A X Y : Type} [DecidableEq S] [DecidableEq A]

/-- Every valid action has a Q-value (from the point of view of the player to move), and it is `Q a`. -/
def QIs (q : A → Except Bad ℝ) (v : View S A X Y) (Q : A → ℝ) : Prop := ∀ a ∈ v.actions, q a = .ok (Q a)

/-- `∑ exp(Q/temp)` over the valid actions. -/
noncomputable def partition (temp : ℝ) (Q : A → ℝ) (actions : List A) : ℝ := (actions.map fun a => Real.exp (Q a / temp)).sum

/-- The energy based (Boltzmann) policy. -/
noncomputable def boltzmann (temp : ℝ) (Q : A → ℝ) (actions : List A) (a : A) : ℝ :=
  Real.exp (Q a / temp) / partition temp Q actions

/-- The epsilon in force at the node. -/
noncomputable def epsilonAt (cfg : Cfg S A) (v : View S A X Y) : ℝ :=
  if v.depth = 0 ∧ 0 < cfg.rootEpsilon then cfg.rootEpsilon else cfg.epsilon

/-- Weight of the uniform policy at a node that has been visited. -/
noncomputable def uniformWeight (cfg : Cfg S A) (v : View S A X Y) : ℝ :=
  min (epsilonAt cfg v / Real.log (v.visits + 1)) cfg.maxExplore

/-- Weight of the prior policy. -/
noncomputable def priorWeightAt (cfg : Cfg S A) (v : View S A X Y) : ℝ :=
  if 0 < cfg.priorWeight then cfg.priorWeight / Real.log (v.visits + 3) else 0

/-- Prior probability of an action at the node (0 if there is no prior). -/
noncomputable def priorAt (cfg : Cfg S A) (v : View S A X Y) (a : A) : ℝ :=
  match cfg.prior with
  | none => 0
  | some f => (find? a (f v.state)).getD 0

/-- If the prior policy has a weight, there is one and it covers the valid actions. -/
def PriorCovers (cfg : Cfg S A) (v : View S A X Y) : Prop :=
  0 < cfg.priorWeight → ∃ f, cfg.prior = some f ∧ ∀ a ∈ v.actions, (find? a (f v.state)).isSome

/-- The documented search policy. -/
noncomputable def policy (cfg : Cfg S A) (temp : ℝ) (v : View S A X Y) (Q : A → ℝ) (a : A) : ℝ :=
  (1 - uniformWeight cfg v) * (1 - priorWeightAt cfg v) * boltzmann temp Q v.actions a
    + (1 - uniformWeight cfg v) * priorWeightAt cfg v * priorAt cfg v a
    + uniformWeight cfg v * (1 / v.actions.length)

end Verif.Ments
