import Verif.Model.Uct
import Mathlib.Order.Bounds.Basic

/-! # The UCB formula, independently of the code's loops -/

namespace Verif.Uct

open Verif.Search

section
variable {S A 𝕜 : Type} [DecidableEq S] [DecidableEq A] [Field 𝕜] [LinearOrder 𝕜]

/-- The average return of an action's child (0 if the action has not been tried). -/
def avgOf (v : View S A (Stats 𝕜) (Stats 𝕜)) (a : A) : 𝕜 := ((find? a v.kids).map fun y => y.2.avg).getD 0

/-- The visit count of an action's child (0 if the action has not been tried). -/
def visitsOf (v : View S A (Stats 𝕜) (Stats 𝕜)) (a : A) : Nat := ((find? a v.kids).map Prod.fst).getD 0

/-- The action has been tried. -/
def Tried (v : View S A (Stats 𝕜) (Stats 𝕜)) (a : A) : Prop := a ∈ v.kids.map Prod.fst

/-- `prior a` is the prior probability of every valid action: one without a prior policy, and otherwise the entry of the
prior policy for the node's state. -/
def PriorIs (cfg : Cfg S A 𝕜) (v : View S A (Stats 𝕜) (Stats 𝕜)) (prior : A → 𝕜) : Prop :=
  ∀ a ∈ v.actions, match cfg.prior with
    | none => prior a = 1
    | some f => find? a (f v.state) = some (prior a)

/-- `b` is the bias: the configured one, or for the automatic bias (configured as `-1`) the largest absolute average return of
a tried action, but at least `0.001`. -/
def BiasIs (cfg : Cfg S A 𝕜) (v : View S A (Stats 𝕜) (Stats 𝕜)) (b : 𝕜) : Prop :=
  if cfg.bias = -1 then IsGreatest ({1 / 1000} ∪ {x | ∃ a ∈ v.actions, Tried v a ∧ x = |avgOf v a|}) b else b = cfg.bias

/-- The UCB formula for an exploration term `explore N n`. -/
def score (explore : Nat → Nat → 𝕜) (prior : A → 𝕜) (bias : 𝕜) (v : View S A (Stats 𝕜) (Stats 𝕜)) (a : A) : 𝕜 :=
  (if v.opp then -1 else 1) * avgOf v a + prior a * bias * explore v.visits (visitsOf v a)

/-- The possible iteration orders of an `unordered_map` after a list of assignments: the same entries in any order. -/
def IterOk {K V : Type} (iter : List (K × V) → List (K × V)) : Prop := ∀ l p, p ∈ iter l ↔ p ∈ l

end

/-- Exploration term of UCT: `sqrt(log N / n)` with both counts clamped below at one. -/
noncomputable def uctExplore (N n : Nat) : ℝ := √(Real.log (max N 1 : Nat) / (max n 1 : Nat))

/-- Exploration term of PUCT: `N^p / n` with both counts clamped below at one. -/
noncomputable def puctExplore (p : ℝ) (N n : Nat) : ℝ := ((max N 1 : Nat) : ℝ) ^ p / (max n 1 : Nat)

end Verif.Uct
