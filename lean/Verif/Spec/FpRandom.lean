import Verif.Spec.RandomSearch
import Verif.Spec.FpSoftTree

/-!
# Random searches with doubles

The generator's uniform numbers are doubles, so an action's probability is the share of the draws for which `select_action` returns it.  Draws for which
`select_action` throws belong to no action: the probabilities of the actions add up to less than one, and `probAfter` is the probability that nothing has been thrown
and that something else holds.
-/

namespace Verif.Fp

open Verif.Search Verif.Random

open Classical in
/-- The share of the draws with property `P`. -/
noncomputable def share (us : List ℚ) (P : ℚ → Prop) : ℝ := us.countP (fun u => decide (P u)) / us.length

/-- The numbers `get_rand_uniform` may return, all equally likely: doubles in [0,1), spread evenly up to `η`. -/
structure EvenDraws (us : List ℚ) (η : ℝ) : Prop where
  ne : us ≠ []
  range : ∀ u ∈ us, IsDouble u ∧ 0 ≤ u ∧ u < 1
  even : ∀ a b : ℚ, 0 ≤ a → a ≤ b → b ≤ 1 → |share us (fun u => a ≤ u ∧ u < b) - (b - a)| ≤ η

/-- The multiples of `2^-b` in [0,1). -/
def grid (b : Nat) : List ℚ := (List.range (2 ^ b)).map fun i : Nat => (i : ℚ) / 2 ^ b

variable {S A X Y : Type} [DecidableEq S] [DecidableEq A]

/-- The random choices of MENTS and DB-MENTS with doubles (`py` is the MENTS part of the data of a chance node).  `iter v` is the order in which the node's action
distribution is iterated over, `obs` is the environment's distribution of observations. -/
noncomputable def fpDice (us : List ℚ) (ex lg : ℚ → ℚ) (cfg : MentsCfg) (py : Y → SoftF) (iter : View S A X Y → List (A × ℚ) → List (A × ℚ))
    (obs : S → A → List (S × ℝ)) : Dice S A ℚ X Y where
  sel v _ := v.actions.map fun a =>
    (a, share us fun u => selectMents ex cfg.temp cfg.low (mentsLambda lg cfg v) (iter v) (softQs cfg py v) u = .key a)
  obs := obs

/-- The smallest epsilon of uniform exploration. -/
def minEpsF (cfg : MentsCfg) : ℚ := if 0 < cfg.rootEpsilon then min cfg.rootEpsilon cfg.epsilon else cfg.epsilon

/-- Half the weight of the uniform policy (or `max_explore_prob`, if that is less) in the first `N` trials. -/
noncomputable def exploreLow (cfg : MentsCfg) (N : Nat) : ℝ := min (minEpsF cfg / (2 * Real.log (N + 1))) cfg.maxExplore

/-- How much they explore: if no state has more than `n` actions every action has at least this probability in each of the first `N` trials. -/
noncomputable def fpExplore (cfg : MentsCfg) (n N : Nat) : ℝ := exploreLow cfg N / (4 * n)

/-- The probability that a selection throws, if there are at most `n` actions. -/
noncomputable def failRate (n : Nat) (η : ℝ) : ℝ := (5 * n + 9) * unit + η

/-- What C98 assumes of the exploration. -/
structure FpExploring (cfg : MentsCfg) (n N : Nat) (η : ℝ) : Prop where
  eps : 0 ≤ cfg.epsilon
  max : IsDouble cfg.maxExplore ∧ cfg.maxExplore ≤ 1
  few : n ≤ 800
  big : n * (48 * n + 72) * unit + 4 * n * η ≤ exploreLow cfg N

end Verif.Fp
