import Verif.Spec.Random
import Verif.Spec.Ments
import Verif.Model.Ments
import Verif.Model.Uct

/-! # The random choices of the search algorithms -/

namespace Verif.Random

open Verif.Search Verif.Spec Verif.Sampling

variable {S A X Y : Type} [DecidableEq S] [DecidableEq A]

/-- The random choices of MENTS, DB-MENTS, DENTS and EST, which differ in the Q-values `q`: an action has the probability that
`select_action` returns it when the uniform draw is uniform in [0,1).  `iter v` is the order in which the node's action distribution is
iterated over, `obs` is the environment's distribution of observations. -/
noncomputable def softDice (eps : ℝ) (cfg : Ments.Cfg S A) (q : View S A X Y → A → Except Ments.Bad ℝ)
    (iter : View S A X Y → List (A × ℝ) → List (A × ℝ)) (obs : S → A → List (S × ℝ)) : Dice S A ℝ X Y where
  sel v _ := v.actions.map fun a => (a, prob (fun u => Ments.selectAction eps cfg (q v) v u (iter v)) (· = .ok (.key a)))
  obs := obs

/-- The smallest epsilon of uniform exploration. -/
noncomputable def minEps (cfg : Ments.Cfg S A) : ℝ := if 0 < cfg.rootEpsilon then min cfg.rootEpsilon cfg.epsilon else cfg.epsilon

/-- How much they explore: if no state has more than `B` actions every action has at least this probability in each of the first `N` trials. -/
noncomputable def softExplore (cfg : Ments.Cfg S A) (B N : Nat) : ℝ := min (minEps cfg / Real.log (N + 1)) cfg.maxExplore / B

/-- The random choices of UCT and PUCT: the draw compared with epsilon is uniform in [0,1); the other random number is uniform in
`{0, …, |A|! - 1}`, so that its remainder modulo any number of candidates is uniform. -/
noncomputable def uctDice (cfg : Uct.Cfg S A ℝ) (iter : View S A (Uct.Stats ℝ) (Uct.Stats ℝ) → List (A × ℝ) → List (A × ℝ))
    (obs : S → A → List (S × ℝ)) : Dice S A ℝ (Uct.Stats ℝ) (Uct.Stats ℝ) where
  sel v _ := v.actions.map fun a =>
    (a, ((List.range v.actions.length.factorial).map fun raw => prob (fun u => Uct.selectAction cfg v u raw (iter v)) (· = some a)).sum /
      v.actions.length.factorial)
  obs := obs

/-- The environment's distribution of observations: it offers only possible ones, each with probability at least `po`. -/
def Transitions (env : Env S A ℝ) (obs : S → A → List (S × ℝ)) (po : ℝ) : Prop :=
  ∀ s a, env.isSink s = false → a ∈ env.actions s →
    Eval.IsDistr (obs s a) ∧ (∀ p ∈ obs s a, p.2 ≠ 0 → p.1 ∈ env.succ s a) ∧ ∀ o ∈ env.succ s a, po ≤ weightOf (obs s a) o

end Verif.Random
