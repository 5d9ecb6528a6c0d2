import Verif.Model.Ments
import Verif.Spec.Ments

/-!
# The weight of a prior policy (C114)

`IsPrior` says what a prior policy is; `pickEnv` is a game of one move, `Heavy` the settings in which the search of this
game throws.
-/

namespace Verif.Prior

open Verif.Search Verif.Ments

/-- `f` gives the actions of the node probabilities that add up to one. -/
def IsPrior {S A X Y : Type} [DecidableEq A] (f : S → List (A × ℝ)) (v : View S A X Y) : Prop :=
  (∀ a ∈ v.actions, ∃ p, find? a (f v.state) = some p ∧ 0 ≤ p) ∧ (v.actions.map fun a => (find? a (f v.state)).getD 0).sum = 1

inductive Stage | start | finish
  deriving DecidableEq, Repr

/-- One move: `true` gives reward 10, `false` none. -/
noncomputable def pickReward (_ : Stage) (a : Bool) : ℝ := if a then 10 else 0

noncomputable def pickEnv : Env Stage Bool ℝ where
  isSink s := s == .finish
  actions s := match s with
    | .start => [true, false]
    | .finish => []
  succ _ _ := [.finish]
  reward s a _ := pickReward s a

def pickMgr (mcts : Bool) : Manager Stage ℝ where
  maxDepth := 1
  mctsMode := mcts
  twoPlayer := false
  useTable := false
  numMutexes := 0
  heuristic := none

/-- The prior prefers the worse move, but leaves the better one a probability of 1/10. -/
noncomputable def pickPrior (_ : Stage) : List (Bool × ℝ) := [(true, 1 / 10), (false, 9 / 10)]

/-- The settings: this prior with a large weight, and either a limit of the exploration or an epsilon of at most 1/2 (the default). -/
structure Heavy (cfg : Cfg Stage Bool) (N : Nat) : Prop where
  temp : cfg.temp = 1
  decay : cfg.decay = none
  prior : cfg.prior = some pickPrior
  weight : 6 * Real.log (N + 3) ≤ cfg.priorWeight
  shift : cfg.shift = false
  defaultQ : cfg.defaultQ = 10
  eps : 0 ≤ cfg.epsilon
  max0 : 0 ≤ cfg.maxExplore
  explore : cfg.maxExplore ≤ 3 / 4 ∨ (cfg.epsilon ≤ 1 / 2 ∧ cfg.rootEpsilon ≤ 1 / 2)

/-- The event that the better move is selected. -/
def selectsBetter : Event Stage Bool ℝ → Bool
  | .selected _ _ a _ => a
  | _ => false

/-- The event that a move is selected. -/
def selects : Event Stage Bool ℝ → Bool
  | .selected _ _ _ _ => true
  | _ => false

end Verif.Prior
