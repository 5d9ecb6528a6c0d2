import Verif.Spec.Tree
import Verif.Spec.Random
import Verif.Model.Dents
import Verif.Spec.Uct

/-!
# A game in which average returns mislead (C113)

One player, two moves.  At the start `stop` ends the game with reward 9/1000, `on` leads to a fork, where `good` ends the game with reward
1/100 and `bad` without reward.  So the optimal play is `on`, `good`.
-/

namespace Verif.Average

open Verif.Search Verif.Backups
open Verif.Uct (IterOk)
open Verif.Dents

inductive Place | start | fork | finish
  deriving DecidableEq, Repr

inductive Move | on | stop | good | bad
  deriving DecidableEq, Repr

noncomputable def forkEnv : Env Place Move ℝ where
  isSink s := s == .finish
  actions s := match s with
    | .start => [.on, .stop]
    | .fork => [.good, .bad]
    | .finish => []
  succ _ a := match a with
    | .on => [.fork]
    | _ => [.finish]
  reward _ a _ := match a with
    | .stop => 9 / 1000
    | .good => 1 / 100
    | _ => 0

/-- Where a move leads. -/
def forkNext (_ : Place) : Move → Place
  | .on => .fork
  | _ => .finish

/-- A manager for this game: any mode, no transposition table, no heuristic. -/
def forkMgr (mcts : Bool) : Manager Place ℝ where
  maxDepth := 2
  mctsMode := mcts
  twoPlayer := false
  useTable := false
  numMutexes := 0
  heuristic := none

/-- The settings: average returns, the default temperature, no prior and the default recommendation.  Exploration is left open. -/
structure Plain (cfg : DCfg Place Move) : Prop where
  dp : cfg.useDp = false
  temp : cfg.temp = 1
  decay : cfg.decay = none
  prior : cfg.prior = none
  weight : cfg.priorWeight = 0
  defaultQ : cfg.defaultQ = 0
  visited : cfg.mostVisited = false
  threshold : cfg.threshold ≤ 1
  low : cfg.low ≤ 0
  eps : 0 ≤ cfg.epsilon
  max0 : 0 ≤ cfg.maxExplore
  max1 : cfg.maxExplore ≤ 1

section
variable {S A : Type} [DecidableEq S] [DecidableEq A]

/-- `a` is an optimal first move of the game from state `s`: it maximises (minimises, for the opponent) its reward plus the value of the rest
of the game. -/
def OptimalMove (env : Env S A ℝ) (m : Manager S ℝ) (next : S → A → S) (depth time : Int) (s : S) (a : A) : Prop :=
  a ∈ env.actions s ∧ Best (isOpponent m time)
    {x | ∃ b ∈ env.actions s, env.reward s b (next s b) + gameValue env m next (remaining m (depth + 1)) (time + 1) (next s b) = x}
    (env.reward s a (next s a) + gameValue env m next (remaining m (depth + 1)) (time + 1) (next s a))

/-- DENTS and EST can recommend `a` at the root: with some random number for breaking ties and some order of iteration. -/
def MayRecommend (env : Env S A ℝ) (m : Manager S ℝ) (cfg : DCfg S A) (st : St S A ℝ DX DY) (a : A) : Prop :=
  ∃ nd, st.dn[st.root]? = some nd ∧ ∃ (lowI : Int) (raw : Nat) (iter : List (A × ℝ) → List (A × ℝ)) (iterI : List (A × Int) → List (A × Int)),
    IterOk iter ∧ IterOk iterI ∧ recommendDents cfg lowI (viewOf env m st nd) raw iter iterI = some a

end

end Verif.Average
