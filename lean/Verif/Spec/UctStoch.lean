import Verif.Spec.Explore
import Verif.Spec.Stochastic

/-! # What UCT needs to solve a stochastic game (C102) -/

namespace Verif.Uct

open Verif.Search Verif.Backups Verif.Random

/-- As `Solvable`, for a stochastic environment: `obs s a` is a distribution over the possible successors of action `a` in state `s`, rewards
and heuristic values are bounded, there is no transposition table, the configuration explores, and the exploration term is that of UCT, or that
of PUCT with a power between 0 and 1, or one that behaves like them. -/
structure SolvableS {S A : Type} [DecidableEq A] (env : Env S A ℝ) (m : Manager S ℝ) (cfg : Cfg S A ℝ) (obs : S → A → List (S × ℝ)) (lo hi : ℝ) :
    Prop where
  distr : ∀ s a, env.isSink s = false → a ∈ env.actions s → Eval.IsDistr (obs s a) ∧ ∀ p ∈ obs s a, p.2 ≠ 0 → p.1 ∈ env.succ s a
  bounded : Backups.Bounded env m lo hi
  noTable : m.useTable = false
  fair : Fair env cfg
  term : cfg.term = uctTerm ∨ (∃ p, 0 < p ∧ p < 1 ∧ cfg.term = puctTerm p) ∨ (Growing cfg.term ∧ Vanishing cfg.term)

section
variable {S A : Type} [DecidableEq S] [DecidableEq A]

/-- At decision node `d`, after history `h`, the search has solved the game up to `ε`: the node's value is within `ε` of the value of the game
from the node's state, time and depth; every action of the node has been tried and its value is within `ε` of the action's value in the
game; every action that is not optimal was selected by at most the fraction `ε` of the trials that went on from the node; and the action that
`recommend_action` returns, for every random number and iteration order, is optimal. -/
def SolvedAt (env : Env S A ℝ) (m : Manager S ℝ) (cfg : Cfg S A ℝ) (obs : S → A → List (S × ℝ)) (lowI : Int) (ε : ℝ)
    (st : St S A ℝ (Stats ℝ) (Stats ℝ)) (h : List (Event S A ℝ)) (d : Nat) : Prop :=
  ∃ nd, st.dn[d]? = some nd ∧ |nd.x.avg - expValue env m obs (remaining m nd.depth) nd.time nd.state| ≤ ε ∧
    (∀ a ∈ env.actions nd.state, ∃ c nc, childC st d a = some c ∧ st.cn[c]? = some nc ∧
      |nc.y.avg - actionValue env m obs (remaining m (nd.depth + 1)) nd.time nd.state a| ≤ ε) ∧
    (∀ b ∈ env.actions nd.state,
      actionValue env m obs (remaining m (nd.depth + 1)) nd.time nd.state b ≠ expValue env m obs (remaining m nd.depth) nd.time nd.state →
        timesSelected d b h ≤ ε * trialsThrough d h) ∧
    ∀ (raw : Nat) (iter : List (A × ℝ) → List (A × ℝ)) (iterI : List (A × Int) → List (A × Int)), IterOk iter → IterOk iterI →
      ∃ a, recommend cfg lowI (viewOf env m st nd) raw iter iterI = some a ∧ a ∈ env.actions nd.state ∧
        actionValue env m obs (remaining m (nd.depth + 1)) nd.time nd.state a = expValue env m obs (remaining m nd.depth) nd.time nd.state

/-- At every moment of the search that led to state `st` and history `h`, at every decision node where the game is not over and from which at
least `N0` trials had gone on, the game was solved up to `ε`. -/
def AlwaysSolved (env : Env S A ℝ) (m : Manager S ℝ) (cfg : Cfg S A ℝ) (obs : S → A → List (S × ℝ)) (k : Nat) (s0 : S) (dp tm : Int)
    (tb : List ((Int × S) × Option Nat)) (lowI : Int) (ε : ℝ) (N0 : Nat) (st : St S A ℝ (Stats ℝ) (Stats ℝ)) (h : List (Event S A ℝ)) : Prop :=
  ∀ st1 h1, Reachable env m (uct cfg m) k s0 dp tm tb st1 h1 → (∃ ls, execFrom env m (uct cfg m) st1 h1 ls = some (st, h)) →
    ∀ (d : Nat) nd, st1.dn[d]? = some nd → env.isSink nd.state = false → nd.depth < m.maxDepth → N0 ≤ trialsThrough d h1 →
      SolvedAt env m cfg obs lowI ε st1 h1 d

end

end Verif.Uct
