import Verif.Spec.Uct
import Verif.Spec.Tree
import Verif.Spec.Backups

/-! # Exploration: what it takes for a bandit rule to keep trying every action -/

namespace Verif.Uct

open Verif.Search

section
variable {S A R : Type} [DecidableEq A]

/-- Number of times action `a` has been selected at decision node `d`. -/
def timesSelected (d : Nat) (a : A) (h : List (Event S A R)) : Nat :=
  h.countP (fun e => match e with | .selected _ d' a' _ => d' == d && decide (a' = a) | _ => false)

variable {X Y : Type} [DecidableEq S]

/-- `as` can be played from `s`: no state before the last is a sink and every action is valid; `next` gives the successors. -/
def ValidLine (env : Env S A R) (next : S → A → S) : S → List A → Prop
  | _, [] => True
  | s, a :: as => env.isSink s = false ∧ a ∈ env.actions s ∧ ValidLine env next (next s a) as

/-- The node reached from node `d`, of state `s`, by playing `as` in the tree. -/
def follow (st : St S A R X Y) (next : S → A → S) : Nat → S → List A → Option Nat
  | d, _, [] => some d
  | d, s, a :: as => (childC st d a).bind fun c => (childD st c (next s a)).bind fun d' => follow st next d' (next s a) as

end

/-- The exploration term grows without bound for an action that is left alone, even compared with any multiple of the term of an
action that has been tried often. -/
def Growing (term : Nat → Nat → ℝ) : Prop :=
  (∀ N n, 0 ≤ term N n) ∧
  ∀ (B : Nat) (C D : ℝ), ∃ N1 n1 : Nat, ∀ N ≥ N1, ∀ nb < B, ∀ na ≥ n1, C < term N nb - D * term N na

/-- The exploration term vanishes for an action that gets a fixed share of the visits. -/
def Vanishing (term : Nat → Nat → ℝ) : Prop :=
  ∀ c δ : ℝ, 0 < c → 0 < δ → ∃ N1 : Nat, ∀ N ≥ N1, ∀ n : Nat, δ * N ≤ n → term N n < c

/-- A configuration that explores: no uniformly random actions, a positive (or automatic) bias, and a prior, if there is
one, that gives every valid action positive weight. -/
structure Fair {S A : Type} [DecidableEq A] (env : Env S A ℝ) (cfg : Cfg S A ℝ) : Prop where
  eps : cfg.epsilon ≤ 0
  bias : cfg.bias = -1 ∨ 0 < cfg.bias
  prior : ∀ f, cfg.prior = some f → ∀ s, ∀ a ∈ env.actions s, ∃ p, find? a (f s) = some p ∧ 0 < p

/-- What UCT needs to solve a game: the environment is deterministic (`next` is its transition function), rewards and heuristic values are
bounded, there is no transposition table, the configuration explores, and the exploration term is that of UCT, or that of PUCT
with a power between 0 and 1, or one that behaves like them. -/
structure Solvable {S A : Type} [DecidableEq A] (env : Env S A ℝ) (m : Manager S ℝ) (cfg : Cfg S A ℝ) (next : S → A → S) (lo hi : ℝ) :
    Prop where
  det : ∀ s a, a ∈ env.actions s → env.succ s a = [next s a]
  bounded : Backups.Bounded env m lo hi
  noTable : m.useTable = false
  fair : Fair env cfg
  term : cfg.term = uctTerm ∨ (∃ p, 0 < p ∧ p < 1 ∧ cfg.term = puctTerm p) ∨ (Growing cfg.term ∧ Vanishing cfg.term)

end Verif.Uct
