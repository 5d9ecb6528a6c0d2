import Verif.Spec.Eval
import Mathlib.Algebra.BigOperators.Group.List.Basic

/-!
# Random evaluations: expected values

An evaluation is random in two ways: the integers drawn for actions and the sampled next states.  All distributions are finite lists of
outcomes with their probabilities, so expectations are finite sums.
-/

namespace Verif.Eval

open Verif.Search Verif.Sampling

variable {S A X Y : Type} [DecidableEq S] [DecidableEq A]

/-- The expectation of `f` over a finite distribution. -/
def mean1 {α : Type} (d : List (α × ℝ)) (f : α → ℝ) : ℝ := (d.map fun x => x.2 * f x.1).sum

/-- A finite probability distribution. -/
structure IsDistr {α : Type} (d : List (α × ℝ)) : Prop where
  nonneg : ∀ x ∈ d, 0 ≤ x.2
  total : (d.map Prod.snd).sum = 1

/-- The sources of randomness: the integers drawn by the random number generator, and the environment's transitions. -/
structure Chances (S A : Type) where
  raws : List (Nat × ℝ)
  trans : S → A → List (S × ℝ)

/-- They are probability distributions, and transitions lead to possible successors. -/
structure Chances.Ok {R : Type} (ch : Chances S A) (env : Env S A R) : Prop where
  raws : IsDistr ch.raws
  trans : ∀ s a, IsDistr (ch.trans s a)
  succ : ∀ s a, ∀ x ∈ ch.trans s a, x.1 ∈ env.succ s a

/-! ## The value of a policy -/

/-- A history dependent randomised policy: the action taken after the given steps, in the given state, with the given random integer. -/
abbrev Behaviour (S A : Type) := List (A × S) → S → Nat → Option A

/-- The expected sum of rewards of the policy from state `s` after the steps `hist` until a sink state is reached, at most `n` steps. -/
def value (env : Env S A ℝ) (ch : Chances S A) (β : Behaviour S A) : Nat → List (A × S) → S → ℝ
  | 0, _, _ => 0
  | n + 1, hist, s =>
    if env.isSink s then 0
    else mean1 ch.raws fun raw =>
      match β hist s raw with
      | none => 0
      | some a => mean1 (ch.trans s a) fun s' => env.reward s a s' + value env ch β n (hist ++ [(a, s')]) s'

/-- `β` is the policy "take the recommendation of the node that the steps lead to, a uniformly drawn action if there is none". -/
def IsTreePolicy {R : Type} (c : ECfg S A R X Y) (root : Nat) (β : Behaviour S A) : Prop :=
  ∀ hist s raw, (∀ e, Leads c.tree root hist e → β hist s raw = c.advise e raw) ∧
    ((¬ ∃ e, Leads c.tree root hist e) → c.env.actions s ≠ [] → β hist s raw = (c.env.actions s)[raw % (c.env.actions s).length]?)

/-! ## The evaluation as a random process -/

/-- The distribution of the next state that thread `t` would sample (irrelevant if it is not about to take an action). -/
def nextDistr {R : Type} (c : ECfg S A R X Y) (ch : Chances S A) (es : EState S R) (t raw : Nat) : List (S × ℝ) :=
  match es.ts[t]? with
  | none => [(c.init, 1)]
  | some th => match th.roll with
    | none => [(c.init, 1)]
    | some r => match th.pol.getAction c.env c.advise r.state raw with
      | none => [(c.init, 1)]
      | some a => ch.trans r.state a

/-- A scheduler: which thread goes next, given everything that has happened. -/
abbrev Scheduler (S A R : Type) := List (EEvent S A R) → Nat

/-- The expectation of `f` (of the state and the history) after `n` scheduled steps from state `es` with history `h`.  A scheduled thread
that cannot go on does nothing. -/
def expectAfter {R : Type} [Add R] [Zero R] (c : ECfg S A R X Y) (ch : Chances S A) (sched : Scheduler S A R)
    (f : EState S R → List (EEvent S A R) → ℝ) : Nat → EState S R → List (EEvent S A R) → ℝ
  | 0, es, h => f es h
  | n + 1, es, h => mean1 ch.raws fun raw => mean1 (nextDistr c ch es (sched h) raw) fun s' =>
      match eStep c es (sched h) raw s' with
      | none => expectAfter c ch sched f n es h
      | some (es', e) => expectAfter c ch sched f n es' (e :: h)

/-- The scheduler never picks a thread that cannot go on while another one can. -/
def Productive {R : Type} [Add R] [Zero R] (c : ECfg S A R X Y) (p : Policy) (old : List R) (sched : Scheduler S A R) : Prop :=
  ∀ es h, EReach c p old es h → (∃ t raw s' x, eStep c es t raw s' = some x) → ∃ raw s' x, eStep c es (sched h) raw s' = some x

/-- The conditions under which an evaluation is unbiased: random choices are probability distributions, `β` is the tree's policy, rollouts
are not cut off at once, states that are not sink states have actions, the evaluation never crashes (see C59), and every walk of `K` steps
from the initial state ends in a sink state. -/
structure Fair (c : ECfg S A ℝ X Y) (p : Policy) (old : List ℝ) (ch : Chances S A) (β : Behaviour S A) (K : Nat) : Prop where
  ok : ch.Ok c.env
  pol : IsTreePolicy c p.root β
  len : 1 ≤ c.maxLen
  acts : ∀ s, c.env.isSink s = false → c.env.actions s ≠ []
  safe : ∀ es h, EReach c p old es h → es.crashed = false
  ends : ∀ steps s', Walk c.env c.init steps s' → K ≤ steps.length → c.env.isSink s' = true

end Verif.Eval
