import Verif.Spec.Rollouts
import Verif.Model.Dents
import Verif.Spec.Uct

/-! # Evaluations of the tree of a search -/

namespace Verif.Eval

open Verif.Search

variable {S A X Y : Type} [DecidableEq S] [DecidableEq A]

/-- The evaluation `c` with the policy `p` evaluates the tree `st` of a search from state `s0` (mc_eval.cpp:12-14, 66-72, 129): same environment and
initial state, the policy starts at the root of the tree, rollouts are not cut off at once, and `adv nd raw` holds of the recommendation of node `nd`
with the random draw `raw`. -/
structure Evaluates (env : Env S A ℝ) (s0 : S) (st : St S A ℝ X Y) (adv : DNode S A ℝ X → Nat → Option A → Prop) (c : ECfg S A ℝ X Y) (p : Policy) :
    Prop where
  tree : c.tree = st
  env : c.env = env
  init : c.init = s0
  root : p.root = st.root
  len : 1 ≤ c.maxLen
  advice : ∀ (d : Nat) nd raw, st.dn[d]? = some nd → adv nd raw (c.advise d raw)

/-- Whatever the number of threads, the interleaving and the random draws, no rollout of such an evaluation crashes or leaves the tree, and every
rollout returns `v` up to `ε`. -/
def Measures (env : Env S A ℝ) (s0 : S) (st : St S A ℝ X Y) (adv : DNode S A ℝ X → Nat → Option A → Prop) (v ε : ℝ) : Prop :=
  ∀ (c : ECfg S A ℝ X Y) (p : Policy), Evaluates env s0 st adv c p → ∀ (old : List ℝ) (es : EState S ℝ) (h : List (EEvent S A ℝ)),
    EReach c p old es h → es.crashed = false ∧ (∀ th ∈ es.ts, th.roll ≠ none → th.pol.cur ≠ none) ∧ ∀ t i r, .finished t i r ∈ h → |r - v| ≤ ε

/-- Whatever the number of threads, the scheduler and the way rollouts draw actions, the expectation of the mean return of such an evaluation, in an
environment with the transition probabilities `obs` in which all episodes end within `L` steps, is `v` up to `ε`. -/
def MeasuresMean (env : Env S A ℝ) (s0 : S) (st : St S A ℝ X Y) (adv : DNode S A ℝ X → Nat → Option A → Prop) (obs : S → A → List (S × ℝ)) (L : Nat)
    (v ε : ℝ) : Prop :=
  ∀ (c : ECfg S A ℝ X Y) (p : Policy), Evaluates env s0 st adv c p → ∀ ch : Chances S A, ch.Ok env →
    (∀ s a, env.isSink s = false → a ∈ env.actions s → ch.trans s a = obs s a) → 1 ≤ c.threads → 1 ≤ c.rollouts →
    ∀ sched : Scheduler S A ℝ, Productive c p [] sched → ∀ n, (L + 2) * (c.rollouts.toNat + c.threads) ≤ n →
    |expectAfter c ch sched (fun es _ => meanReturn es.returns) n (start c p []) [] - v| ≤ ε

/-- What `DBMentsDNode::recommend_action` can return, for some order of iteration. -/
def SaysDB (cfg : Ments.Cfg S A) (env : Env S A ℝ) (m : Manager S ℝ) (st : St S A ℝ X Y) (py : Y → Backups.Dp ℝ) (nd : DNode S A ℝ X) (raw : Nat)
    (oa : Option A) : Prop :=
  ∃ (lowI : Int) (iter : List (A × ℝ) → List (A × ℝ)) (iterI : List (A × Int) → List (A × Int)), Uct.IterOk iter ∧
    oa = Dents.recommendDB cfg lowI (viewOf env m st nd) py raw iter iterI

/-- What `DentsDNode::recommend_action` can return, for DENTS and EST. -/
def SaysDents (cfg : Dents.DCfg S A) (env : Env S A ℝ) (m : Manager S ℝ) (st : St S A ℝ X Dents.DY) (nd : DNode S A ℝ X) (raw : Nat)
    (oa : Option A) : Prop :=
  ∃ (lowI : Int) (iter : List (A × ℝ) → List (A × ℝ)) (iterI : List (A × Int) → List (A × Int)), Uct.IterOk iter ∧
    oa = Dents.recommendDents cfg lowI (viewOf env m st nd) raw iter iterI

/-- What `MentsDNode::recommend_action` can return. -/
def SaysMents (cfg : Ments.Cfg S A) (env : Env S A ℝ) (m : Manager S ℝ) (st : St S A ℝ X Ments.Soft) (nd : DNode S A ℝ X) (raw : Nat)
    (oa : Option A) : Prop :=
  ∃ (lowI : Int) (iter : List (A × ℝ) → List (A × ℝ)) (iterI : List (A × Int) → List (A × Int)), Uct.IterOk iter ∧
    Ments.recommend cfg (Ments.mentsQ cfg id (viewOf env m st nd)) lowI (viewOf env m st nd) raw iter iterI = .ok oa

end Verif.Eval
