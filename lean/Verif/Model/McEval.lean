import Verif.Model.Search
import Verif.Model.Sampling
import Mathlib.Data.Real.Basic

/-!
# Monte-Carlo evaluation (src/mc_eval.cpp)

The tree is a state of the search model; it does not change during an evaluation ("Assumes that the tree is static during this
call", include/mc_eval.h:140).  `R` is the type of rewards.
-/

namespace Verif.Eval

open Verif.Search Verif.Sampling

variable {S A R X Y : Type} [DecidableEq S] [DecidableEq A]

/-! ## EvalPolicy -/

/-- `EvalPolicy` (include/mc_eval.h:38-73): `root_node` and `cur_node`; `none` is `nullptr`. -/
structure Policy where
  root : Nat
  cur : Option Nat
  deriving DecidableEq, Repr

/-- Constructor (mc_eval.cpp:12-14). -/
def newPolicy (root : Nat) : Policy := { root := root, cur := some root }

/-- Copy constructor (mc_eval.cpp:16-20). -/
def Policy.copy (p : Policy) : Policy := { root := p.root, cur := some p.root }

/-- `reset` (mc_eval.cpp:25-27). -/
def Policy.reset (p : Policy) : Policy := { p with cur := some p.root }

/-- `get_action` and `get_random_action` (mc_eval.cpp:32-44); `advise` is `recommend_action_itfc` of a node with a random draw; `none`
is an exception or undefined behaviour. -/
def Policy.getAction (p : Policy) (env : Env S A R) (advise : Nat → Nat → Option A) (s : S) (raw : Nat) : Option A :=
  match p.cur with
  | none => sampleUniform (env.actions s) raw
  | some d => advise d raw

/-- `update_step` (mc_eval.cpp:49-61). -/
def Policy.update (p : Policy) (st : St S A R X Y) (a : A) (o : S) : Policy :=
  match p.cur with
  | none => p
  | some d => match st.dn[d]? with
    | none => { p with cur := none }
    | some nd => match find? a nd.kids with
      | none => { p with cur := none }
      | some c => match st.cn[c]? with
        | none => { p with cur := none }
        | some nc => match find? o nc.kids with
          | none => { p with cur := none }
          | some d' => { p with cur := some d' }

/-! ## MCEvaluator -/

/-- What an evaluation depends on: the tree, the environment with its initial state, the nodes' recommendations, `max_trial_length`,
the arguments of `run_rollouts` (mc_eval.cpp:129), and whether the environment itself keeps a reference to the context objects it makes. -/
structure ECfg (S A R X Y : Type) where
  tree : St S A R X Y
  env : Env S A R
  init : S
  advise : Nat → Nat → Option A
  maxLen : Int
  rollouts : Int
  threads : Nat
  keepsCtx : Bool

/-- Local variables of `run_rollout` (mc_eval.cpp:87-90).  `ctxAlive`: does the object that `context` refers to still exist?  The
`shared_ptr` returned by `sample_context_itfc` is destroyed at the end of line 90. -/
structure Roll (S R : Type) where
  state : S
  taken : Int
  ret : R
  ctxAlive : Bool

/-- A thread in `thread_run_rollouts` (mc_eval.cpp:116-123): `i`, its policy, and its rollout if it is in one. -/
structure Thread (S R : Type) where
  i : Int
  pol : Policy
  roll : Option (Roll S R)

/-- The evaluator during `run_rollouts`. -/
structure EState (S R : Type) where
  /-- `sampled_returns` -/
  returns : List R
  ts : List (Thread S R)
  crashed : Bool

inductive EEvent (S A R : Type) where
  | began (t : Nat) (i : Int)
  /-- thread, state, action, next state, and whether the context passed to `get_action` existed -/
  | acted (t : Nat) (s : S) (a : A) (s' : S) (ctxAlive : Bool)
  | finished (t : Nat) (i : Int) (ret : R)
  | died (t : Nat)

variable [Add R] [Zero R]

/-- `run_rollouts` after the threads have been made (mc_eval.cpp:131-140); `make_unique<EvalPolicy>(policy)` copies. -/
def start (c : ECfg S A R X Y) (p : Policy) (returns : List R) : EState S R :=
  { returns := returns, ts := (List.range c.threads).map fun j : Nat => { i := (j : Int), pol := p.copy, roll := none }, crashed := false }

/-- One step of thread `t`: the loop head of `thread_run_rollouts` and the beginning of `run_rollout` (mc_eval.cpp:84-90, 119-120), one
iteration of its loop (lines 93-104), or its end (lines 107-108, under the lock) with `i+=num_threads`.  `raw` is the random draw of
the action, `s'` the sampled next state.  Everything except the `push_back` and the draws of random
numbers, which take the manager's `rng_lock` (thts_manager.h:114-127) and are arbitrary here, only touches data of the thread. -/
def eStep (c : ECfg S A R X Y) (es : EState S R) (t raw : Nat) (s' : S) : Option (EState S R × EEvent S A R) :=
  if es.crashed then none
  else match es.ts[t]? with
  | none => none
  | some th => match th.roll with
    | none =>
      if th.i < c.rollouts then
        some ({ es with ts := es.ts.set t { th with pol := th.pol.reset, roll := some { state := c.init, taken := 0, ret := 0, ctxAlive := c.keepsCtx } } },
          .began t th.i)
      else none
    | some r =>
      if r.taken < c.maxLen ∧ c.env.isSink r.state = false then
        match th.pol.getAction c.env c.advise r.state raw with
        | none => some ({ es with crashed := true }, .died t)
        | some a =>
          if s' ∈ c.env.succ r.state a then
            some ({ es with ts := es.ts.set t { th with
              pol := th.pol.update c.tree a s',
              roll := some { r with state := s', ret := r.ret + c.env.reward r.state a s' } } }, .acted t r.state a s' r.ctxAlive)
          else none
      else
        some ({ es with returns := es.returns ++ [r.ret], ts := es.ts.set t { th with i := th.i + c.threads, roll := none } },
          .finished t th.i r.ret)

/-- Any interleaving of the threads, any random choices; the history has the newest event first. -/
inductive EReach (c : ECfg S A R X Y) (p : Policy) (old : List R) : EState S R → List (EEvent S A R) → Prop
  | start : EReach c p old (start c p old) []
  | step {es h t raw s' es' e} : EReach c p old es h → eStep c es t raw s' = some (es', e) → EReach c p old es' (e :: h)

/-- `run_rollouts` returns when all threads have been joined. -/
def allDone (c : ECfg S A R X Y) (es : EState S R) : Prop := es.crashed = false ∧ ∀ th ∈ es.ts, th.roll = none ∧ c.rollouts ≤ th.i

end Verif.Eval

namespace Verif.Eval

/-! ## Statistics (exact reals) -/

/-- `get_mean_return` (mc_eval.cpp:152-159). -/
noncomputable def meanReturn (rs : List ℝ) : ℝ := rs.foldl (fun mean val => mean + 1 / (rs.length : ℝ) * val) 0

/-- `get_stddev_return` (mc_eval.cpp:164-172); `none` is NaN: with one return the weight is infinite and the deviation zero. -/
noncomputable def stddevReturn (rs : List ℝ) : Option ℝ :=
  if rs.length = 1 then none
  else some (rs.foldl (fun sd val => sd + 1 / ((rs.length : ℝ) - 1) * (val - meanReturn rs) ^ 2) 0)

end Verif.Eval
