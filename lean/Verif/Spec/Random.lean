import Verif.Spec.Rollouts
import Verif.Spec.Live
import Verif.Spec.Sampling

/-!
# Random searches

A search is random in two ways: the actions drawn by `select_action` and the sampled observations.  Both are finite lists of outcomes with
probabilities, so the probability that something holds after a number of steps is a finite sum.  Who runs next is decided by a scheduler
that may look at everything that has happened so far.
-/

namespace Verif.Random

open Verif.Search Verif.Eval Verif.Spec

variable {S A R X Y : Type} [DecidableEq S] [DecidableEq A]

/-- The sources of randomness: the distribution of the action that `select_action` returns, given what it sees, and the distribution of the
observation. -/
structure Dice (S A R X Y : Type) where
  sel : View S A X Y → Ctx A R → List (A × ℝ)
  obs : S → A → List (S × ℝ)

/-- The distribution of the random choice that worker `w` makes in its next block of code. -/
noncomputable def draws (env : Env S A R) (m : Manager S R) (alg : Alg S A R X Y) (D : Dice S A R X Y) (st : St S A R X Y) (w : Nat) :
    List (Choice S A × ℝ) :=
  match st.ws[w]? with
  | some (.sel cur _ _ new) => match st.dn[cur]? with
    | some nd =>
      if shouldContinue env m nd new then
        (D.sel (viewOf env m st { nd with visits := nd.visits + 1, x := alg.visitD false nd.x }) (st.ctxOf w)).map fun p => (.act p.1, p.2)
      else [(.go, 1)]
    | none => [(.go, 1)]
  | some (.samp _ _ c _ _ _) => match st.cn[c]? with
    | some nc => (D.obs nc.state nc.action).map fun p => (.obs p.1, p.2)
    | none => [(.go, 1)]
  | _ => [(.go, 1)]

/-- A scheduler: which worker goes next, given everything that has happened. -/
abbrev Scheduler (S A R : Type) := List (Event S A R) → Nat

/-- May worker `w` run?  With a budget of `N` trials a worker that is between trials may begin one only if fewer than `N` have begun. -/
def mayRun (N : Nat) (st : St S A R X Y) (h : List (Event S A R)) (w : Nat) : Prop :=
  match st.ws[w]? with
  | none => False
  | some .idle => trialsBegun h < N
  | some _ => True

variable [Add R] [Zero R]

open Classical in
/-- The expectation of `f` (of the state and the history) after `n` scheduled steps of a search with a budget of `N` trials, from state `st`
with history `h`.  A scheduled worker that may not run does nothing. -/
noncomputable def expectAfter (env : Env S A R) (m : Manager S R) (alg : Alg S A R X Y) (D : Dice S A R X Y) (N : Nat)
    (sched : Scheduler S A R) (f : St S A R X Y → List (Event S A R) → ℝ) : Nat → St S A R X Y → List (Event S A R) → ℝ
  | 0, st, h => f st h
  | n + 1, st, h =>
    if mayRun N st h (sched h) then
      mean1 (draws env m alg D st (sched h)) fun ch =>
        match step env m alg st (sched h) ch with
        | none => expectAfter env m alg D N sched f n st h
        | some (st', e) => expectAfter env m alg D N sched f n st' (e :: h)
    else expectAfter env m alg D N sched f n st h

open Classical in
/-- The probability that `P` holds (of the state and the history) `n` scheduled steps after the start of a search. -/
noncomputable def probAfter (env : Env S A R) (m : Manager S R) (alg : Alg S A R X Y) (D : Dice S A R X Y) (k : Nat) (s0 : S) (dp tm : Int)
    (tb : List ((Int × S) × Option Nat)) (N : Nat) (sched : Scheduler S A R) (n : Nat) (P : St S A R X Y → List (Event S A R) → Prop) : ℝ :=
  expectAfter env m alg D N sched (fun st h => if P st h then 1 else 0) n (init env m alg k s0 dp tm tb) []

/-- The scheduler is not idle: as long as some worker may run, it picks one that may. -/
def Productive (env : Env S A R) (m : Manager S R) (alg : Alg S A R X Y) (k : Nat) (s0 : S) (dp tm : Int)
    (tb : List ((Int × S) × Option Nat)) (N : Nat) (sched : Scheduler S A R) : Prop :=
  ∀ st h, Reachable env m alg k s0 dp tm tb st h → (∃ w, mayRun N st h w) → mayRun N st h (sched h)

/-- All `N` trials are over. -/
def Finished (N : Nat) (st : St S A R X Y) (h : List (Event S A R)) : Prop := Quiescent st ∧ trialsCompleted h = N

/-- The random choices of a search with a budget of `N` trials explore: whenever an action is selected its distribution is one, it offers
only actions that `select_action` can return, and every valid action has probability at least `pa`; every possible observation has
probability at least `po`. -/
structure Explores (env : Env S A R) (m : Manager S R) (alg : Alg S A R X Y) (D : Dice S A R X Y) (k : Nat) (s0 : S) (dp tm : Int)
    (tb : List ((Int × S) × Option Nat)) (N : Nat) (pa po : ℝ) : Prop where
  sel : ∀ {st : St S A R X Y} {h : List (Event S A R)} {w cur : Nat} {path : List (Nat × Nat)} {rs : List R} {new : Bool} {nd : DNode S A R X},
    Reachable env m alg k s0 dp tm tb st h → trialsBegun h ≤ N → st.ws[w]? = some (.sel cur path rs new) → st.dn[cur]? = some nd →
    shouldContinue env m nd new = true →
    let v := viewOf env m st { nd with visits := nd.visits + 1, x := alg.visitD false nd.x }
    IsDistr (D.sel v (st.ctxOf w)) ∧ (∀ p ∈ D.sel v (st.ctxOf w), p.2 ≠ 0 → alg.canSelect v (st.ctxOf w) p.1 = true) ∧
      ∀ a ∈ env.actions nd.state, pa ≤ weightOf (D.sel v (st.ctxOf w)) a
  obs : ∀ s a, env.isSink s = false → a ∈ env.actions s →
    IsDistr (D.obs s a) ∧ (∀ p ∈ D.obs s a, p.2 ≠ 0 → p.1 ∈ env.succ s a) ∧ ∀ o ∈ env.succ s a, po ≤ weightOf (D.obs s a) o

/-- A play that is possible from state `s`: actions and observations, from states that are not sinks. -/
def ValidPlay (env : Env S A R) : S → List (A × S) → Prop
  | _, [] => True
  | s, (a, o) :: rest => env.isSink s = false ∧ a ∈ env.actions s ∧ o ∈ env.succ s a ∧ ValidPlay env o rest

/-- The plays of at most `n` steps that are possible from `s`. -/
def plays (env : Env S A R) : Nat → S → List (List (A × S))
  | 0, _ => [[]]
  | n + 1, s => [] :: if env.isSink s then [] else
      (env.actions s).flatMap fun a => (env.succ s a).flatMap fun o => (plays env n o).map fun l => (a, o) :: l

/-- The tree contains a node for the play. -/
def Explored (st : St S A R X Y) (play : List (A × S)) : Prop := ∃ e, Leads st st.root play e

/-- An upper bound for the probability that a play of `L` steps, each taken with probability at least `p`, is not explored after `N` trials. -/
noncomputable def missBound (p : ℝ) (L N : Nat) : ℝ := 2 ^ L / (1 + p ^ L / 2) ^ (N - L)

end Verif.Random
