import Verif.Spec.Search

/-! # What it means for a search to make progress (C74) -/

namespace Verif.Search

variable {S A R X Y : Type} [DecidableEq S] [DecidableEq A]

/-- An environment in which a trial can always go on: a state that is not a sink has an action, and every action of it has a
possible successor. -/
structure Env.Live (env : Env S A R) : Prop where
  acts : ∀ s, env.isSink s = false → env.actions s ≠ []
  succs : ∀ s, env.isSink s = false → ∀ a ∈ env.actions s, env.succ s a ≠ []

/-- The transposition table, if used, cannot fail: it has a mutex and it is fresh (cf. C19). -/
def TableOk (m : Manager S R) (tb : List ((Int × S) × Option Nat)) : Prop :=
  m.useTable = true → m.numMutexes ≠ 0 ∧ tb = []

variable [Add R] [Zero R]

/-- The algorithm's `select_action` always finds an action: in every reachable state, a worker at a node where its trial has to
go on can take the step. -/
def Selects (env : Env S A R) (m : Manager S R) (alg : Alg S A R X Y) (k : Nat) (s0 : S) (dp tm : Int)
    (tb : List ((Int × S) × Option Nat)) : Prop :=
  ∀ {st : St S A R X Y} {h : List (Event S A R)} {w cur : Nat} {path : List (Nat × Nat)} {rs : List R} {new : Bool} {nd : DNode S A R X},
    Reachable env m alg k s0 dp tm tb st h → st.crashed = none → st.ws[w]? = some (.sel cur path rs new) →
    st.dn[cur]? = some nd → shouldContinue env m nd new = true → ∃ a st' e, step env m alg st w (.act a) = some (st', e)

/-- How often the schedule runs worker `w`. -/
def turnsOf (w : Nat) (ls : List (Nat × Choice S A)) : Nat := ls.countP fun l => decide (l.1 = w)

end Verif.Search
