import Verif.Model.Pool
import Verif.Model.Search
import Verif.Model.Logger

/-!
# The whole system: the pool's workers run trials of the search and report to the logger

The product of `Verif.Model.Pool`, `Verif.Model.Search` and `Verif.Model.Logger`.  Worker `i` of the pool and worker `i` of the search are the
same thread: while it is inside `run_thts_trial` (pool position `trial`) it makes the steps of one trial of the search, then the
`try_log` block, then goes back to the pool.  `set_new_env` is left out (see C06): one tree and one logger.
-/

namespace Verif.Sys

open Verif

/-- How far a worker is in `run_thts_trial` (thts.cpp:249-258). -/
inductive Stage where
  /-- at line 253 -/
  | ready
  /-- lines 253-255 -/
  | running
  /-- at line 257, or not in a trial -/
  | done
  deriving DecidableEq, Repr

/-- The fields of `ThtsPool` (include/thts.h), the tree, and the logger (`none` is `nullptr`). -/
structure St (S A R X Y : Type) where
  pool : Pool.St
  search : Search.St S A R X Y
  stages : List Stage
  /-- the client is in `run_trials` between lines 360 and 362 -/
  prep : Bool
  lg : Option Log.Logger
  /-- `trials_completed` -/
  completed : Int
  /-- `num_trials` -/
  numTrials : Int

inductive Event (S A R : Type) where
  | pool (e : Pool.Event)
  | search (e : Search.Event S A R)
  /-- the client entered `run_trials` (thts.cpp:353) at this time -/
  | entered (t : Nat)
  /-- a worker reached `try_log` (thts.cpp:257) at this time -/
  | reported (t : Nat)
  /-- the logger was given a new entry -/
  | logged (e : Log.Entry)

inductive Label (S A : Type) where
  /-- a step of the pool, including the `try_log` at the end of a trial -/
  | pool (l : Pool.Label)
  /-- worker `i` makes the next step of its trial -/
  | search (i : Nat) (ch : Search.Choice S A)
  /-- the client enters `run_trials` and does lines 354-360 -/
  | prep
  deriving DecidableEq

section
variable {S A R X Y : Type} [DecidableEq S] [DecidableEq A] [Add R] [Zero R]

/-- Constructor of the pool (thts.cpp:25-52: `num_trials(0)`, `trials_completed(0)`), with a fresh tree. -/
def init (env : Search.Env S A R) (m : Search.Manager S R) (alg : Search.Alg S A R X Y) (n : Nat) (s0 : S) (dp tm : Int)
    (tb : List ((Int × S) × Option Nat)) (lg : Option Log.Logger) : St S A R X Y :=
  { pool := Pool.init n, search := Search.init env m alg n s0 dp tm tb, stages := List.replicate n .done, prep := false, lg := lg,
    completed := 0, numTrials := 0 }

/-- `num_visits` of the root. -/
def St.rootVisits (s : St S A R X Y) : Int := (((s.search.dn[s.search.root]?).map Search.DNode.visits).getD 0 : Nat)

/-- `try_log` (thts.cpp:266-281). -/
def St.tryLog (s : St S A R X Y) : St S A R X Y :=
  match s.lg with
  | none => s
  | some L =>
    { s with lg := some (L.tryLog s.pool.now s.rootVisits (decide (s.completed + 1 = s.numTrials))), completed := s.completed + 1 }

/-- The entry `try_log` adds, if any. -/
def St.newEntry (s : St S A R X Y) : Option Log.Entry :=
  s.lg.bind fun L => if (L.trialCompleted.shouldLog s.pool.now).1 then some ⟨L.total s.pool.now, s.rootVisits⟩ else none

/-- A step of the pool. -/
def poolStep (s : St S A R X Y) (l : Pool.Label) : Option (St S A R X Y × List (Event S A R)) :=
  match Pool.step s.pool l with
  | none => none
  | some (p, e) =>
    let s1 := { s with pool := p }
    match l with
    -- reading the root is part of the steps of the search; `set_new_env` is not modelled
    | .look _ => none
    | .swap _ => none
    -- lines 362-367
    | .call n _ _ => if s.prep then some ({ s1 with prep := false, numTrials := n }, e.toList.map .pool) else none
    | .join => if s.prep then none else some (s1, e.toList.map .pool)
    | .dtor => if s.prep then none else some (s1, e.toList.map .pool)
    | .worker i =>
      if s.pool.ws[i]? = some .trial then
        -- lines 257-258, then 321
        if s.stages[i]? = some .done then
          some (s1.tryLog, e.toList.map .pool ++ (s.newEntry.toList.map .logged ++ [.reported s.pool.now]))
        else none
      -- line 320: a new trial
      else if p.ws[i]? = some .trial then some ({ s1 with stages := s.stages.set i .ready }, e.toList.map .pool)
      else some (s1, e.toList.map .pool)
    | _ => some (s1, e.toList.map .pool)

/-- A step of the trial of worker `i`. -/
def searchStep (env : Search.Env S A R) (m : Search.Manager S R) (alg : Search.Alg S A R X Y) (s : St S A R X Y) (i : Nat)
    (ch : Search.Choice S A) : Option (St S A R X Y × List (Event S A R)) :=
  if s.pool.ws[i]? = some .trial then
    match s.stages[i]? with
    | none => none
    | some .done => none
    | some _ => match Search.step env m alg s.search i ch with
      | none => none
      | some (q, e) =>
        some ({ s with search := q, stages := s.stages.set i (match e with | .completed _ => .done | _ => .running) }, [.search e])
  else none

/-- One scheduling decision.  Nothing happens after a crash. -/
def step (env : Search.Env S A R) (m : Search.Manager S R) (alg : Search.Alg S A R X Y) (s : St S A R X Y) (l : Label S A) :
    Option (St S A R X Y × List (Event S A R)) :=
  if s.search.crashed.isSome then none
  else match l with
  | .pool l => poolStep s l
  | .search i ch => searchStep env m alg s i ch
  | .prep =>
    if s.pool.cl = .idle ∧ s.prep = false then
      some ({ s with prep := true, lg := s.lg.map fun L => L.beginRun s.pool.now }, [.entered s.pool.now])
    else none

/-- Run a schedule; events are collected newest first. -/
def execFrom (env : Search.Env S A R) (m : Search.Manager S R) (alg : Search.Alg S A R X Y) (s : St S A R X Y) (h : List (Event S A R)) :
    List (Label S A) → Option (St S A R X Y × List (Event S A R))
  | [] => some (s, h)
  | l :: ls => match step env m alg s l with
    | none => none
    | some (s', es) => execFrom env m alg s' (es ++ h) ls

end

end Verif.Sys
