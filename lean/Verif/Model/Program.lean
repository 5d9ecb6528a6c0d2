import Verif.Model.Pool
import Verif.Model.LockLevel
import Verif.Model.Logger

/-!
# The whole program at the level of locks

The product of `Verif.Model.Pool` (worker threads, condition variable, client), `Verif.Model.LockLevel` (trials, one step for each
lock operation or memory access) and `Verif.Model.Logger`, with `logging_lock`.  In contrast to `Verif.Model.System` trials interleave inside
blocks, `try_log` takes `logging_lock` and then the root's mutex, and `run_trials` is followed from its first line.

Simplifications: taking the root's mutex, writing the entry and releasing the mutex is one step (possible only while nobody
holds that mutex); so is the part of `run_trials` under `logging_lock`; `set_new_env` is left out (see C06).
-/

namespace Verif.Prog

open Verif

/-- How far a worker is in `run_thts_trial` (thts.cpp:249-258) and `try_log` (thts.cpp:266-281). -/
inductive Stage where
  /-- at line 253 -/
  | ready
  /-- lines 253-255 -/
  | running
  /-- at line 268: wants `logging_lock` -/
  | logWant
  /-- holds `logging_lock`; `true`: at line 273, wants the root's mutex; `false`: at line 277 -/
  | logHeld (b : Bool)
  /-- at line 258, or not in a trial -/
  | done
  deriving DecidableEq, Repr

/-- The client in the first lines of `run_trials(n, limit, blocking)`. -/
inductive Entry where
  /-- at line 354 (thts.cpp) -/
  | wantLog (n : Int) (limit : Option Nat) (blocking : Bool)
  /-- at line 362 -/
  | wantLock (n : Int) (limit : Option Nat) (blocking : Bool)
  deriving DecidableEq, Repr

/-- The fields of `ThtsPool` (include/thts.h), the tree with its mutexes, the logger (`none` is `nullptr`) and where everybody is. -/
structure St (S A R X Y : Type) where
  pool : Pool.St
  search : LockLevel.FSt S A R X Y
  stages : List Stage
  entry : Option Entry
  lg : Option Log.Logger
  /-- the worker that holds `logging_lock` -/
  logLock : Option Nat
  /-- `trials_completed` -/
  completed : Int
  /-- `num_trials` -/
  numTrials : Int

inductive Event (S A R : Type) where
  | pool (e : Pool.Event)
  | search (e : Search.Event S A R)
  /-- the logger was given a new entry -/
  | logged (e : Log.Entry)
  deriving DecidableEq

inductive Label (S A : Type) where
  /-- a step of the pool -/
  | pool (l : Pool.Label)
  /-- worker `i` makes the next step of its trial -/
  | search (i : Nat) (ch : LockLevel.FChoice S A)
  /-- worker `i` makes the next step of `try_log` -/
  | log (i : Nat)
  /-- the client calls `run_trials` -/
  | enter (n : Int) (limit : Option Nat) (blocking : Bool)
  /-- the client goes on with the first lines of `run_trials` -/
  | run
  deriving DecidableEq

section
variable {S A R X Y : Type} [DecidableEq S] [DecidableEq A] [Add R] [Zero R]

/-- Constructor of the pool (thts.cpp:25-52), with a fresh tree. -/
def init (env : Search.Env S A R) (m : Search.Manager S R) (alg : Search.Alg S A R X Y) (n : Nat) (s0 : S) (dp tm : Int)
    (tb : List ((Int × S) × Option Nat)) (lg : Option Log.Logger) : St S A R X Y :=
  { pool := Pool.init n, search := LockLevel.finit env m alg n s0 dp tm tb, stages := List.replicate n .done, entry := none, lg := lg,
    logLock := none, completed := 0, numTrials := 0 }

/-- `num_visits` of the root. -/
def St.rootVisits (s : St S A R X Y) : Int := (((s.search.dn[s.search.root]?).map Search.DNode.visits).getD 0 : Nat)

/-- A step of the pool. -/
def poolStep (s : St S A R X Y) (l : Pool.Label) : Option (St S A R X Y × List (Event S A R)) :=
  match Pool.step s.pool l with
  | none => none
  | some (p, e) =>
    let s1 := { s with pool := p }
    match l with
    -- reading the root is part of the steps of the search; `set_new_env` is not modelled; for calls see `runStep`
    | .look _ => none
    | .swap _ => none
    | .call _ _ _ => none
    | .join => if s.entry = none then some (s1, e.toList.map .pool) else none
    | .dtor => if s.entry = none then some (s1, e.toList.map .pool) else none
    | .worker i =>
      if s.pool.ws[i]? = some .trial then
        -- line 258, then 321
        if s.stages[i]? = some .done then some (s1, e.toList.map .pool) else none
      -- line 320: a new trial
      else if p.ws[i]? = some .trial then some ({ s1 with stages := s.stages.set i .ready }, e.toList.map .pool)
      else some (s1, e.toList.map .pool)
    | _ => some (s1, e.toList.map .pool)

/-- A step of the trial of worker `i` (thts.cpp:253-255); after the last one it goes on to line 267. -/
def searchStep (env : Search.Env S A R) (m : Search.Manager S R) (hash : Int × S → Nat) (alg : Search.Alg S A R X Y)
    (code : LockLevel.Code S A R X Y) (s : St S A R X Y) (i : Nat) (ch : LockLevel.FChoice S A) :
    Option (St S A R X Y × List (Event S A R)) :=
  if s.stages[i]? = some .ready ∨ s.stages[i]? = some .running then
    match LockLevel.fstep env m hash alg code s.search i ch with
    | none => none
    | some (q, e) =>
      let g := match e with
        | some (.completed _) => if s.lg.isSome then Stage.logWant else Stage.done
        | _ => Stage.running
      some ({ s with search := q, stages := s.stages.set i g }, e.toList.map .search)
  else none

/-- A step of `try_log` (thts.cpp:266-281) of worker `i`. -/
def logStep (s : St S A R X Y) (i : Nat) : Option (St S A R X Y × List (Event S A R)) :=
  match s.lg with
  | none => none
  | some L =>
    match s.stages[i]? with
    -- lines 268-272
    | some .logWant =>
      if s.logLock = none then
        let r := L.trialCompleted.shouldLog s.pool.now
        some ({ s with lg := some r.2, logLock := some i, completed := s.completed + 1, stages := s.stages.set i (.logHeld r.1) }, [])
      else none
    -- lines 273-275
    | some (.logHeld true) =>
      if s.search.lock (.d s.search.root) = none then
        some ({ s with lg := some (L.log s.pool.now s.rootVisits), stages := s.stages.set i (.logHeld false) },
          [.logged ⟨L.total s.pool.now, s.rootVisits⟩])
      else none
    -- lines 277-281
    | some (.logHeld false) =>
      some ({ s with lg := some (if s.completed = s.numTrials then L.updatePrior s.pool.now else L), logLock := none,
                     stages := s.stages.set i .done }, [])
    | _ => none

/-- The first lines of `run_trials` (thts.cpp:353-367). -/
def runStep (s : St S A R X Y) : Option (St S A R X Y × List (Event S A R)) :=
  match s.entry with
  | none => none
  -- lines 354-360
  | some (.wantLog n lim b) =>
    match s.lg with
    | none => some ({ s with entry := some (.wantLock n lim b) }, [])
    | some L =>
      if s.logLock = none then some ({ s with entry := some (.wantLock n lim b), lg := some (L.beginRun s.pool.now) }, []) else none
  -- lines 362-367
  | some (.wantLock n lim b) =>
    match Pool.step s.pool (.call n lim b) with
    | none => none
    | some (p, e) => some ({ s with pool := p, entry := none, numTrials := n }, e.toList.map .pool)

/-- One scheduling decision.  Nothing happens after a crash. -/
def step (env : Search.Env S A R) (m : Search.Manager S R) (hash : Int × S → Nat) (alg : Search.Alg S A R X Y)
    (code : LockLevel.Code S A R X Y) (s : St S A R X Y) (l : Label S A) : Option (St S A R X Y × List (Event S A R)) :=
  if s.search.crashed.isSome then none
  else match l with
  | .pool l => poolStep s l
  | .search i ch => searchStep env m hash alg code s i ch
  | .log i => logStep s i
  | .enter n lim b =>
    if s.pool.cl = .idle ∧ s.entry = none then some ({ s with entry := some (.wantLog n lim b) }, []) else none
  | .run => runStep s

/-- Run a schedule; events are collected newest first. -/
def execFrom (env : Search.Env S A R) (m : Search.Manager S R) (hash : Int × S → Nat) (alg : Search.Alg S A R X Y)
    (code : LockLevel.Code S A R X Y) (s : St S A R X Y) (h : List (Event S A R)) :
    List (Label S A) → Option (St S A R X Y × List (Event S A R))
  | [] => some (s, h)
  | l :: ls => match step env m hash alg code s l with
    | none => none
    | some (s', es) => execFrom env m hash alg code s' (es ++ h) ls

end

end Verif.Prog
