/-!
# Model of `ThtsPool` (src/thts.cpp): worker threads, condition variable, client calls

A small-step transition system.  One label is one scheduling decision.  The model is executable:
`exec n ls` runs the schedule `ls` for a pool with `n` worker threads and returns the final state and the
history of observable events (newest first), or `none` if the schedule asks for a step that is not enabled.

Simplifications (all recorded in DESIGN.md):
* A single client thread performs every call on the pool.
* The body of a trial is opaque here: a worker in a trial may look at the pool's root (`look`) any number of
  times and may finish (`worker`).  The body itself is modelled in `Verif.Model.Search`.
* The logger is not part of this file (see `Verif.Model.Logger`).
* The clock is a natural number that never goes backwards.
-/

namespace Verif.Pool

/-- Program counter of a worker thread: positions inside `ThtsPool::worker_fn`, src/thts.cpp:302-323. -/
inductive WPc where
  /-- wants `work_left_lock` (line 303 on thread start, line 321 after a trial). -/
  | wantLock
  /-- holds the lock, at the `while (thread_pool_alive)` test (line 304). -/
  | head
  /-- holds the lock, `num_threads_working` already decremented, at line 307. -/
  | chk1
  /-- holds the lock, at `while (!work_left())` (line 310). -/
  | chk2
  /-- asleep in `work_left_cv.wait` (line 311), lock released. -/
  | waiting
  /-- woken from `wait`, must re-acquire the lock (line 311). -/
  | woken
  /-- holds the lock again, at `if (!thread_pool_alive) return` (line 312). -/
  | afterWait
  /-- running `run_thts_trial` without the lock (line 320). -/
  | trial
  /-- the thread function returned (line 312 or 323). -/
  | exited
  deriving DecidableEq, Repr

/-- Worker positions at which `work_left_lock` is held. -/
def WPc.holds : WPc → Bool
  | .head | .chk1 | .chk2 | .afterWait => true
  | _ => false

/-- Program counter of the client thread. -/
inductive CPc where
  /-- not inside any call. -/
  | idle
  /-- in `run_trials`, after the unlock of line 367, before `notify_all` (line 369). -/
  | publish (blocking : Bool)
  /-- in `join`, wants the lock (line 329). -/
  | joinWant
  /-- in `join`, holds the lock, at the `while` test (line 330). -/
  | joinChk
  /-- in `join`, asleep (line 331). -/
  | joinWait
  /-- in `join`, woken, must re-acquire the lock (line 331). -/
  | joinWoken
  /-- in the destructor, joining the worker threads (lines 68-70). -/
  | dtorJoin
  /-- the destructor has returned. -/
  | dead
  deriving DecidableEq, Repr

/-- Owner of `work_left_lock`. -/
inductive Owner where
  | worker (i : Nat)
  | client
  deriving DecidableEq, Repr

/-- State of the pool: the fields of `ThtsPool` (include/thts.h) that `src/thts.cpp` synchronises on. -/
structure St where
  ws : List WPc
  cl : CPc
  lock : Option Owner
  /-- `thread_pool_alive` -/
  alive : Bool
  /-- `num_threads_working` -/
  working : Int
  /-- `trials_remaining` -/
  remaining : Int
  /-- the clock -/
  now : Nat
  /-- `start_time` -/
  start : Nat
  /-- `max_run_time`; `none` is the default "no limit" (include/thts.h, `run_trials` default argument). -/
  limit : Option Nat
  /-- identity of the (manager, root node, logger) triple currently installed -/
  env : Nat
  deriving DecidableEq, Repr

/-- Observable events, in the vocabulary of the API. -/
inductive Event where
  /-- `run_trials(n, limit, blocking)` installed its budget -/
  | called (n : Int) (limit : Option Nat)
  /-- worker `i` starts a trial -/
  | started (i : Nat)
  /-- worker `i` finishes its trial -/
  | finished (i : Nat)
  /-- the trial on worker `i` reads the pool's root and sees environment `e` -/
  | observed (i : Nat) (e : Nat)
  /-- `join()` (or a blocking `run_trials`) returns -/
  | joined
  /-- `set_new_env` succeeded with environment `e` -/
  | swapped (e : Nat)
  /-- `set_new_env` threw -/
  | swapRefused
  /-- the destructor has begun -/
  | dtorBegan
  /-- the destructor has returned -/
  | destroyed
  deriving DecidableEq, Repr

/-- Scheduling decisions. -/
inductive Label where
  /-- the clock advances by one -/
  | tick
  /-- worker `i` executes its next step -/
  | worker (i : Nat)
  /-- the trial running on worker `i` reads `root_node` -/
  | look (i : Nat)
  /-- spurious wake-up of worker `i` -/
  | spuriousW (i : Nat)
  /-- spurious wake-up of the client sleeping in `join` -/
  | spuriousC
  /-- the client executes the next step of the call it is in -/
  | client
  /-- the client calls `run_trials` -/
  | call (n : Int) (limit : Option Nat) (blocking : Bool)
  /-- the client calls `join` -/
  | join
  /-- the client calls `set_new_env` -/
  | swap (e : Nat)
  /-- the client destroys the pool -/
  | dtor
  deriving DecidableEq, Repr

/-- State right after the constructor, src/thts.cpp:25-52: all `n` worker threads are spawned and count as working.
(Construction with a null manager or root throws before any thread exists, lines 46-48: not a pool state.) -/
def init (n : Nat) : St where
  ws := List.replicate n .wantLock
  cl := .idle
  lock := none
  alive := true
  working := n
  remaining := 0
  now := 0
  start := 0
  limit := some 0
  env := 0

/-- The time limit has been reached: `elapsed_time >= max_run_time`, src/thts.cpp:234-236. -/
def St.expired (s : St) : Bool :=
  match s.limit with
  | none => false
  | some L => decide (s.start + L ≤ s.now)

/-- `ThtsPool::work_left`, src/thts.cpp:231-239. -/
def St.workLeft (s : St) : Bool :=
  if s.remaining ≤ 0 then false
  else if s.expired then false
  else true

/-- `notify_all` on a worker: a sleeper becomes runnable. -/
def WPc.notify : WPc → WPc
  | .waiting => .woken
  | p => p

/-- `notify_all` on the client. -/
def CPc.notify : CPc → CPc
  | .joinWait => .joinWoken
  | p => p

/-- `work_left_cv.notify_all()`: all current sleepers become runnable. -/
def St.notifyAll (s : St) : St :=
  { s with ws := s.ws.map WPc.notify, cl := s.cl.notify }

/-- Set the program counter of worker `i`. -/
def St.setW (s : St) (i : Nat) (p : WPc) : St := { s with ws := s.ws.set i p }

/-- One step of worker `i` (src/thts.cpp:302-323) from program counter `p`. -/
def stepWorker (s : St) (i : Nat) : WPc → Option (St × Option Event)
  -- line 303 / 321: acquire the lock
  | .wantLock => if s.lock = none then some ({ s.setW i .head with lock := some (.worker i) }, none) else none
  -- line 304-305: leave the loop if the pool is dead, otherwise report back
  | .head =>
      if s.alive then some ({ s.setW i .chk1 with working := s.working - 1 }, none)
      else some ({ s.setW i .exited with lock := none }, none)
  -- line 307-309
  | .chk1 =>
      if s.workLeft then some (s.setW i .chk2, none)
      else some (s.notifyAll.setW i .chk2, none)
  -- line 310-319: go to sleep, or take a trial
  | .chk2 =>
      if s.workLeft then
        some ({ s.setW i .trial with
                  working := s.working + 1, remaining := s.remaining - 1, lock := none }, some (.started i))
      else some ({ s.setW i .waiting with lock := none }, none)
  | .waiting => none
  -- line 311: `wait` re-acquires the lock before it returns
  | .woken => if s.lock = none then some ({ s.setW i .afterWait with lock := some (.worker i) }, none) else none
  -- line 312
  | .afterWait =>
      if s.alive then some (s.setW i .chk2, none)
      else some ({ s.setW i .exited with lock := none }, none)
  -- line 320: the trial ends
  | .trial => some (s.setW i .wantLock, some (.finished i))
  | .exited => none

/-- One step of the client inside a call. -/
def stepClient (s : St) : Option (St × Option Event) :=
  match s.cl with
  | .idle => none
  -- src/thts.cpp:369-370
  | .publish b => some ({ s.notifyAll with cl := if b then .joinWant else .idle }, none)
  -- src/thts.cpp:329
  | .joinWant => if s.lock = none then some ({ s with cl := .joinChk, lock := some .client }, none) else none
  -- src/thts.cpp:330-333
  | .joinChk =>
      if s.workLeft || decide (0 < s.working) then some ({ s with cl := .joinWait, lock := none }, none)
      else some ({ s with cl := .idle, lock := none }, some .joined)
  | .joinWait => none
  -- src/thts.cpp:331
  | .joinWoken => if s.lock = none then some ({ s with cl := .joinChk, lock := some .client }, none) else none
  -- src/thts.cpp:68-70: returns once every worker thread has exited
  | .dtorJoin => if s.ws.all (· == .exited) then some ({ s with cl := .dead }, some .destroyed) else none
  | .dead => none

/-- One scheduling decision.  `none`: not enabled. -/
def step (s : St) : Label → Option (St × Option Event)
  | .tick => some ({ s with now := s.now + 1 }, none)
  | .worker i => match s.ws[i]? with
      | some p => stepWorker s i p
      | none => none
  | .look i => match s.ws[i]? with
      | some .trial => some (s, some (.observed i s.env))
      | _ => none
  | .spuriousW i => match s.ws[i]? with
      | some .waiting => some (s.setW i .woken, none)
      | _ => none
  | .spuriousC => match s.cl with
      | .joinWait => some ({ s with cl := .joinWoken }, none)
      | _ => none
  | .client => stepClient s
  -- src/thts.cpp:353-367 (the locked block is one step: nothing in it blocks, workers only read these fields
  -- under the same lock)
  | .call n lim b =>
      if s.cl = .idle ∧ s.lock = none then
        some ({ s with cl := .publish b, remaining := n, start := s.now, limit := lim }, some (.called n lim))
      else none
  -- src/thts.cpp:328
  | .join => if s.cl = .idle then some ({ s with cl := .joinWant }, none) else none
  -- src/thts.cpp:76-87 (takes no lock)
  | .swap e =>
      if s.cl = .idle then
        if s.workLeft then some (s, some .swapRefused)
        else some ({ s with env := e }, some (.swapped e))
      else none
  -- src/thts.cpp:63-67
  | .dtor =>
      if s.cl = .idle ∧ s.lock = none then
        some ({ s.notifyAll with cl := .dtorJoin, alive := false }, some .dtorBegan)
      else none

/-- Run a schedule from state `s` with history `h` (newest event first). -/
def execFrom (s : St) (h : List Event) : List Label → Option (St × List Event)
  | [] => some (s, h)
  | l :: ls => match step s l with
      | some (s', e) => execFrom s' (e.toList ++ h) ls
      | none => none

/-- Run a schedule on a freshly constructed pool with `n` worker threads. -/
def exec (n : Nat) (ls : List Label) : Option (St × List Event) := execFrom (init n) [] ls

end Verif.Pool
