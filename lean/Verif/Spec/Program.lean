import Verif.Model.Program
import Verif.Spec.Pool
import Verif.Spec.LockFree

/-! # Vocabulary for the whole program at the level of locks (C81) -/

namespace Verif.Prog

variable {S A R X Y : Type}

/-- The events of the pool, in the same order. -/
def poolPart (h : List (Event S A R)) : List Pool.Event := h.filterMap fun e => match e with | .pool e => some e | _ => none

/-- The events of the search, in the same order. -/
def searchPart (h : List (Event S A R)) : List (Search.Event S A R) := h.filterMap fun e => match e with | .search e => some e | _ => none

/-- The entries logged, in the same order. -/
def loggedPart (h : List (Event S A R)) : List Log.Entry := h.filterMap fun e => match e with | .logged e => some e | _ => none

/-- Number of trials begun in the tree. -/
def numBegun (h : List (Event S A R)) : Nat := (searchPart h).countP fun e => match e with | .began _ => true | _ => false

/-- Number of trials completed in the tree. -/
def numCompleted (h : List (Event S A R)) : Nat := (searchPart h).countP fun e => match e with | .completed _ => true | _ => false

section
variable [DecidableEq S] [DecidableEq A] [Add R] [Zero R]

/-- Some schedule leads from a pool with `n` workers, a fresh tree and logger `lg` to `s` with history `h`. -/
def Reachable (env : Search.Env S A R) (m : Search.Manager S R) (hash : Int × S → Nat) (alg : Search.Alg S A R X Y)
    (code : LockLevel.Code S A R X Y) (n : Nat) (s0 : S) (dp tm : Int) (tb : List ((Int × S) × Option Nat)) (lg : Option Log.Logger)
    (s : St S A R X Y) (h : List (Event S A R)) : Prop :=
  ∃ ls, execFrom env m hash alg code (init env m alg n s0 dp tm tb lg) [] ls = some (s, h)

end

/-- A step of the program itself: a worker or the client goes on.  (Clock ticks, spurious wake-ups and new API calls are not.) -/
def Label.isProgress : Label S A → Bool
  | .pool l => l.isProgress
  | .search _ _ | .log _ | .run => true
  | .enter _ _ _ => false

/-- A spurious wake-up. -/
def Label.isSpurious : Label S A → Bool
  | .pool l => l.isSpurious
  | _ => false

/-- The client calls `run_trials`, `join` or the destructor. -/
def Label.isCall : Label S A → Bool
  | .enter _ _ _ | .pool .join | .pool .dtor => true
  | _ => false

/-- The client is inside `run_trials`, `join` or the destructor. -/
def St.inside (s : St S A R X Y) : Prop := s.entry ≠ none ∨ s.pool.cl.busy = true ∨ s.pool.cl = .dtorJoin

/-- The time limit of a `run_trials` call whose first lines are being executed. -/
def Entry.limit : Entry → Option Nat
  | .wantLog _ lim _ | .wantLock _ lim _ => lim

/-- The time limit given in the current (or, outside `run_trials`, the last) call. -/
def St.limit (s : St S A R X Y) : Option Nat :=
  match s.entry with
  | some e => e.limit
  | none => s.pool.limit

section
variable [DecidableEq S] [DecidableEq A] [Add R] [Zero R]

/-- A worker or the client can take a step of the program. -/
def CanStep (env : Search.Env S A R) (m : Search.Manager S R) (hash : Int × S → Nat) (alg : Search.Alg S A R X Y)
    (code : LockLevel.Code S A R X Y) (s : St S A R X Y) : Prop :=
  ∃ l r, l.isProgress = true ∧ step env m hash alg code s l = some r

/-- An infinite run in which spurious wake-ups stop at some point, and in which enabled steps of the program are not ignored for ever. -/
structure FairRun (env : Search.Env S A R) (m : Search.Manager S R) (hash : Int × S → Nat) (alg : Search.Alg S A R X Y)
    (code : LockLevel.Code S A R X Y) (st : Nat → St S A R X Y) (lab : Nat → Label S A) : Prop where
  run : ∀ k, ∃ es, step env m hash alg code (st k) (lab k) = some (st (k + 1), es)
  spurious : ∃ N, ∀ k, N ≤ k → (lab k).isSpurious = false
  fair : ∀ N, (∀ k, N ≤ k → CanStep env m hash alg code (st k)) → ∃ k, N ≤ k ∧ (lab k).isProgress = true

/-- Searching comes to an end: a client inside `run_trials` or `join` without time limit, or inside the destructor, is never stuck, and
returns in every fair run; there are fair runs. -/
structure Ends (env : Search.Env S A R) (m : Search.Manager S R) (hash : Int × S → Nat) (alg : Search.Alg S A R X Y)
    (code : LockLevel.Code S A R X Y) (n : Nat) (s0 : S) (dp tm : Int) (tb : List ((Int × S) × Option Nat)) (lg : Option Log.Logger) :
    Prop where
  neverStuck : ∀ s h, Reachable env m hash alg code n s0 dp tm tb lg s h → s.inside → s.pool.cl = .dtorJoin ∨ s.limit = none →
    CanStep env m hash alg code s
  returns : ∀ st lab h, Reachable env m hash alg code n s0 dp tm tb lg (st 0) h → (st 0).inside →
    (st 0).pool.cl = .dtorJoin ∨ (st 0).limit = none → FairRun env m hash alg code st lab → ∃ k, ¬ (st k).inside
  fairRun : ∀ s h, Reachable env m hash alg code n s0 dp tm tb lg s h → ∃ st lab, st 0 = s ∧ FairRun env m hash alg code st lab

/-- `run_trials` can hang: the client can get into a blocking `run_trials` without time limit and logger from which it never returns
and in which nothing happens in the tree any more; without spurious wake-ups no thread takes a step any more. -/
def Hangs (env : Search.Env S A R) (m : Search.Manager S R) (hash : Int × S → Nat) (alg : Search.Alg S A R X Y)
    (code : LockLevel.Code S A R X Y) (n : Nat) (s0 : S) (dp tm : Int) (tb : List ((Int × S) × Option Nat)) : Prop :=
  ∃ s h, Reachable env m hash alg code n s0 dp tm tb none s h ∧ s.inside ∧ s.limit = none ∧
    ∀ ls s' h', execFrom env m hash alg code s h ls = some (s', h') → s'.inside ∧ s'.search = s.search ∧ searchPart h' = searchPart h ∧
      (ls.countP Label.isSpurious = 0 → ¬ CanStep env m hash alg code s')

end

/-- Whether worker `i` holds the pool's mutex, the logger's mutex, a mutex of the tree. -/
def St.hasPool (s : St S A R X Y) (i : Nat) : Prop := s.pool.lock = some (.worker i)
def St.hasLog (s : St S A R X Y) (i : Nat) : Prop := s.logLock = some i
def St.hasNode (s : St S A R X Y) (i : Nat) : Prop := ∃ l, s.search.lock l = some i

/-- All mutexes are free, except perhaps the pool's. -/
def St.treeFree (s : St S A R X Y) : Prop := s.logLock = none ∧ ∀ l, s.search.lock l = none

/-- The next step of the client writes `num_trials` (thts.cpp:363). -/
def St.writesRunSize (s : St S A R X Y) : Prop := ∃ n lim b, s.entry = some (.wantLock n lim b) ∧ s.pool.lock = none

/-- The next step of worker `i` reads `num_trials` (thts.cpp:277). -/
def St.readsRunSize (s : St S A R X Y) (i : Nat) : Prop := s.stages[i]? = some (.logHeld false)

end Verif.Prog
