import Verif.Model.System
import Verif.Spec.Pool
import Verif.Spec.Search

/-! # Vocabulary for the whole system -/

namespace Verif.Sys

variable {S A R X Y : Type}

/-- The events of the pool, in the same order. -/
def poolPart (h : List (Event S A R)) : List Pool.Event := h.filterMap fun e => match e with | .pool e => some e | _ => none

/-- The events of the search, in the same order. -/
def searchPart (h : List (Event S A R)) : List (Search.Event S A R) := h.filterMap fun e => match e with | .search e => some e | _ => none

/-- The entries given to the logger, newest first. -/
def loggedPart (h : List (Event S A R)) : List Log.Entry := h.filterMap fun e => match e with | .logged e => some e | _ => none

/-- Some schedule leads from a pool with `n` workers, a fresh tree and logger `lg` to `s` with history `h`. -/
def Reachable [DecidableEq S] [DecidableEq A] [Add R] [Zero R] (env : Search.Env S A R) (m : Search.Manager S R) (alg : Search.Alg S A R X Y)
    (n : Nat) (s0 : S) (dp tm : Int) (tb : List ((Int × S) × Option Nat)) (lg : Option Log.Logger) (s : St S A R X Y)
    (h : List (Event S A R)) : Prop :=
  ∃ ls, execFrom env m alg (init env m alg n s0 dp tm tb lg) [] ls = some (s, h)

/-- Number of `run_trials` calls. -/
def numCalls (h : List Pool.Event) : Nat := h.countP Pool.Event.isCall

/-- Number of trials asked for by all `run_trials` calls together. -/
def requested : List Pool.Event → Nat
  | [] => 0
  | .called n _ :: h => n.toNat + requested h
  | _ :: h => requested h

/-- Every `run_trials` call had no time limit and was made when no earlier call was unfinished (`join()` had returned). -/
def oneRunAtATime : List Pool.Event → Bool
  | [] => true
  | .called _ lim :: h => lim.isNone && Pool.settled h && oneRunAtATime h
  | _ :: h => oneRunAtATime h

/-- The event is the client entering `run_trials`. -/
def Event.isEntered : Event S A R → Bool
  | .entered _ => true
  | _ => false

/-- Number of times the client has entered `run_trials`. -/
def numEntered (h : List (Event S A R)) : Nat := h.countP Event.isEntered

/-- The part of the history since the client last entered `run_trials`: the current run. -/
def thisRun (h : List (Event S A R)) : List (Event S A R) := h.takeWhile fun e => !e.isEntered

/-- The part of the history before the current run. -/
def earlier (h : List (Event S A R)) : List (Event S A R) := h.dropWhile fun e => !e.isEntered

/-- Number of trials finished. -/
def finishedIn (h : List (Event S A R)) : Nat := Pool.numFinished (poolPart h)

/-- The time at which the current run began. -/
def runStart : List (Event S A R) → Option Nat
  | [] => none
  | .entered t :: _ => some t
  | _ :: h => runStart h

/-- The time at which the last trial of the current run ended. -/
def lastEnd : List (Event S A R) → Option Nat
  | [] => none
  | .entered _ :: _ => none
  | .reported t :: _ => some t
  | _ :: h => lastEnd h

/-- The durations of all runs together, a run lasting from the time the client enters `run_trials` until the last trial ends; `last` is the
end of the last trial of the run that is being looked at. -/
def durationsFrom (last : Option Nat) : List (Event S A R) → Int
  | [] => 0
  | .entered t :: h => ((last.getD t : Nat) : Int) - t + durationsFrom none h
  | .reported t :: h => durationsFrom (some (last.getD t)) h
  | _ :: h => durationsFrom last h

def durations (h : List (Event S A R)) : Int := durationsFrom none h

end Verif.Sys
