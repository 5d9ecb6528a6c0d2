import Verif.Model.Pool

/-!
# Vocabulary for the pool properties, over histories of API events (newest event first)
-/

namespace Verif.Pool

/-- The event is a `run_trials` call. -/
def Event.isCall : Event → Bool
  | .called _ _ => true
  | _ => false

/-- The event is the start of a trial. -/
def Event.isStart : Event → Bool
  | .started _ => true
  | _ => false

/-- The event is the end of a trial. -/
def Event.isFinish : Event → Bool
  | .finished _ => true
  | _ => false

/-- The part of the history after the most recent `run_trials` call. -/
def sinceCall (h : List Event) : List Event := h.takeWhile (fun e => !e.isCall)

/-- Number of trials started in (a part of) a history. -/
def numStarted (h : List Event) : Nat := h.countP Event.isStart

/-- Number of trials finished in (a part of) a history. -/
def numFinished (h : List Event) : Nat := h.countP Event.isFinish

/-- The trial budget given by the most recent `run_trials` call (0 before the first call). -/
def budget : List Event → Int
  | [] => 0
  | .called n _ :: _ => n
  | _ :: h => budget h

/-- Worker `i` is in the middle of a trial: its most recent start has not been finished. -/
def inTrial (i : Nat) : List Event → Bool
  | [] => false
  | .started j :: h => if j = i then true else inTrial i h
  | .finished j :: h => if j = i then false else inTrial i h
  | _ :: h => inTrial i h

/-- Environments observed by the trial currently running on worker `i`, newest first. -/
def seenBy (i : Nat) : List Event → List Nat
  | [] => []
  | .started j :: h => if j = i then [] else seenBy i h
  | .observed j e :: h => if j = i then e :: seenBy i h else seenBy i h
  | _ :: h => seenBy i h

/-- No `run_trials` call has been made, or `join()` has returned since the most recent one. -/
def settled : List Event → Bool
  | [] => true
  | .called _ _ :: _ => false
  | .joined :: _ => true
  | _ :: h => settled h

/-- Discipline: `set_new_env` succeeded only when `join()` had returned since the last `run_trials`. -/
def swapsOnlyWhenSettled : List Event → Bool
  | [] => true
  | .swapped _ :: h => settled h && swapsOnlyWhenSettled h
  | _ :: h => swapsOnlyWhenSettled h

/-- The label is a step of the program itself: a worker or the client continues.  (Clock ticks, spurious
wake-ups, root look-ups inside a trial and new API calls are not.) -/
def Label.isProgress : Label → Bool
  | .worker _ | .client => true
  | _ => false

/-- The label is a spurious wake-up. -/
def Label.isSpurious : Label → Bool
  | .spuriousW _ | .spuriousC => true
  | _ => false

/-- The client is inside `join()` or `run_trials`. -/
def CPc.busy : CPc → Bool
  | .publish _ | .joinWant | .joinChk | .joinWait | .joinWoken => true
  | _ => false

end Verif.Pool
