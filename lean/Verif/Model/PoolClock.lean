import Verif.Model.Pool

/-!
# The pool with a clock that can be set

src/thts.cpp measures time with `system_clock` (lines 37, 234, 365), the wall clock of the machine, which the user, the operating system or a time
server may set at any moment, backwards too.  `Model/Pool.lean` lets it only advance.
-/

namespace Verif.Pool

/-- The pool, the time that has really passed, and its value when the last `run_trials` read the clock. -/
structure CSt where
  st : St
  real : Nat
  realStart : Nat
  deriving DecidableEq, Repr

/-- A scheduling decision, or the clock is set to `t`. -/
inductive CLabel where
  | run (l : Label)
  | adjust (t : Nat)
  deriving DecidableEq, Repr

/-- `realStart` is set where `start_time` is (src/thts.cpp:365); a tick is real time that passes, setting the clock is not. -/
def cstep (c : CSt) : CLabel → Option (CSt × Option Event)
  | .adjust t => some ({ c with st := { c.st with now := t } }, none)
  | .run l => match step c.st l with
    | none => none
    | some (s', e) => some ({ st := s',
                              real := if l = .tick then c.real + 1 else c.real,
                              realStart := match l with
                                | .call _ _ _ => c.real
                                | _ => c.realStart }, e)

/-- Run a schedule; newest event first. -/
def cexecFrom (c : CSt) (h : List Event) : List CLabel → Option (CSt × List Event)
  | [] => some (c, h)
  | l :: ls => match cstep c l with
    | some (c', e) => cexecFrom c' (e.toList ++ h) ls
    | none => none

/-- On a freshly constructed pool with `n` threads. -/
def cexec (n : Nat) (ls : List CLabel) : Option (CSt × List Event) := cexecFrom { st := init n, real := 0, realStart := 0 } [] ls

end Verif.Pool
