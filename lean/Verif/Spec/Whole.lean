import Verif.Spec.System
import Verif.Spec.Pool

/-! # Scheduling decisions of the whole system (C112) -/

namespace Verif.Sys

variable {S A : Type}

/-- A step of the program: a worker or the client goes on, in the pool or in a trial.  (Clock ticks, spurious wake-ups and new calls are not.) -/
def Label.isProgress : Label S A → Bool
  | .pool l => l.isProgress
  | .search _ _ => true
  | .prep => false

/-- A spurious wake-up. -/
def Label.isSpurious : Label S A → Bool
  | .pool l => l.isSpurious
  | _ => false

end Verif.Sys
