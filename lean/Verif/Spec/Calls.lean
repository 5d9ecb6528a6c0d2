import Verif.Spec.Random

/-!
# Several calls of run_trials on the same tree

Call number `i` (from 0) raises the number of trials that may have been begun to `(i + 1) * N`; it has its own scheduler and runs for `n`
scheduled steps.  The expectation over several calls is nested: the next call starts from where the last one ended.
-/

namespace Verif.Random

open Verif.Search Verif.Spec

variable {S A R X Y : Type} [DecidableEq S] [DecidableEq A] [Add R] [Zero R]

/-- The expectation of `f` after `c` more calls of `N` trials each, the first of them being call number `i`, from state `st` with history `h`. -/
noncomputable def expectCalls (env : Env S A R) (m : Manager S R) (alg : Alg S A R X Y) (D : Dice S A R X Y) (N n : Nat)
    (sched : Nat → Scheduler S A R) (f : St S A R X Y → List (Event S A R) → ℝ) : Nat → Nat → St S A R X Y → List (Event S A R) → ℝ
  | 0, _, st, h => f st h
  | c + 1, i, st, h => expectAfter env m alg D ((i + 1) * N) (sched i) (fun st h => expectCalls env m alg D N n sched f c (i + 1) st h) n st h

open Classical in
/-- The probability that `P` holds (of the state and the history) after `c` calls of `N` trials each on a new tree. -/
noncomputable def probCalls (env : Env S A R) (m : Manager S R) (alg : Alg S A R X Y) (D : Dice S A R X Y) (k : Nat) (s0 : S) (dp tm : Int)
    (tb : List ((Int × S) × Option Nat)) (N n : Nat) (sched : Nat → Scheduler S A R) (c : Nat)
    (P : St S A R X Y → List (Event S A R) → Prop) : ℝ :=
  expectCalls env m alg D N n sched (fun st h => if P st h then 1 else 0) c 0 (init env m alg k s0 dp tm tb) []

end Verif.Random
