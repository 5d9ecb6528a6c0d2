import Verif.Spec.Program

/-! # Vocabulary for reproducibility (C105) -/

namespace Verif.Prog

variable {S A R X Y : Type}

/-- What the workers did in the tree during a schedule, oldest first. -/
def moves (ls : List (Label S A)) : List (Nat × LockLevel.FChoice S A) :=
  ls.filterMap fun l => match l with | .search i ch => some (i, ch) | _ => none

/-- Seeded random numbers: what a worker draws (an action, an outcome; also the order in which it walks through a hash map) is determined
by everything that was done in the tree before. -/
def Seeded (pick : List (Nat × LockLevel.FChoice S A) → Nat → LockLevel.FChoice S A) (ls : List (Label S A)) : Prop :=
  ∀ before i ch after, ls = before ++ .search i ch :: after → ch = pick (moves before) i

section
variable [DecidableEq S] [DecidableEq A] [Add R] [Zero R]

/-- Some schedule with seeded random numbers leads from a pool with `n` workers, a fresh tree and logger `lg` to `s` with history `h`. -/
def SeededRun (env : Search.Env S A R) (m : Search.Manager S R) (hash : Int × S → Nat) (alg : Search.Alg S A R X Y)
    (code : LockLevel.Code S A R X Y) (pick : List (Nat × LockLevel.FChoice S A) → Nat → LockLevel.FChoice S A) (n : Nat) (s0 : S)
    (dp tm : Int) (tb : List ((Int × S) × Option Nat)) (lg : Option Log.Logger) (s : St S A R X Y) (h : List (Event S A R)) : Prop :=
  ∃ ls, Seeded pick ls ∧ execFrom env m hash alg code (init env m alg n s0 dp tm tb lg) [] ls = some (s, h)

end

/-- The numbers of trials asked for by the calls of `run_trials`, newest first. -/
def asked (h : List (Event S A R)) : List Int := h.filterMap fun e => match e with | .pool (.called N _) => some N | _ => none

/-- All trials asked for; a negative number asks for none. -/
def allAsked (h : List (Event S A R)) : Int := ((asked h).map fun N => max N 0).sum

/-- Every call of `run_trials` was made after the trials of the call before it had been waited for, and had no time limit. -/
def InTurn (h : List (Event S A R)) : Prop :=
  ∀ later N lim before, h = later ++ .pool (.called N lim) :: before → lim = none ∧ Pool.settled (poolPart before) = true

end Verif.Prog
