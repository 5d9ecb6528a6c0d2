import Verif.Spec.System
import Verif.Spec.SearchToy

/-! # Concrete runs of the whole system -/

namespace Verif.Sys.Toy

open Verif

/-- The schedule of one trial of the only worker: the clock advances `t` times, the trial (whose root is a sink state) runs and is reported,
the worker goes for the next trial or to sleep. -/
def trial (t : Nat) : List (Label Nat Nat) :=
  List.replicate t (.pool .tick) ++ List.replicate 3 (.search 0 .go) ++ [.pool (.worker 0)] ++ List.replicate 4 (.pool (.worker 0))

/-- `run_trials` for the trials with the given durations, and `join`. -/
def oneRun (ts : List Nat) : List (Label Nat Nat) :=
  [.prep, .pool (.call ts.length none true), .pool .client] ++ List.replicate 3 (.pool (.worker 0)) ++ ts.flatMap trial ++
    [.pool .client, .pool .client]

/-- Several runs one after the other. -/
def runs (tss : List (List Nat)) : List (Label Nat Nat) := List.replicate 4 (.pool (.worker 0)) ++ tss.flatMap oneRun

def final (L : Log.Logger) (ls : List (Label Nat Nat)) : Option (St Nat Nat Int Unit Unit × List (Event Nat Nat Int)) :=
  execFrom Search.Toy.env (Search.Toy.mgr false false 1) Search.Toy.alg
    (init Search.Toy.env (Search.Toy.mgr false false 1) Search.Toy.alg 1 4 0 0 [] (some L)) [] ls

/-- Evaluate a schedule and check a decidable property of the outcome. -/
theorem run (L : Log.Logger) (ls : List (Label Nat Nat)) (P : St Nat Nat Int Unit Unit → List (Event Nat Nat Int) → Bool)
    (h : ((final L ls).any (fun p => P p.1 p.2)) = true) :
    ∃ s h, Reachable Search.Toy.env (Search.Toy.mgr false false 1) Search.Toy.alg 1 4 0 0 [] (some L) s h ∧ P s h = true := by
  cases hf : final L ls with
  | none => rw [hf] at h; simp at h
  | some p => rw [hf] at h; exact ⟨p.1, p.2, ⟨ls, hf⟩, by simpa using h⟩

end Verif.Sys.Toy
