import Verif.Model.McEval
import Verif.Spec.Search

/-! # Vocabulary for evaluations -/

namespace Verif.Eval

open Verif.Search

variable {S A R X Y : Type} [DecidableEq S] [DecidableEq A]

/-- In the tree, the sequence of (action, observation) pairs leads from decision node `d` to decision node `e`. -/
inductive Leads (st : St S A R X Y) : Nat → List (A × S) → Nat → Prop
  | nil (d : Nat) : Leads st d [] d
  | cons {d c d' e : Nat} {a : A} {o : S} {rest : List (A × S)} :
    childC st d a = some c → childD st c o = some d' → Leads st d' rest e → Leads st d ((a, o) :: rest) e

/-- The policy is told about the steps, in order. -/
def drive (st : St S A R X Y) (p : Policy) (steps : List (A × S)) : Policy := steps.foldl (fun p x => p.update st x.1 x.2) p

/-- One step of a rollout: state, action, next state. -/
abbrev RStep (S A : Type) := S × A × S

/-- `steps` are consecutive possible transitions from `s` to `s'`. -/
inductive Walk (env : Env S A R) : S → List (RStep S A) → S → Prop
  | nil (s : S) : Walk env s [] s
  | cons {s s1 s' : S} {a : A} {rest : List (RStep S A)} : s1 ∈ env.succ s a → Walk env s1 rest s' → Walk env s ((s, a, s1) :: rest) s'

/-- The sum of the rewards. -/
def returnOf [Add R] [Zero R] (env : Env S A R) (steps : List (RStep S A)) : R :=
  (steps.map fun x => env.reward x.1 x.2.1 x.2.2).foldl (· + ·) 0

/-- The steps of the current rollout of thread `t`, in order; the history has the newest event first. -/
def rollSteps (t : Nat) : List (EEvent S A R) → List (RStep S A)
  | [] => []
  | .began t' _ :: h => if t' = t then [] else rollSteps t h
  | .acted t' s a s' _ :: h => if t' = t then rollSteps t h ++ [(s, a, s')] else rollSteps t h
  | .finished _ _ _ :: h => rollSteps t h
  | .died _ :: h => rollSteps t h

/-- The finished rollouts: thread and number. -/
def finished : List (EEvent S A R) → List (Nat × Int)
  | [] => []
  | .finished t i _ :: h => finished h ++ [(t, i)]
  | .began _ _ :: h => finished h
  | .acted _ _ _ _ _ :: h => finished h
  | .died _ :: h => finished h

/-- Their returns, in order. -/
def results : List (EEvent S A R) → List R
  | [] => []
  | .finished _ _ r :: h => results h ++ [r]
  | .began _ _ :: h => results h
  | .acted _ _ _ _ _ :: h => results h
  | .died _ :: h => results h

end Verif.Eval
