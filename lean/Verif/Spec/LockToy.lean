import Verif.Spec.LockLevel
import Verif.Spec.SearchToy

/-! # Concrete runs at the level of locks -/

namespace Verif.LockLevel

open Verif.Search

namespace Toy

/-- The code of `Verif.Search.Toy.alg`: selects any valid action without looking at the children, backups read nothing. -/
def code : Code Nat Nat Int Unit Unit where
  selBlind v _ _ a := decide (a ∈ v.actions)
  nD := 0
  readsD _ _ _ := true
  resD v _ _ _ := v.x
  nC := 0
  resC _ _ y _ _ := y

/-- A selection that reads all children, and one round of reading in every backup. -/
def codeR : Code Nat Nat Int Unit Unit where
  selBlind _ _ _ _ := false
  nD := 1
  readsD _ _ _ := true
  resD v _ _ _ := v.x
  nC := 1
  resC _ _ y _ _ := y

def hash (k : Int × Nat) : Nat := k.2

/-- From the start of a trial of worker `w` to the moment it has locked the table. -/
def toTable (w a o : Nat) : List (Nat × FChoice Nat Nat) :=
  List.replicate 3 (w, .go) ++ [(w, .act a)] ++ List.replicate 5 (w, .go) ++ [(w, .obs o)]

def final (cd : Code Nat Nat Int Unit Unit) (table : Bool) (mutexes : Nat) (ls : List (Nat × FChoice Nat Nat)) :
    Option (FSt Nat Nat Int Unit Unit × List (Event Nat Nat Int)) :=
  fexec Search.Toy.env (Search.Toy.mgr false table mutexes) hash Search.Toy.alg cd
    (finit Search.Toy.env (Search.Toy.mgr false table mutexes) Search.Toy.alg 2 0 0 0 []) [] ls

/-- Evaluate a schedule and check a decidable property of the outcome. -/
theorem run {cd : Code Nat Nat Int Unit Unit} {table : Bool} {mutexes : Nat} (ls : List (Nat × FChoice Nat Nat))
    (P : FSt Nat Nat Int Unit Unit → List (Event Nat Nat Int) → Bool)
    (h : ((final cd table mutexes ls).any (fun p => P p.1 p.2)) = true) :
    ∃ f h, FReachable Search.Toy.env (Search.Toy.mgr false table mutexes) hash Search.Toy.alg cd 2 0 0 0 [] f h ∧ P f h = true := by
  cases hf : final cd table mutexes ls with
  | none => rw [hf] at h; simp at h
  | some p => rw [hf] at h; exact ⟨p.1, p.2, ⟨ls, hf⟩, by simpa using h⟩

end Toy

end Verif.LockLevel
