import Verif.Props.LockLevel

/-!
# C78: the mutexes of the transposition table that are locked exist
-/

namespace Verif.LockLevel

open Verif.Search

/-- C78.  The mutex chosen for a key is the documented one, `hash % size` (thts_manager.h:172-173), and one of the vector. -/
theorem c78_documented_mutex {n : Nat} (hn : 1 ≤ n) (hash : Nat) : mutexIndex n hash = hash % n ∧ mutexIndex n hash < n := by
  unfold mutexIndex
  split
  · exact ⟨rfl, Nat.mod_lt _ hn⟩
  · obtain rfl : n = 1 := by omega
    exact ⟨(Nat.mod_one _).symm, Nat.one_pos⟩

section
variable {S A R X Y : Type} [DecidableEq S] [DecidableEq A] [Add R] [Zero R]
  {env : Env S A R} {m : Manager S R} {hash : Int × S → Nat} {alg : Alg S A R X Y} {code : Code S A R X Y}
  {k : Nat} {s0 : S} {dp tm : Int} {tb : List ((Int × S) × Option Nat)}

/-- C78.  Under every schedule no worker ever locks a table mutex beyond the end of the vector. -/
theorem c78_mutex_exists (hm : 1 ≤ m.numMutexes) {f : FSt S A R X Y} {h : List (Event S A R)} (hr : FReachable env m hash alg code k s0 dp tm tb f h)
    {j w : Nat} (hl : f.lock (.t j) = some w) : j < m.numMutexes := by
  obtain ⟨_, x, rfl⟩ := (linv_reach hr).index j w hl
  exact (c78_documented_mutex hm x).2

end

/-- Two mutexes, a worker holds the second. -/
example : ∃ f h w, FReachable Search.Toy.env (Search.Toy.mgr false true 2) Toy.hash Search.Toy.alg Toy.code 2 0 0 0 [] f h ∧ f.lock (.t 1) = some w := by
  obtain ⟨f, h, hr, hp⟩ := Toy.run (cd := Toy.code) (table := true) (mutexes := 2)
    (Toy.toTable 0 0 1 ++ Toy.toTable 1 1 2 ++ [(0, .go), (0, .go)])
    (fun f _ => decide (f.lock (.t 1) = some 0)) (by decide +kernel)
  exact ⟨f, h, 0, hr, of_decide_eq_true hp⟩

end Verif.LockLevel
