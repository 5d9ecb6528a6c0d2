import Verif.Model.PrintMap
import Verif.Props.Memory
import Verif.Proofs.Decimal
import Mathlib.Data.List.SplitOn

/-!
# Property C116: printing vectors, maps and the transposition table
-/

namespace Verif.PrintMap

open Verif.Search Verif.Spec

theorem joinLoop_eq (xs : List (List Char)) : joinLoop true xs = List.intercalate [','] xs := by
  have h : ∀ xs : List (List Char), ∀ x, x ++ joinLoop false xs = List.intercalate [','] (x :: xs) := by
    intro xs
    induction xs with
    | nil => intro x; simp [joinLoop, List.intercalate]
    | cons y xs ih =>
      intro x
      have := ih y
      simp only [joinLoop, List.intercalate, List.intersperse, List.flatten_cons] at this ⊢
      simp [← this]
  cases xs with
  | nil => simp [joinLoop, List.intercalate]
  | cons x xs => rw [← h xs x]; simp [joinLoop]

/-- C116.  A vector is printed as its elements between brackets, separated by commas. -/
theorem c116_vector {T : Type} (f : T → List Char) (l : List T) : vec f l = ['['] ++ List.intercalate [','] (l.map f) ++ [']'] := by
  unfold vec; rw [joinLoop_eq]

/-- C116.  A map is printed as its entries between braces, separated by commas, in some order; each entry once. -/
theorem c116_map {K V : Type} (f : K → List Char) (g : V → List Char) (d : List Char) (l : List (K × V)) :
    map f g d l = ['{'] ++ List.intercalate [','] (l.map fun p => f p.1 ++ d ++ g p.2) ++ ['}'] := by
  unfold map; rw [joinLoop_eq]

/-- C116.  If no element contains a comma, what is printed can be read back: vectors that print alike have elements that print alike, except
that a vector of one element that prints as nothing looks like the empty one. -/
theorem c116_unambiguous {T : Type} (f : T → List Char) {l l' : List T} (h : ∀ x ∈ l, ',' ∉ f x) (h' : ∀ x ∈ l', ',' ∉ f x)
    (hne : l ≠ []) (hne' : l' ≠ []) (he : vec f l = vec f l') : l.map f = l'.map f := by
  rw [c116_vector, c116_vector] at he
  have h1 := List.append_cancel_left (List.append_cancel_right he)
  have e : ∀ l : List T, (∀ x ∈ l, ',' ∉ f x) → l ≠ [] → (List.intercalate [','] (l.map f)).splitOn ',' = l.map f := by
    intro l hl hn
    refine List.splitOn_intercalate (ls := l.map f) ',' ?_ (by simpa using hn)
    intro y hy
    obtain ⟨x, hx, rfl⟩ := List.mem_map.1 hy
    exact hl x hx
  rw [← e l h hne, h1, e l' h' hne']

example : vec (fun n : Nat => Nat.toDigits 10 n) [12, 3] = "[12,3]".toList ∧ vec (fun n : Nat => Nat.toDigits 10 n) [] = "[]".toList := by decide

example : map (fun n : Nat => Nat.toDigits 10 n) (fun n : Nat => Nat.toDigits 10 n) [':'] [(1, 5), (2, 6)] = "{1:5,2:6}".toList := by decide

/-- C116.  With commas it is ambiguous. -/
theorem c116_ambiguous_false : vec (fun s : List Char => s) ["a,b".toList] = vec (fun s : List Char => s) ["a".toList, "b".toList] := by decide

theorem decimal_no_comma (i : Int) : ',' ∉ Context.decimal i := by
  have hd : ∀ n, ',' ∉ Context.digits n := by
    intro n hc
    obtain ⟨d, h1, h2⟩ := Context.digits_digit n _ hc
    revert d
    decide
  unfold Context.decimal
  split
  · intro h
    rcases List.mem_cons.1 h with h | h
    · exact absurd h (by decide)
    · exact hd _ h
  · exact hd _

theorem decimal_ne_nil (i : Int) : Context.decimal i ≠ [] := by
  unfold Context.decimal
  split
  · simp
  · exact Context.digits_ne_nil _

theorem vec_injective {T : Type} {f : T → List Char} (hf : ∀ x y, f x = f y → x = y) (hc : ∀ x, ',' ∉ f x) (hne : ∀ x, f x ≠ []) {l l' : List T}
    (he : vec f l = vec f l') : l = l' := by
  have key : ∀ {l : List T}, vec f [] = vec f l → l = [] := by
    intro l h
    cases l with
    | nil => rfl
    | cons x l =>
      exfalso
      simp only [vec, joinLoop, List.map_nil, List.map_cons, if_true, List.nil_append, List.append_nil, List.cons_append,
        List.cons.injEq, true_and, List.append_assoc] at h
      cases hx : f x with
      | nil => exact hne x hx
      | cons c cs =>
        rw [hx] at h
        have := congrArg List.length h
        simp at this
  by_cases h1 : l = []
  · subst h1
    exact (key he).symm
  by_cases h2 : l' = []
  · subst h2
    exact key he.symm
  have h := c116_unambiguous f (fun x _ => hc x) (fun x _ => hc x) h1 h2 he
  exact List.map_injective_iff.2 (fun x y => hf x y) h

/-- C116.  Vectors of integer actions that print alike are equal. -/
theorem c116_int_actions {l l' : List Int} (he : vec intAction l = vec intAction l') : l = l' :=
  vec_injective (fun _ _ h => Context.decimal_inj h) decimal_no_comma decimal_ne_nil he

/-- C116.  States made of one, two or three integers that print alike are equal. -/
theorem c116_int_states : (∀ i j, intState i = intState j → i = j) ∧ (∀ p q, intPairState p = intPairState q → p = q) ∧
    ∀ p q, int3TupleState p = int3TupleState q → p = q := by
  have gen : ∀ {l l' : List Int}, joinLoop true (l.map Context.decimal) = joinLoop true (l'.map Context.decimal) → l = l' := by
    intro l l' h
    refine c116_int_actions (l := l) (l' := l') ?_
    unfold vec
    have : ∀ l : List Int, l.map intAction = l.map Context.decimal := fun _ => rfl
    rw [this, this, h]
  refine ⟨fun i j h => ?_, fun p q h => ?_, fun p q h => ?_⟩
  · exact Context.decimal_inj (List.append_cancel_left (List.append_cancel_right h))
  · have := gen (l := [p.1, p.2]) (l' := [q.1, q.2]) (by
      have h' := List.append_cancel_right (show _ ++ [')'] = _ ++ [')'] from h)
      simpa [joinLoop] using h')
    simp at this
    exact Prod.ext this.1 this.2
  · have := gen (l := [p.1, p.2.1, p.2.2]) (l' := [q.1, q.2.1, q.2.2]) (by
      have h' := List.append_cancel_right (show _ ++ [')'] = _ ++ [')'] from h)
      simpa [joinLoop] using h')
    simp at this
    exact Prod.ext this.1 (Prod.ext this.2.1 this.2.2)

example : vec intAction [12, -3] = "[12,-3]".toList ∧ intPairState (0, -10) = "(0,-10)".toList := by
  constructor <;> simp [vec, joinLoop, intAction, intPairState, Context.decimal, Context.digits]

theorem lockAll_ok {K : Type} {tb : List (K × Option Nat)} (h : ∀ p ∈ tb, p.2 ≠ none) :
    ∃ l, lockAll tb = .ok l ∧ (l.map fun p => (p.1, some p.2)) = tb := by
  induction tb with
  | nil => exact ⟨[], rfl, rfl⟩
  | cons p tb ih =>
    obtain ⟨k, o⟩ := p
    obtain ⟨l, h1, h2⟩ := ih (fun p hp => h p (by simp [hp]))
    cases o with
    | none => exact absurd rfl (h (k, none) (by simp))
    | some i => exact ⟨(k, i) :: l, by simp [lockAll, h1], by simp [h2]⟩

theorem lockAll_throws {K : Type} {tb : List (K × Option Nat)} {k : K} (h : (k, none) ∈ tb) : lockAll tb = .error .badWeakPtr := by
  induction tb with
  | nil => simp at h
  | cons p tb ih =>
    obtain ⟨k', o⟩ := p
    cases o with
    | none => rfl
    | some i =>
      have : (k, none) ∈ tb := by simpa using h
      simp [lockAll, ih this]

/-- C116.  Printing a table succeeds if and only if all its nodes are alive. -/
theorem c116_table_iff {K : Type} (f : K → List Char) (g : Nat → List Char) (iter : List (K × Nat) → List (K × Nat)) (tb : List (K × Option Nat)) :
    (∃ t, table f g iter tb = .ok t) ↔ ∀ p ∈ tb, p.2 ≠ none := by
  constructor
  · rintro ⟨t, ht⟩ ⟨k, o⟩ hp ho
    simp only at ho
    subst ho
    simp [table, lockAll_throws hp] at ht
  · intro h
    obtain ⟨l, h1, _⟩ := lockAll_ok h
    exact ⟨_, by simp [table, h1]; rfl⟩

section
variable {S A R X Y : Type} [DecidableEq S] [DecidableEq A] [AddCommMonoid R] {env : Env S A R} {m : Manager S R} {alg : Alg S A R X Y} {n : Nat}
  {s0 : S} {dp tm : Int} {tb : List ((Int × S) × Option Nat)} {st : St S A R X Y} {h : List (Event S A R)}

/-- C116.  During the first search with a manager the table can be printed at every moment, and shows each of its entries once. -/
theorem c116_first_tree_partial (hr : Reachable env m alg n s0 dp tm [] st h) (f : Int × S → List Char) (g : Nat → List Char)
    {iter : List ((Int × S) × Nat) → List ((Int × S) × Nat)} (hi : ∀ l, List.Perm (iter l) l) :
    ∃ l : List ((Int × S) × Nat), List.Perm (l.map fun p => (p.1, some p.2)) st.table ∧
      table f g iter st.table = .ok (['{'] ++ List.intercalate [','] (l.map fun p => f p.1 ++ [':'] ++ g p.2) ++ ['}']) := by
  have hne : ∀ p ∈ st.table, p.2 ≠ none :=
    reach_induct (fun st _ => ∀ p ∈ st.table, p.2 ≠ none) (by simp [init]) (fun _ _ _ _ _ _ ih _ E => eff_table E ih) hr
  obtain ⟨l, h1, h2⟩ := lockAll_ok hne
  refine ⟨iter l, ?_, by simp only [table, h1, c116_map]⟩
  rw [← h2]
  exact (hi l).map _

/-- C116 is false.  After a tree that used the table has been destroyed, printing the table of its manager throws. -/
theorem c116_destroyed_false (hv : alg.Valid) (htb : Leftover tb) (hr : Reachable env m alg n s0 dp tm tb st h) (hne : st.table ≠ []) {k : Nat}
    {s : Mem.Mem} (hd : (Mem.poolHandles st).foldlM (Mem.drop k) (Mem.memOf st (Mem.poolHandles st ++ [.mgr])) = .ok s)
    (f : Int × S → List Char) (g : Nat → List Char) (iter : List ((Int × S) × Nat) → List ((Int × S) × Nat)) :
    table f g iter (Mem.expire s st.table) = .error .badWeakPtr := by
  rw [Mem.expire_all hv htb hr hd]
  cases ht : st.table with
  | nil => exact absurd ht hne
  | cons p tb =>
    obtain ⟨key, o⟩ := p
    simp [table, lockAll]

/-- C116 is false.  The table of a later search with the same manager cannot be printed either, at any moment, as entries never go away. -/
theorem c116_second_tree_false (hr : Reachable env m alg n s0 dp tm tb st h) (hne : tb ≠ []) (htb : Leftover tb)
    (f : Int × S → List Char) (g : Nat → List Char) (iter : List ((Int × S) × Nat) → List ((Int × S) × Nat)) :
    table f g iter st.table = .error .badWeakPtr := by
  obtain ⟨⟨key, o⟩, hp⟩ := List.exists_mem_of_ne_nil tb hne
  obtain rfl : o = none := htb _ hp
  have hin : (key, none) ∈ st.table :=
    reach_induct (fun st _ => (key, none) ∈ st.table) (by simpa [init] using hp) (fun st h w e st' _ ih _ E => by
      cases E
      case stepNew ht =>
        rcases ht with ⟨_, rfl⟩ | ⟨_, _, rfl⟩
        · exact ih
        · exact List.mem_append_left _ ih
      all_goals exact ih) hr
  simp [table, lockAll_throws hin]

end

/-- A search whose table has an entry, destroyed; the stack is large enough. -/
example : ∃ st h s, Reachable Toy.env (Toy.mgr true true 1) Toy.alg 2 0 0 0 [] st h ∧ st.table ≠ [] ∧
    (Mem.poolHandles st).foldlM (Mem.drop 9) (Mem.memOf st (Mem.poolHandles st ++ [.mgr])) = .ok s := by
  obtain ⟨-, st, h, r, -, ht⟩ := c19_expired_entry_false
  have hl : Leftover ([] : List ((Int × Nat) × Option Nat)) := by simp [Leftover]
  obtain ⟨s, hd⟩ := Mem.c82_stack_partial (k := 9) (xs := Mem.poolHandles st) (hs := [.mgr]) Toy.alg_valid hl r (by simp [Mem.poolHandles])
    (Mem.pool_exist Toy.alg_valid hl r) (by decide) (by decide)
  refine ⟨st, h, s, r, ?_, hd⟩
  intro he
  simp [he] at ht

end Verif.PrintMap
