import Verif.Model.Locks

/-! # Lock order: invariants of the lock model without sharing. -/

namespace Verif.Locks

/-- The node a thread works on, with the children it holds or is going to lock. -/
def Pc.owned : Pc → Option (Nat × List Nat)
  | .own _ n held => some (n, held)
  | .lockKids _ n held todo => some (n, held ++ todo)
  | .wantLeaf _ n held _ => some (n, held)
  | .inLeaf _ n held _ => some (n, held)
  | _ => none

structure Inv (rank : Nat → Nat) (st : St) : Prop where
  rank : ∀ n c, (n, c) ∈ st.edges → rank c = rank n + 1
  parent : ∀ n n' c, (n, c) ∈ st.edges → (n', c) ∈ st.edges → n = n'
  kids : ∀ (i : Nat) p n l, st.ths[i]? = some p → p.owned = some (n, l) → l.Nodup ∧ ∀ c ∈ l, (n, c) ∈ st.edges
  nodup : st.edges.Nodup
  excl : ∀ (i j : Nat) p q x, st.ths[i]? = some p → st.ths[j]? = some q → x ∈ p.holds → x ∈ q.holds → i = j

theorem inv_init (rank : Nat → Nat) (k : Nat) : Inv rank (init k) := by
  refine ⟨by simp [init], by simp [init], ?_, by simp [init], ?_⟩
  · intro i p n l h ho
    simp [init, List.getElem?_replicate] at h
    obtain ⟨_, rfl⟩ := h
    simp [Pc.owned] at ho
  · intro i j p q x hi _ hx
    simp [init, List.getElem?_replicate] at hi
    obtain ⟨_, rfl⟩ := hi
    simp [Pc.holds] at hx

theorem free_iff {st : St} {x : Mutex} : st.free x = true ↔ ∀ (j : Nat) q, st.ths[j]? = some q → x ∉ q.holds := by
  simp only [St.free, List.all_eq_true, Bool.not_eq_true', List.contains_eq_mem, decide_eq_false_iff_not]
  constructor
  · intro h j q hq
    exact h q (List.mem_of_getElem? hq)
  · intro h q hq
    obtain ⟨j, hj⟩ := List.getElem?_of_mem hq
    exact h j q hj

/-- A thread changes its program counter; it gains at most one free mutex. -/
theorem inv_set {rank : Nat → Nat} {st : St} (h : Inv rank st) {i : Nat} {p p' : Pc} (hi : st.ths[i]? = some p)
    (hk : ∀ n l, p'.owned = some (n, l) → l.Nodup ∧ ∀ c ∈ l, (n, c) ∈ st.edges)
    (hh : ∀ x ∈ p'.holds, x ∈ p.holds ∨ st.free x = true) : Inv rank { st with ths := st.ths.set i p' } := by
  have hlt : i < st.ths.length := (List.getElem?_eq_some_iff.mp hi).1
  refine ⟨h.rank, h.parent, ?_, h.nodup, ?_⟩
  · intro j q n l hj ho
    by_cases hij : i = j
    · subst hij
      simp only [List.getElem?_set_self hlt, Option.some.injEq] at hj
      subst hj
      exact hk n l ho
    · simp only [List.getElem?_set_ne hij] at hj
      exact h.kids j q n l hj ho
  · have key : ∀ (j : Nat) q x, j ≠ i → st.ths[j]? = some q → x ∈ p'.holds → x ∈ q.holds → False := by
      intro j q x hji hj hx hq
      rcases hh x hx with hx | hx
      · exact hji (h.excl i j p q x hi hj hx hq).symm
      · exact free_iff.mp hx j q hj hq
    intro a b q r x ha hb hx hy
    by_cases hia : i = a
    · by_cases hib : i = b
      · omega
      · subst hia
        simp only [List.getElem?_set_self hlt, Option.some.injEq] at ha
        simp only [List.getElem?_set_ne hib] at hb
        subst ha
        exact (key b r x (Ne.symm hib) hb hx hy).elim
    · simp only [List.getElem?_set_ne hia] at ha
      by_cases hib : i = b
      · subst hib
        simp only [List.getElem?_set_self hlt, Option.some.injEq] at hb
        subst hb
        exact (key a q x (Ne.symm hia) ha hy hx).elim
      · simp only [List.getElem?_set_ne hib] at hb
        exact h.excl a b q r x ha hb hx hy

theorem inv_add {rank : Nat → Nat} {st : St} (h : Inv rank st) {n c : Nat} (hm : mayAdd false rank st n c = true) :
    Inv rank { st with edges := st.edges ++ [(n, c)] } := by
  simp only [mayAdd, Bool.and_eq_true, beq_iff_eq, Bool.not_eq_true', List.contains_eq_mem,
    decide_eq_false_iff_not, Bool.false_or, List.all_eq_true, bne_iff_ne] at hm
  obtain ⟨⟨h1, h2⟩, h3⟩ := hm
  refine ⟨?_, ?_, ?_, ?_, h.excl⟩
  · intro a b hab
    rcases List.mem_append.mp hab with hab | hab
    · exact h.rank a b hab
    · simp at hab
      obtain ⟨rfl, rfl⟩ := hab
      exact h1
  · intro a a' b ha ha'
    rcases List.mem_append.mp ha with ha | ha <;> rcases List.mem_append.mp ha' with ha' | ha'
    · exact h.parent a a' b ha ha'
    · simp at ha'
      exact absurd ha'.2 (h3 _ ha).2
    · simp at ha
      exact absurd ha.2 (h3 _ ha').2
    · simp at ha ha'
      rw [ha.1, ha'.1]
  · intro i p a l hi ho
    obtain ⟨k1, k2⟩ := h.kids i p a l hi ho
    exact ⟨k1, fun x hx => List.mem_append_left _ (k2 x hx)⟩
  · exact List.nodup_append.mpr ⟨h.nodup, by simp, fun a ha b hb => by
      simp at hb
      subst hb
      rintro rfl
      exact h2 ha⟩

theorem kids_mem {st : St} {n c : Nat} : c ∈ st.kids n ↔ (n, c) ∈ st.edges := by
  simp only [St.kids, List.mem_map, List.mem_filter, beq_iff_eq]
  constructor
  · rintro ⟨⟨a, b⟩, ⟨h1, h2⟩, h3⟩
    simp only at h2 h3
    subst h2; subst h3
    exact h1
  · intro h
    exact ⟨(n, c), ⟨h, rfl⟩, rfl⟩

theorem kids_nodup {st : St} (h : st.edges.Nodup) (n : Nat) : (st.kids n).Nodup := by
  unfold St.kids
  rw [List.nodup_iff_pairwise_ne, List.pairwise_map]
  have h1 : (st.edges.filter fun e => e.1 == n).Pairwise (· ≠ ·) :=
    List.nodup_iff_pairwise_ne.mp (List.Nodup.sublist List.filter_sublist h)
  rw [List.pairwise_iff_forall_sublist] at h1 ⊢
  intro a b hab he
  have hm := hab.subset
  have ha := List.mem_filter.mp (hm (show a ∈ [a, b] by simp))
  have hb := List.mem_filter.mp (hm (show b ∈ [a, b] by simp))
  simp only [beq_iff_eq] at ha hb
  exact h1 hab (Prod.ext (ha.2.trans hb.2.symm) he)

theorem inv_step {rank : Nat → Nat} {st st' : St} (h : Inv rank st) {i : Nat} {a : Act}
    (hs : step false rank st i a = some st') : Inv rank st' := by
  unfold step at hs
  split at hs
  · simp at hs
  rename_i pc hpc
  simp only at hs
  split at hs
  · -- begin
    simp only [Option.some.injEq] at hs; subst hs
    exact inv_set h hpc (by simp [Pc.owned]) (by simp [Pc.holds])
  · simp only [Option.some.injEq] at hs; subst hs
    exact inv_set h hpc (by simp [Pc.owned]) (by simp [Pc.holds])
  · split at hs
    · rename_i hf
      simp only [Option.some.injEq] at hs; subst hs
      exact inv_set h hpc (by simp [Pc.owned]) (by simp [Pc.holds, hf])
    · simp at hs
  · split at hs
    · rename_i log n hf
      simp only [Option.some.injEq] at hs; subst hs
      refine inv_set h hpc (by simp [Pc.owned]) ?_
      intro x hx
      simp [Pc.holds] at hx
      rcases hx with ⟨hl, rfl⟩ | rfl
      · left; simp [Pc.holds, hl]
      · right; exact hf
    · simp at hs
  · split at hs
    · rename_i log n order hp
      simp only [Option.some.injEq] at hs; subst hs
      have hperm := List.isPerm_iff.mp hp
      refine inv_set h hpc ?_ ?_
      · intro n' l ho
        simp [Pc.owned] at ho
        obtain ⟨rfl, rfl⟩ := ho
        exact ⟨(hperm.nodup_iff).mpr (kids_nodup h.nodup _), fun c hc => kids_mem.mp (hperm.mem_iff.mp hc)⟩
      · intro x hx
        left
        simpa [Pc.holds] using hx
    · simp at hs
  · rename_i log n held
    simp only [Option.some.injEq] at hs; subst hs
    refine inv_set h hpc ?_ ?_
    · intro n' l ho
      simp [Pc.owned] at ho
      obtain ⟨rfl, rfl⟩ := ho
      exact h.kids i _ _ _ hpc (by simp [Pc.owned])
    · intro x hx
      left
      simpa [Pc.holds] using hx
  · split at hs
    · rename_i log n held c todo hf
      simp only [Option.some.injEq] at hs; subst hs
      refine inv_set h hpc ?_ ?_
      · intro n' l ho
        simp [Pc.owned] at ho
        obtain ⟨rfl, rfl⟩ := ho
        exact h.kids i _ _ _ hpc (by simp [Pc.owned])
      · intro x hx
        simp only [Pc.holds, List.map_append, List.map_cons, List.map_nil, List.mem_append, List.mem_cons,
          List.not_mem_nil, or_false] at hx ⊢
        rcases hx with hx | hx | hx | hx
        · exact .inl (.inl hx)
        · exact .inl (.inr (.inl hx))
        · exact .inl (.inr (.inr hx))
        · right; rw [hx]; exact hf
    · simp at hs
  · rename_i log n held
    simp only [Option.some.injEq] at hs; subst hs
    refine inv_set h hpc ?_ ?_
    · intro n' l ho
      simp [Pc.owned] at ho
      obtain ⟨rfl, rfl⟩ := ho
      simp
    · intro x hx
      left
      simp only [Pc.holds, List.map_nil, List.mem_append, List.mem_cons, List.not_mem_nil, or_false] at hx ⊢
      rcases hx with hx | hx
      · exact .inl hx
      · exact .inr (.inl hx)
  · rename_i log n held l
    simp only [Option.some.injEq] at hs; subst hs
    refine inv_set h hpc ?_ ?_
    · intro n' l' ho
      exact h.kids i _ n' l' hpc (by simpa [Pc.owned] using ho)
    · intro x hx
      left
      simpa [Pc.holds] using hx
  · split at hs
    · rename_i log n held l hf
      simp only [Option.some.injEq] at hs; subst hs
      refine inv_set h hpc ?_ ?_
      · intro n' l' ho
        exact h.kids i _ n' l' hpc (by simpa [Pc.owned] using ho)
      · intro x hx
        simp only [Pc.holds, List.mem_cons] at hx ⊢
        rcases hx with rfl | hx
        · exact .inr hf
        · exact .inl hx
    · simp at hs
  · rename_i log n held l
    simp only [Option.some.injEq] at hs; subst hs
    refine inv_set h hpc ?_ ?_
    · intro n' l' ho
      exact h.kids i _ n' l' hpc (by simpa [Pc.owned] using ho)
    · intro x hx
      left
      simp only [Pc.holds, List.mem_cons] at hx ⊢
      exact .inr hx
  · split at hs
    · rename_i hm
      simp only [Option.some.injEq] at hs; subst hs
      exact inv_add h hm
    · simp at hs
  · split at hs
    · rename_i hm
      simp only [Option.some.injEq] at hs; subst hs
      exact inv_add h hm
    · simp at hs
  · simp only [Option.some.injEq] at hs; subst hs
    exact inv_set h hpc (by simp [Pc.owned]) (by simp [Pc.holds])
  · simp at hs

theorem inv_run {rank : Nat → Nat} : ∀ (l : List (Nat × Act)) (st st' : St), Inv rank st →
    run false rank st l = some st' → Inv rank st'
  | [], st, st', h, hr => by simp [run] at hr; exact hr ▸ h
  | (i, a) :: l, st, st', h, hr => by
    simp only [run] at hr
    cases hs : step false rank st i a with
    | none => simp [hs] at hr
    | some st1 =>
      simp [hs] at hr
      exact inv_run l st1 st' (inv_step h hs) hr

end Verif.Locks
