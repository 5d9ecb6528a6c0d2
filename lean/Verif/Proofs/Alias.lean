import Verif.Model.Alias
import Verif.Proofs.Sampling
import Mathlib.Tactic.Ring

/-! # The alias table construction conserves the mass of every key. -/

set_option linter.unusedSectionVars false

namespace Verif.Alias
open Verif.Sampling Verif.Spec

variable {K 𝕜 : Type} [Field 𝕜] [LinearOrder 𝕜] [IsStrictOrderedRing 𝕜] [DecidableEq K]

/-- Sum over the entries of a table of a function of index and entry. -/
def total (F : Nat → Entry K 𝕜 → 𝕜) : Nat → List (Entry K 𝕜) → 𝕜
  | _, [] => 0
  | j, e :: t => F j e + total F (j + 1) t

theorem total_congr (F F' : Nat → Entry K 𝕜 → 𝕜) : ∀ (t : List (Entry K 𝕜)) (j : Nat),
    (∀ i e, t[i]? = some e → F (j + i) e = F' (j + i) e) → total F j t = total F' j t
  | [], _, _ => rfl
  | e :: t, j, h => by
    have h0 := h 0 e (by simp)
    simp only [Nat.add_zero] at h0
    have := total_congr F F' t (j + 1) fun i e' he => by
      have := h (i + 1) e' (by simpa using he)
      rw [show j + 1 + i = j + (i + 1) by omega]
      exact this
    simp only [total, h0, this]

theorem total_set (F F' : Nat → Entry K 𝕜 → 𝕜) (e' : Entry K 𝕜) : ∀ (t : List (Entry K 𝕜)) (j i : Nat) (e : Entry K 𝕜),
    (∀ i', i' ≠ j + i → ∀ e, F i' e = F' i' e) → t[i]? = some e →
    total F' j (t.set i e') = total F j t - F (j + i) e + F' (j + i) e'
  | [], _, _, _, _, h => by simp at h
  | e0 :: t, j, 0, e, hF, h => by
    simp only [List.getElem?_cons_zero, Option.some.injEq] at h
    subst h
    have : total F' (j + 1) t = total F (j + 1) t :=
      total_congr _ _ _ _ fun i e _ => (hF _ (by omega) e).symm
    simp only [List.set_cons_zero, total, Nat.add_zero, this]
    ring
  | e0 :: t, j, i + 1, e, hF, h => by
    have ih := total_set F F' e' t (j + 1) i e (fun i' hi' => hF i' (by omega)) (by simpa using h)
    have h0 := hF j (by omega) e0
    rw [show j + 1 + i = j + (i + 1) by omega] at ih
    simp only [List.set_cons_succ, total, ih, h0]
    ring

/-- Share of the probability of key `k` (times the size of the table) held by the entry `e` at index `i`; entries in `un` are not
settled yet, what they lack or exceed is still open. -/
def share (un : List Nat) (k : K) (i : Nat) (e : Entry K 𝕜) : 𝕜 :=
  (if e.first = k then e.threshold else 0) +
    if i ∈ un then 0 else if e.second = k then 1 - e.threshold else 0

/-- Excess of an unsettled entry. -/
def excess (un : List Nat) (i : Nat) (e : Entry K 𝕜) : 𝕜 := if i ∈ un then e.threshold - 1 else 0

structure PInv (target : K → 𝕜) (bal : 𝕜) (t : List (Entry K 𝕜)) (large small : List Nat) : Prop where
  nodup : (large ++ small).Nodup
  isLarge : ∀ i ∈ large, ∃ e, t[i]? = some e ∧ 1 < e.threshold ∧ e.second = e.first
  isSmall : ∀ i ∈ small, ∃ e, t[i]? = some e ∧ 0 ≤ e.threshold ∧ e.threshold < 1 ∧ e.second = e.first
  rest : ∀ (i : Nat) (e : Entry K 𝕜), t[i]? = some e → i ∉ large ++ small →
    0 ≤ e.threshold ∧ (e.threshold < 1 ∨ (e.threshold = 1 ∧ e.second = e.first))
  shares : ∀ k, total (share (large ++ small) k) 0 t = target k
  balance : total (excess (large ++ small)) 0 t = bal

/-- One step of the pairing loop, in which the new threshold is `x`: what `x` differs from the exact value is moved to the shares and the balance. -/
theorem PInv.step' {target : K → 𝕜} {bal x : 𝕜} (hthr : 0 ≤ x) {t : List (Entry K 𝕜)} {l s : Nat} {large small : List Nat} {el es : Entry K 𝕜}
    (h : PInv target bal t (l :: large) (s :: small)) (hl : t[l]? = some el) (hs : t[s]? = some es)
    (large' small' : List Nat)
    (hcase : (1 < x ∧ large' = l :: large ∧ small' = small) ∨
      (x < 1 ∧ large' = large ∧ small' = l :: small) ∨
      (x = 1 ∧ large' = large ∧ small' = small)) :
    PInv (fun k => target k + if el.first = k then x - (el.threshold - (1 - es.threshold)) else 0) (bal + (x - (el.threshold - (1 - es.threshold)))) ((t.set s { es with second := el.first }).set l
      { el with threshold := x }) large' small' := by
  obtain ⟨el0, hl0, hl1, hl2⟩ := h.isLarge l (by simp)
  obtain ⟨es0, hs0, hs1, hs2, hs3⟩ := h.isSmall s (by simp)
  obtain rfl : el0 = el := by rw [hl] at hl0; exact (Option.some.inj hl0).symm
  obtain rfl : es0 = es := by rw [hs] at hs0; exact (Option.some.inj hs0).symm
  have hnd := h.nodup
  have hls : l ≠ s := by
    rintro rfl
    simp at hnd
  have hlL : l ∉ large ∧ l ∉ small := by
    simp at hnd
    exact ⟨hnd.1.1, hnd.1.2.2⟩
  have hsL : s ∉ large ∧ s ∉ small := by
    rw [List.nodup_append] at hnd
    obtain ⟨_, h2, h3⟩ := hnd
    refine ⟨fun hc => h3 s (by simp [hc]) s (by simp) rfl, (List.nodup_cons.mp h2).1⟩
  have hndr : (large ++ small).Nodup := by
    rw [List.nodup_append] at hnd ⊢
    obtain ⟨h1, h2, h3⟩ := hnd
    exact ⟨(List.nodup_cons.mp h1).2, (List.nodup_cons.mp h2).2, fun a ha b hb =>
      h3 a (List.mem_cons_of_mem _ ha) b (List.mem_cons_of_mem _ hb)⟩
  -- membership in the new lists
  have hmem : ∀ i, i ≠ l → (i ∈ large' ++ small' ↔ i ∈ large ++ small) := by
    intro i hi
    rcases hcase with ⟨_, rfl, rfl⟩ | ⟨_, rfl, rfl⟩ | ⟨_, rfl, rfl⟩ <;> simp [hi]
  have hget : ∀ i, i ≠ l → i ≠ s →
      ((t.set s { es0 with second := el0.first }).set l
        { el0 with threshold := x })[i]? = t[i]? := by
    intro i h1 h2
    rw [List.getElem?_set_ne (Ne.symm h1), List.getElem?_set_ne (Ne.symm h2)]
  have hllt : l < t.length := (List.getElem?_eq_some_iff.mp hl).1
  have hslt : s < t.length := (List.getElem?_eq_some_iff.mp hs).1
  have hgetl : ((t.set s { es0 with second := el0.first }).set l
        { el0 with threshold := x })[l]? =
        some { el0 with threshold := x } :=
    List.getElem?_set_self (by simpa using hllt)
  have hgets : ((t.set s { es0 with second := el0.first }).set l
        { el0 with threshold := x })[s]? =
        some { es0 with second := el0.first } := by
    rw [List.getElem?_set_ne hls, List.getElem?_set_self hslt]
  have hgetl1 : (t.set s { es0 with second := el0.first })[l]? = some el0 := by
    rw [List.getElem?_set_ne (Ne.symm hls), hl]
  refine ⟨?_, ?_, ?_, ?_, ?_, ?_⟩
  · rcases hcase with ⟨_, rfl, rfl⟩ | ⟨_, rfl, rfl⟩ | ⟨_, rfl, rfl⟩
    · simp only [List.cons_append, List.nodup_cons, List.mem_append, not_or]
      exact ⟨hlL, hndr⟩
    · rw [List.nodup_middle, List.nodup_cons]
      simp only [List.mem_append, not_or]
      exact ⟨hlL, hndr⟩
    · exact hndr
  · intro i hi
    by_cases hil : i = l
    · subst hil
      rcases hcase with ⟨hc, rfl, rfl⟩ | ⟨hc, rfl, rfl⟩ | ⟨_, rfl, rfl⟩
      · exact ⟨_, hgetl, hc, hl2⟩
      · exact absurd hi hlL.1
      · exact absurd hi hlL.1
    · have hi' : i ∈ large := by
        rcases hcase with ⟨_, rfl, rfl⟩ | ⟨_, rfl, rfl⟩ | ⟨_, rfl, rfl⟩
        · simpa [hil] using hi
        · exact hi
        · exact hi
      obtain ⟨e, he⟩ := h.isLarge i (List.mem_cons_of_mem _ hi')
      refine ⟨e, ?_, he.2⟩
      rw [hget i hil (by rintro rfl; exact hsL.1 hi')]
      exact he.1
  · intro i hi
    by_cases hil : i = l
    · subst hil
      rcases hcase with ⟨hc, rfl, rfl⟩ | ⟨hc, rfl, rfl⟩ | ⟨_, rfl, rfl⟩
      · exact absurd hi hlL.2
      · exact ⟨_, hgetl, hthr, hc, hl2⟩
      · exact absurd hi hlL.2
    · have hi' : i ∈ small := by
        rcases hcase with ⟨_, rfl, rfl⟩ | ⟨_, rfl, rfl⟩ | ⟨_, rfl, rfl⟩
        · exact hi
        · simpa [hil] using hi
        · exact hi
      obtain ⟨e, he⟩ := h.isSmall i (List.mem_cons_of_mem _ hi')
      refine ⟨e, ?_, he.2⟩
      rw [hget i hil (by rintro rfl; exact hsL.2 hi')]
      exact he.1
  · intro i e he hi
    by_cases hil : i = l
    · subst hil
      rw [hgetl] at he
      obtain rfl := Option.some.inj he
      rcases hcase with ⟨hc, rfl, rfl⟩ | ⟨hc, rfl, rfl⟩ | ⟨hc, rfl, rfl⟩
      · simp at hi
      · simp at hi
      · exact ⟨hthr, Or.inr ⟨hc, hl2⟩⟩
    · by_cases his : i = s
      · subst his
        rw [hgets] at he
        obtain rfl := Option.some.inj he
        exact ⟨hs1, Or.inl hs2⟩
      · rw [hget i hil his] at he
        refine h.rest i e he ?_
        rw [hmem i hil] at hi
        simp only [List.mem_append, not_or, List.mem_cons] at hi ⊢
        exact ⟨⟨hil, hi.1⟩, his, hi.2⟩
  · intro k
    have h1 := total_set (share (l :: large ++ s :: small) k) (share (l :: large ++ small) k)
      { es0 with second := el0.first } t 0 s es0 (by
        intro i hi e
        have : i ≠ s := by omega
        simp [share, this]) hs
    have h2 := total_set (share (l :: large ++ small) k) (share (large' ++ small') k)
      { el0 with threshold := x } (t.set s { es0 with second := el0.first })
      0 l el0 (by
        intro i hi e
        have hil : i ≠ l := by omega
        have := hmem i hil
        unfold share
        by_cases hm : i ∈ large ++ small
        · have hm' := this.mpr hm
          simp only [List.mem_append] at hm hm'
          simp [hm', hm, hil]
        · have hm' := mt this.mp hm
          simp only [List.mem_append] at hm hm'
          simp [hm', hm, hil]) hgetl1
    rw [h2, h1, h.shares k]
    have e1 : share (l :: large ++ s :: small) k (0 + s) es0 = if es0.first = k then es0.threshold else 0 := by
      simp [share]
    have e2 : share (l :: large ++ small) k (0 + s) { es0 with second := el0.first } =
        (if es0.first = k then es0.threshold else 0) + if el0.first = k then 1 - es0.threshold else 0 := by
      simp [share, Ne.symm hls, hsL.1, hsL.2]
    have e3 : share (l :: large ++ small) k (0 + l) el0 = if el0.first = k then el0.threshold else 0 := by
      simp [share]
    have e4 : share (large' ++ small') k (0 + l) { el0 with threshold := x } =
        if el0.first = k then x else 0 := by
      rcases hcase with ⟨hc, rfl, rfl⟩ | ⟨hc, rfl, rfl⟩ | ⟨hc, rfl, rfl⟩
      · simp [share]
      · simp [share]
      · simp [share, hlL.1, hlL.2, hc]
    rw [e1, e2, e3, e4]
    by_cases hk1 : es0.first = k <;> by_cases hk2 : el0.first = k <;> simp only [hk1, hk2, if_true, if_false] <;> ring
  · have h1 := total_set (excess (l :: large ++ s :: small)) (excess (l :: large ++ small))
      { es0 with second := el0.first } t 0 s es0 (by
        intro i hi e
        have : i ≠ s := by omega
        simp [excess, this]) hs
    have h2 := total_set (excess (l :: large ++ small)) (excess (large' ++ small'))
      { el0 with threshold := x } (t.set s { es0 with second := el0.first })
      0 l el0 (by
        intro i hi e
        have hil : i ≠ l := by omega
        have := hmem i hil
        unfold excess
        by_cases hm : i ∈ large ++ small
        · have hm' := this.mpr hm
          simp only [List.mem_append] at hm hm'
          simp [hm', hm, hil]
        · have hm' := mt this.mp hm
          simp only [List.mem_append] at hm hm'
          simp [hm', hm, hil]) hgetl1
    rw [h2, h1, h.balance]
    have e1 : excess (l :: large ++ s :: small) (0 + s) es0 = es0.threshold - 1 := by simp [excess]
    have e2 : excess (l :: large ++ small) (0 + s) { es0 with second := el0.first } = 0 := by
      simp [excess, Ne.symm hls, hsL.1, hsL.2]
    have e3 : excess (l :: large ++ small) (0 + l) el0 = el0.threshold - 1 := by simp [excess]
    have e4 : excess (large' ++ small') (0 + l) { el0 with threshold := x } =
        x - 1 := by
      rcases hcase with ⟨hc, rfl, rfl⟩ | ⟨hc, rfl, rfl⟩ | ⟨hc, rfl, rfl⟩
      · simp [excess]
      · simp [excess]
      · simp [excess, hlL.1, hlL.2, hc]
    rw [e1, e2, e3, e4]
    ring

theorem PInv.step {target : K → 𝕜} {bal : 𝕜} {t : List (Entry K 𝕜)} {l s : Nat} {large small : List Nat} {el es : Entry K 𝕜}
    (h : PInv target bal t (l :: large) (s :: small)) (hl : t[l]? = some el) (hs : t[s]? = some es)
    (large' small' : List Nat)
    (hcase : (1 < el.threshold - (1 - es.threshold) ∧ large' = l :: large ∧ small' = small) ∨
      (el.threshold - (1 - es.threshold) < 1 ∧ large' = large ∧ small' = l :: small) ∨
      (el.threshold - (1 - es.threshold) = 1 ∧ large' = large ∧ small' = small)) :
    PInv target bal ((t.set s { es with second := el.first }).set l
      { el with threshold := el.threshold - (1 - es.threshold) }) large' small' := by
  obtain ⟨el0, hl0, hl1, hl2⟩ := h.isLarge l (by simp)
  obtain ⟨es0, hs0, hs1, hs2, hs3⟩ := h.isSmall s (by simp)
  obtain rfl : el0 = el := by rw [hl] at hl0; exact (Option.some.inj hl0).symm
  obtain rfl : es0 = es := by rw [hs] at hs0; exact (Option.some.inj hs0).symm
  have := h.step' (x := el0.threshold - (1 - es0.threshold)) (by linarith) hl hs large' small' hcase
  simpa using this

theorem total_nonneg (F : Nat → Entry K 𝕜 → 𝕜) : ∀ (t : List (Entry K 𝕜)) (j : Nat),
    (∀ i e, t[i]? = some e → 0 ≤ F (j + i) e) → 0 ≤ total F j t ∧ (∀ i e, t[i]? = some e → F (j + i) e ≤ total F j t)
  | [], _, _ => ⟨le_refl _, by simp⟩
  | e :: t, j, h => by
    have h0 := h 0 e (by simp)
    simp only [Nat.add_zero] at h0
    obtain ⟨h1, h2⟩ := total_nonneg F t (j + 1) fun i e' he => by
      have := h (i + 1) e' (by simpa using he)
      rw [show j + 1 + i = j + (i + 1) by omega]
      exact this
    refine ⟨by simp only [total]; linarith, ?_⟩
    intro i e' he
    cases i with
    | zero =>
      simp at he
      subst he
      simp only [total, Nat.add_zero]
      linarith
    | succ i =>
      have := h2 i e' (by simpa using he)
      rw [show j + 1 + i = j + (i + 1) by omega] at this
      simp only [total]
      linarith

/-- The pairing loop settles every entry. -/
theorem pair_spec (target : K → 𝕜) (t : List (Entry K 𝕜)) (large small : List Nat) (h : PInv target 0 t large small) :
    ∃ t', pairLoop t large small = (t', [], []) ∧ PInv target 0 t' [] [] ∧ t'.length = t.length := by
  fun_induction pairLoop t large small with
  | case1 t l large s small el es hl hs t1 el' t2 hc ih =>
    obtain ⟨t', h1, h2, h3⟩ := ih (h.step hs hl _ _ (Or.inl ⟨hc, rfl, rfl⟩))
    exact ⟨t', h1, h2, by simpa [t2, t1] using h3⟩
  | case2 t l large s small el es hl hs t1 el' t2 hc hc' ih =>
    obtain ⟨t', h1, h2, h3⟩ := ih (h.step hs hl _ _ (Or.inr (Or.inl ⟨hc', rfl, rfl⟩)))
    exact ⟨t', h1, h2, by simpa [t2, t1] using h3⟩
  | case3 t l large s small el es hl hs t1 el' t2 hc hc' ih =>
    obtain ⟨t', h1, h2, h3⟩ := ih (h.step hs hl _ _
      (Or.inr (Or.inr ⟨le_antisymm (not_lt.mp hc) (not_lt.mp hc'), rfl, rfl⟩)))
    exact ⟨t', h1, h2, by simpa [t2, t1] using h3⟩
  | case4 t l large s small hno =>
    obtain ⟨el, hl, _⟩ := h.isLarge l (by simp)
    obtain ⟨es, hs, _⟩ := h.isSmall s (by simp)
    exact absurd hs (hno el es hl)
  | case5 t large small hno =>
    have hb := h.balance
    cases large with
    | nil =>
      cases small with
      | nil => exact ⟨t, rfl, h, rfl⟩
      | cons s small =>
        exfalso
        obtain ⟨e, he, h0, h1, _⟩ := h.isSmall s (by simp)
        have := (total_nonneg (fun i e => - excess ([] ++ s :: small) i e) t 0 (by
          intro i e he
          simp only [excess, Nat.zero_add]
          split
          · rename_i hm
            obtain ⟨e', he', _, h1', _⟩ := h.isSmall i hm
            rw [he] at he'
            obtain rfl := Option.some.inj he'
            linarith
          · simp)).2 s e he
        have hneg : ∀ (t : List (Entry K 𝕜)) (j : Nat), total (fun i e => - excess ([] ++ s :: small) i e) j t =
            - total (excess ([] ++ s :: small)) j t := by
          intro t
          induction t with
          | nil => intro j; simp [total]
          | cons e t ih => intro j; simp only [total, ih]; ring
        rw [hneg, hb] at this
        simp [excess] at this
        linarith
    | cons l large =>
      cases small with
      | nil =>
        exfalso
        obtain ⟨e, he, h1, _⟩ := h.isLarge l (by simp)
        have := (total_nonneg (excess (l :: large ++ [])) t 0 (by
          intro i e he
          simp only [excess, Nat.zero_add]
          split
          · rename_i hm
            obtain ⟨e', he', h1', _⟩ := h.isLarge i (by simpa using hm)
            rw [he] at he'
            obtain rfl := Option.some.inj he'
            linarith
          · simp)).2 l e he
        rw [hb] at this
        simp [excess] at this
        linarith
      | cons s small => exact absurd rfl (hno l large s small rfl)

theorem classify_large : ∀ (t : List (Entry K 𝕜)) (i : Nat) (L S : List Nat) (j : Nat),
    j ∈ (classify i t L S).1 ↔ j ∈ L ∨ (i ≤ j ∧ ∃ e, t[j - i]? = some e ∧ 1 < e.threshold)
  | [], i, L, S, j => by simp [classify]
  | e :: t, i, L, S, j => by
    have hsplit : (i ≤ j ∧ ∃ e', (e :: t)[j - i]? = some e' ∧ 1 < e'.threshold) ↔
        (j = i ∧ 1 < e.threshold) ∨ (i + 1 ≤ j ∧ ∃ e', t[j - (i + 1)]? = some e' ∧ 1 < e'.threshold) := by
      rcases Nat.lt_trichotomy j i with h | h | h
      · constructor
        · rintro ⟨h1, _⟩; omega
        · rintro (⟨h1, _⟩ | ⟨h1, _⟩) <;> omega
      · subst h
        simp
      · rw [show j - i = (j - (i + 1)) + 1 by omega, List.getElem?_cons_succ]
        constructor
        · rintro ⟨_, h2⟩; exact Or.inr ⟨h, h2⟩
        · rintro (⟨h1, _⟩ | ⟨_, h2⟩)
          · omega
          · exact ⟨by omega, h2⟩
    rw [hsplit]
    unfold classify
    split
    · rename_i h
      rw [classify_large]
      simp only [List.mem_cons]
      constructor
      · rintro ((h1 | h1) | h1)
        · exact Or.inr (Or.inl ⟨h1, h⟩)
        · exact Or.inl h1
        · exact Or.inr (Or.inr h1)
      · rintro (h1 | ⟨h1, _⟩ | h1)
        · exact Or.inl (Or.inr h1)
        · exact Or.inl (Or.inl h1)
        · exact Or.inr h1
    · rename_i h
      split <;>
      · rw [classify_large]
        constructor
        · rintro (h1 | h1)
          · exact Or.inl h1
          · exact Or.inr (Or.inr h1)
        · rintro (h1 | ⟨_, h1⟩ | h1)
          · exact Or.inl h1
          · exact absurd h1 h
          · exact Or.inr h1

theorem classify_small : ∀ (t : List (Entry K 𝕜)) (i : Nat) (L S : List Nat) (j : Nat),
    j ∈ (classify i t L S).2 ↔ j ∈ S ∨ (i ≤ j ∧ ∃ e, t[j - i]? = some e ∧ e.threshold < 1)
  | [], i, L, S, j => by simp [classify]
  | e :: t, i, L, S, j => by
    have hsplit : (i ≤ j ∧ ∃ e', (e :: t)[j - i]? = some e' ∧ e'.threshold < 1) ↔
        (j = i ∧ e.threshold < 1) ∨ (i + 1 ≤ j ∧ ∃ e', t[j - (i + 1)]? = some e' ∧ e'.threshold < 1) := by
      rcases Nat.lt_trichotomy j i with h | h | h
      · constructor
        · rintro ⟨h1, _⟩; omega
        · rintro (⟨h1, _⟩ | ⟨h1, _⟩) <;> omega
      · subst h
        simp
      · rw [show j - i = (j - (i + 1)) + 1 by omega, List.getElem?_cons_succ]
        constructor
        · rintro ⟨_, h2⟩; exact Or.inr ⟨h, h2⟩
        · rintro (⟨h1, _⟩ | ⟨_, h2⟩)
          · omega
          · exact ⟨by omega, h2⟩
    rw [hsplit]
    unfold classify
    split
    · rename_i h
      rw [classify_small]
      constructor
      · rintro (h1 | h1)
        · exact Or.inl h1
        · exact Or.inr (Or.inr h1)
      · rintro (h1 | ⟨_, h1⟩ | h1)
        · exact Or.inl h1
        · exact absurd h1 (not_lt.mpr h.le)
        · exact Or.inr h1
    · split
      · rename_i h
        rw [classify_small]
        simp only [List.mem_cons]
        constructor
        · rintro ((h1 | h1) | h1)
          · exact Or.inr (Or.inl ⟨h1, h⟩)
          · exact Or.inl h1
          · exact Or.inr (Or.inr h1)
        · rintro (h1 | ⟨h1, _⟩ | h1)
          · exact Or.inl (Or.inr h1)
          · exact Or.inl (Or.inl h1)
          · exact Or.inr h1
      · rename_i h
        rw [classify_small]
        constructor
        · rintro (h1 | h1)
          · exact Or.inl h1
          · exact Or.inr (Or.inr h1)
        · rintro (h1 | ⟨_, h1⟩ | h1)
          · exact Or.inl h1
          · exact absurd h1 h
          · exact Or.inr h1

theorem classify_nodup : ∀ (t : List (Entry K 𝕜)) (i : Nat) (L S : List Nat), (L ++ S).Nodup →
    (∀ j ∈ L ++ S, j < i) → ((classify i t L S).1 ++ (classify i t L S).2).Nodup
  | [], i, L, S, h, _ => h
  | e :: t, i, L, S, h, hi => by
    have hni : i ∉ L ++ S := fun hc => absurd (hi i hc) (by omega)
    have hi' : ∀ j ∈ L ++ S, j < i + 1 := fun j hj => Nat.lt_succ_of_lt (hi j hj)
    unfold classify
    split
    · refine classify_nodup t (i + 1) (i :: L) S (by
        rw [List.cons_append, List.nodup_cons]; exact ⟨hni, h⟩) ?_
      intro j hj
      rcases List.mem_cons.mp hj with rfl | hj
      · omega
      · exact hi' j hj
    · split
      · refine classify_nodup t (i + 1) L (i :: S) (by
          rw [List.nodup_middle, List.nodup_cons]; exact ⟨hni, h⟩) ?_
        intro j hj
        simp only [List.mem_append, List.mem_cons] at hj hi'
        rcases hj with hj | rfl | hj
        · exact hi' j (Or.inl hj)
        · omega
        · exact hi' j (Or.inr hj)
      · exact classify_nodup t (i + 1) L S h hi'

/-- A table that represents `target`: what the settled table looks like. -/
def Settled (target : K → 𝕜) (t : List (Entry K 𝕜)) : Prop :=
  (∀ e ∈ t, 0 ≤ e.threshold ∧ (e.threshold < 1 ∨ (e.threshold = 1 ∧ e.second = e.first))) ∧
  ∀ k, total (share [] k) 0 t = target k

/-- Weight of the first keys only. -/
def firsts (k : K) (_ : Nat) (e : Entry K 𝕜) : 𝕜 := if e.first = k then e.threshold else 0

/-- The invariant holds before the pairing loop. -/
theorem classify_inv (t : List (Entry K 𝕜)) (hfresh : ∀ e ∈ t, e.second = e.first ∧ 0 ≤ e.threshold) :
    PInv (fun k => total (firsts k) 0 t) (total (fun _ e => e.threshold - 1) 0 t) t (classify 0 t [] []).1 (classify 0 t [] []).2 := by
  have hL := classify_large t 0 [] []
  have hS := classify_small t 0 [] []
  have hN := classify_nodup t 0 [] [] (by simp) (by simp)
  generalize hc : classify 0 t [] [] = ls at hL hS hN ⊢
  obtain ⟨L, S⟩ := ls
  simp only [List.not_mem_nil, false_or, Nat.zero_le, true_and, Nat.sub_zero] at hL hS hN ⊢
  have hone : ∀ (i : Nat) (e : Entry K 𝕜), t[i]? = some e → i ∉ L ++ S → e.threshold = 1 := by
    intro i e he hn
    simp only [List.mem_append, not_or, hL, hS] at hn
    refine le_antisymm (not_lt.mp fun h => hn.1 ⟨e, he, h⟩) (not_lt.mp fun h => hn.2 ⟨e, he, h⟩)
  refine ⟨hN, ?_, ?_, ?_, ?_, ?_⟩
  · intro i hi
    obtain ⟨e, he, h1⟩ := (hL i).mp hi
    exact ⟨e, he, h1, (hfresh e (List.mem_of_getElem? he)).1⟩
  · intro i hi
    obtain ⟨e, he, h1⟩ := (hS i).mp hi
    exact ⟨e, he, (hfresh e (List.mem_of_getElem? he)).2, h1, (hfresh e (List.mem_of_getElem? he)).1⟩
  · intro i e he hn
    exact ⟨(hfresh e (List.mem_of_getElem? he)).2, Or.inr ⟨hone i e he hn, (hfresh e (List.mem_of_getElem? he)).1⟩⟩
  · intro k
    refine total_congr _ _ _ _ fun i e he => ?_
    unfold share firsts
    simp only [Nat.zero_add]
    by_cases hn : i ∈ L ++ S
    · simp only [hn, if_true, add_zero]
    · rw [if_neg hn, hone i e he hn]
      simp
  · refine total_congr _ _ _ _ fun i e he => ?_
    unfold excess
    simp only [Nat.zero_add]
    split
    · rfl
    · rename_i hn
      rw [hone i e he hn]
      simp

theorem settle_spec (t : List (Entry K 𝕜)) (hfresh : ∀ e ∈ t, e.second = e.first ∧ 0 ≤ e.threshold)
    (hbal : total (fun _ e => e.threshold - 1) 0 t = 0) :
    Settled (fun k => total (firsts k) 0 t) (settle t) ∧ (settle t).length = t.length := by
  have hinv := classify_inv t hfresh
  rw [hbal] at hinv
  unfold settle
  simp only
  obtain ⟨t', h1, h2, h3⟩ := pair_spec _ t _ _ hinv
  rw [h1]
  simp only [setOnes, List.foldl_nil]
  refine ⟨⟨fun e he => ?_, h2.shares⟩, h3⟩
  obtain ⟨i, hi⟩ := List.getElem?_of_mem he
  exact h2.rest i e hi (by simp)

/-- Setting the threshold of an entry that is not settled to one. -/
theorem PInv.ones {target : K → 𝕜} {bal : 𝕜} {t : List (Entry K 𝕜)} {L S L' S' : List Nat} {i : Nat} {e : Entry K 𝕜} (h : PInv target bal t L S) (hi : i ∈ L ++ S)
    (he : t[i]? = some e) (he2 : e.second = e.first) (hni : i ∉ L' ++ S') (hnd : (L' ++ S').Nodup) (hL : ∀ j, j ≠ i → (j ∈ L' ↔ j ∈ L)) (hS : ∀ j, j ≠ i → (j ∈ S' ↔ j ∈ S)) :
    PInv (fun k => target k + if e.first = k then 1 - e.threshold else 0) (bal - (e.threshold - 1)) (t.set i { e with threshold := 1 }) L' S' := by
  have hlt : i < t.length := (List.getElem?_eq_some_iff.mp he).1
  have hget : ∀ j, j ≠ i → (t.set i { e with threshold := 1 })[j]? = t[j]? := fun j hj => List.getElem?_set_ne (Ne.symm hj)
  have hgeti : (t.set i { e with threshold := 1 })[i]? = some { e with threshold := 1 } := List.getElem?_set_self hlt
  simp only [List.mem_append, not_or] at hni
  have hmem : ∀ j, j ≠ i → (j ∈ L' ++ S' ↔ j ∈ L ++ S) := fun j hj => by simp only [List.mem_append, hL j hj, hS j hj]
  refine ⟨hnd, ?_, ?_, ?_, ?_, ?_⟩
  · intro j hj
    have hji : j ≠ i := by rintro rfl; exact hni.1 hj
    rw [hget j hji]
    exact h.isLarge j ((hL j hji).1 hj)
  · intro j hj
    have hji : j ≠ i := by rintro rfl; exact hni.2 hj
    rw [hget j hji]
    exact h.isSmall j ((hS j hji).1 hj)
  · intro j e' he' hj
    by_cases hji : j = i
    · subst hji
      rw [hgeti] at he'
      obtain rfl := Option.some.inj he'
      exact ⟨zero_le_one, Or.inr ⟨rfl, he2⟩⟩
    · rw [hget j hji] at he'
      exact h.rest j e' he' (by rwa [hmem j hji] at hj)
  · intro k
    have h1 := total_set (share (L ++ S) k) (share (L' ++ S') k) { e with threshold := (1 : 𝕜) } t 0 i e (by
      intro j hj e'
      have hji : j ≠ i := by omega
      have := hmem j hji
      unfold share
      by_cases hm : j ∈ L ++ S
      · rw [if_pos hm, if_pos (this.2 hm)]
      · rw [if_neg hm, if_neg (mt this.1 hm)]) he
    rw [h1, h.shares k]
    have e1 : share (L ++ S) k (0 + i) e = if e.first = k then e.threshold else 0 := by
      unfold share
      rw [Nat.zero_add, if_pos hi, add_zero]
    have e2 : share (L' ++ S') k (0 + i) { e with threshold := (1 : 𝕜) } = if e.first = k then 1 else 0 := by
      unfold share
      rw [Nat.zero_add, if_neg (show i ∉ L' ++ S' by simpa using hni)]
      simp
    rw [e1, e2]
    by_cases hk : e.first = k <;> simp only [hk, if_true, if_false] <;> ring
  · have h1 := total_set (excess (L ++ S)) (excess (L' ++ S')) { e with threshold := (1 : 𝕜) } t 0 i e (by
      intro j hj e'
      have hji : j ≠ i := by omega
      have := hmem j hji
      unfold excess
      by_cases hm : j ∈ L ++ S
      · rw [if_pos hm, if_pos (this.2 hm)]
      · rw [if_neg hm, if_neg (mt this.1 hm)]) he
    rw [h1, h.balance]
    have e1 : excess (L ++ S) (0 + i) e = e.threshold - 1 := by
      unfold excess
      rw [Nat.zero_add, if_pos hi]
    have e2 : excess (L' ++ S') (0 + i) { e with threshold := (1 : 𝕜) } = 0 := by
      unfold excess
      rw [Nat.zero_add, if_neg (by simpa using hni)]
    rw [e1, e2]
    ring

theorem total_append (F : Nat → Entry K 𝕜 → 𝕜) : ∀ (t t' : List (Entry K 𝕜)) (j : Nat),
    total F j (t ++ t') = total F j t + total F (j + t.length) t'
  | [], t', j => by simp [total]
  | e :: t, t', j => by
    simp only [List.cons_append, total, total_append F t t' (j + 1), List.length_cons]
    rw [show j + 1 + t.length = j + (t.length + 1) by omega]
    ring

theorem fresh_firsts (k : K) (c : 𝕜) : ∀ (d : List (K × 𝕜)) (j : Nat),
    total (firsts k) j (d.map fun p => ⟨p.2 * c, p.1, p.1⟩) = weightOf d k * c
  | [], j => by simp [total, weightOf]
  | p :: d, j => by
    have ih := fresh_firsts k c d (j + 1)
    simp only [List.map_cons, total, ih, firsts, weightOf]
    by_cases h : p.1 = k
    · simp [h]; ring
    · simp [h]

theorem fresh_balance (c : 𝕜) : ∀ (d : List (K × 𝕜)) (j : Nat),
    total (fun _ e => e.threshold - 1) j (d.map fun p => (⟨p.2 * c, p.1, p.1⟩ : Entry K 𝕜)) = mass d * c - d.length
  | [], j => by simp [total]
  | p :: d, j => by
    have ih := fresh_balance c d (j + 1)
    simp only [List.map_cons, total, ih, mass_cons, List.length_cons, Nat.cast_add, Nat.cast_one]
    ring

theorem freshEntries_eq (d : List (K × 𝕜)) :
    freshEntries d = d.map fun p => ⟨p.2 * ((d.length : 𝕜) / mass d), p.1, p.1⟩ := by
  unfold freshEntries
  rw [sumWeights_eq]
  simp only [mul_div_assoc]

/-- A settled fresh table represents the distribution. -/
theorem construct_spec (d : List (K × 𝕜)) (hw : ∀ p ∈ d, 0 ≤ p.2) (hpos : 0 < mass d) :
    Settled (fun k => weightOf d k * ((d.length : 𝕜) / mass d)) (construct d) ∧ (construct d).length = d.length := by
  have hc : 0 ≤ (d.length : 𝕜) / mass d := div_nonneg (Nat.cast_nonneg _) hpos.le
  have h := settle_spec (freshEntries d) (by
    rw [freshEntries_eq]
    intro e he
    obtain ⟨p, hp, rfl⟩ := List.mem_map.mp he
    exact ⟨rfl, mul_nonneg (hw p hp) hc⟩) (by
    rw [freshEntries_eq, fresh_balance, mul_div_assoc', mul_comm, mul_div_assoc, div_self hpos.ne']
    ring)
  have h2 : (fun k => total (firsts k) 0 (freshEntries d)) = fun k => weightOf d k * ((d.length : 𝕜) / mass d) := by
    funext k
    rw [freshEntries_eq, fresh_firsts]
  rw [h2] at h
  refine ⟨h.1, ?_⟩
  have := h.2
  rwa [freshEntries, List.length_map] at this

/-! ### probabilities of a settled table -/

theorem pick_prob (e : Entry K ℝ) (k : K) (h0 : 0 ≤ e.threshold)
    (h : e.threshold < 1 ∨ (e.threshold = 1 ∧ e.second = e.first)) :
    prob (fun u => some (e.pick u)) (· = some k) = share [] k 0 e := by
  unfold share
  simp only [List.not_mem_nil, if_false]
  have hone : prob (fun _ : ℝ => some k) (· = some k) = 1 := by
    rw [prob_interval (a := 0) (b := 1) (le_refl _) (le_refl _) zero_le_one (fun u h1 h2 => by simp [h1, h2])]
    simp
  rcases h with h | ⟨h, h'⟩
  · by_cases h1 : e.first = k
    · by_cases h2 : e.second = k
      · have : (fun u => some (e.pick u)) = fun _ => some k := by
          funext u; unfold Entry.pick; split <;> simp [h1, h2]
        rw [this, hone]
        simp [h1, h2]
      · rw [prob_interval (a := 0) (b := e.threshold) (le_refl _) h.le h0]
        · simp [h1, h2]
        · intro u hu hu1
          unfold Entry.pick
          by_cases h3 : u < e.threshold
          · simp [h, h3, h1, hu]
          · simp [h3, h2]
    · by_cases h2 : e.second = k
      · rw [prob_interval (a := e.threshold) (b := 1) h0 (le_refl _) h.le]
        · simp [h1, h2]
        · intro u hu hu1
          unfold Entry.pick
          by_cases h3 : u < e.threshold
          · simp [h, h3, h1]
          · simp [h3, h2, hu1, not_lt.mp h3]
      · rw [prob_interval (a := 0) (b := 0) (le_refl _) zero_le_one (le_refl _)]
        · simp [h1, h2]
        · intro u hu hu1
          unfold Entry.pick
          constructor
          · split <;> simp [h1, h2]
          · rintro ⟨h3, h4⟩; linarith
  · have hp : (fun u => some (e.pick u)) = fun _ => some e.first := by
      funext u; unfold Entry.pick; simp [h, h']
    rw [hp]
    by_cases h1 : e.first = k
    · rw [h1, hone]; simp [h, h', h1]
    · rw [prob_interval (a := 0) (b := 0) (le_refl _) zero_le_one (le_refl _)]
      · simp [h1, h']
      · intro u hu hu1
        simp [h1]

end Verif.Alias
