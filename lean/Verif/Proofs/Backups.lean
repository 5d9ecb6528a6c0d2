import Verif.Spec.Backups
import Mathlib.Tactic.Ring
import Mathlib.Tactic.FieldSimp
import Mathlib.Tactic.Linarith
import Mathlib.Algebra.Order.Field.Basic
import Mathlib.Algebra.BigOperators.Group.List.Basic
import Mathlib.Algebra.Order.BigOperators.Group.List

/-! # The backup loops -/

namespace Verif.Backups

set_option linter.unusedSectionVars false

variable {𝕜 : Type} [Field 𝕜] [LinearOrder 𝕜]

theorem meanLoop_spec [CharZero 𝕜] (l : List (Nat × 𝕜)) : ∀ (val : 𝕜) (s : Nat),
    ((s + (l.map Prod.fst).sum : Nat) : 𝕜) * meanLoop l val s = s * val + (l.map fun p => (p.1 : 𝕜) * p.2).sum := by
  induction l with
  | nil => intro val s; simp [meanLoop]
  | cons p l ih =>
    obtain ⟨n, x⟩ := p
    intro val s
    by_cases hn : n = 0
    · subst hn
      simpa [meanLoop] using ih val s
    · have := ih (val * (((s + n : Nat) : 𝕜) - n) / ((s + n : Nat) : 𝕜) + n * x / ((s + n : Nat) : 𝕜)) (s + n)
      have hz : ((s : 𝕜) + n) ≠ 0 := by
        have : (((s + n : Nat)) : 𝕜) ≠ 0 := by exact_mod_cast (by omega)
        simpa using this
      simp only [meanLoop, hn, if_false, List.map_cons, List.sum_cons]
      have e : val * ((s + n - n) / (s + n)) + n * x / (s + n) =
          val * (((s + n : Nat) : 𝕜) - n) / ((s + n : Nat) : 𝕜) + n * x / ((s + n : Nat) : 𝕜) := by
        push_cast; ring
      rw [e, show (s : 𝕜) + n = ((s + n : Nat) : 𝕜) by push_cast; rfl, ← Nat.add_assoc, this]
      push_cast
      field_simp
      ring

theorem sum_cast (l : List (Nat × 𝕜)) : (l.map fun p => (p.1 : 𝕜)).sum = ((l.map Prod.fst).sum : Nat) := by
  induction l with
  | nil => simp
  | cons p l ih => simp [ih]

theorem meanLoop_val [CharZero 𝕜] (l : List (Nat × 𝕜)) : ∀ (val s : 𝕜), (l.map Prod.fst).sum = 0 → meanLoop l val s = val := by
  induction l with
  | nil => intro val s _; rfl
  | cons p l ih =>
    obtain ⟨n, x⟩ := p
    intro val s h
    simp only [List.map_cons, List.sum_cons] at h
    have hn : n = 0 := by omega
    simp only [meanLoop, hn, if_true]
    exact ih val s (by omega)

theorem meanLoop_eq [CharZero 𝕜] (l : List (Nat × 𝕜)) : meanLoop l 0 0 = wmean l := by
  unfold wmean
  rw [sum_cast]
  by_cases h : (l.map Prod.fst).sum = 0
  · rw [meanLoop_val l 0 0 h, h]; simp
  · have := meanLoop_spec l 0 0
    simp only [Nat.cast_zero, mul_zero, zero_add] at this
    rw [eq_div_iff (by exact_mod_cast h), mul_comm]
    exact this

theorem wmean_perm (l l' : List (Nat × 𝕜)) (h : l.Perm l') : wmean l = wmean l' := by
  unfold wmean
  rw [(h.map _).sum_eq, (h.map _).sum_eq]

theorem wmean_zero (l : List (Nat × 𝕜)) (h : ∀ p ∈ l, p.1 = 0) : wmean l = 0 := by
  unfold wmean
  have : (l.map fun p => (p.1 : 𝕜) * p.2).sum = 0 := by
    refine List.sum_eq_zero ?_
    intro x hx
    obtain ⟨p, hp, rfl⟩ := List.mem_map.1 hx
    simp [h p hp]
  rw [this, zero_div]

/-- A mean lies between the bounds of the values that count. -/
theorem wmean_bounds [IsStrictOrderedRing 𝕜] (l : List (Nat × 𝕜)) (lo hi : 𝕜) (hl : ∀ p ∈ l, p.1 ≠ 0 → lo ≤ p.2 ∧ p.2 ≤ hi)
    (hp : ∃ p ∈ l, p.1 ≠ 0) : lo ≤ wmean l ∧ wmean l ≤ hi := by
  have hpos : 0 < (l.map fun p => (p.1 : 𝕜)).sum := by
    rw [sum_cast]
    have : 0 < (l.map Prod.fst).sum := by
      obtain ⟨p, h1, h2⟩ := hp
      exact Nat.lt_of_lt_of_le (Nat.pos_of_ne_zero h2) (List.le_sum_of_mem (List.mem_map_of_mem h1))
    exact_mod_cast this
  have hlo : ∀ l : List (Nat × 𝕜), (∀ p ∈ l, p.1 ≠ 0 → lo ≤ p.2 ∧ p.2 ≤ hi) →
      lo * (l.map fun p => (p.1 : 𝕜)).sum ≤ (l.map fun p => (p.1 : 𝕜) * p.2).sum ∧
      (l.map fun p => (p.1 : 𝕜) * p.2).sum ≤ hi * (l.map fun p => (p.1 : 𝕜)).sum := by
    intro l
    induction l with
    | nil => intro _; simp
    | cons p l ih =>
      intro h
      obtain ⟨i1, i2⟩ := ih (fun q hq => h q (by simp [hq]))
      simp only [List.map_cons, List.sum_cons]
      have hn : (0 : 𝕜) ≤ p.1 := Nat.cast_nonneg _
      by_cases h0 : p.1 = 0
      · simp only [h0, Nat.cast_zero, zero_mul, zero_add]; exact ⟨i1, i2⟩
      · obtain ⟨b1, b2⟩ := h p (by simp) h0
        constructor
        · have := mul_le_mul_of_nonneg_left b1 hn
          rw [mul_add]; linarith [mul_comm lo (p.1 : 𝕜)]
        · have := mul_le_mul_of_nonneg_left b2 hn
          rw [mul_add]; linarith [mul_comm hi (p.1 : 𝕜)]
  obtain ⟨h1, h2⟩ := hlo l hl
  unfold wmean
  exact ⟨(le_div_iff₀ hpos).2 h1, (div_le_iff₀ hpos).2 h2⟩

theorem maxLoop_some [IsStrictOrderedRing 𝕜] (opp : Bool) (l : List (Nat × 𝕜)) : ∀ (b : 𝕜), ∃ v, maxLoop opp l (some b) = some v ∧
    (v = b ∨ ∃ p ∈ l, p.1 ≠ 0 ∧ p.2 = v) ∧ oppCoeff opp * b ≤ oppCoeff opp * v ∧
    ∀ p ∈ l, p.1 ≠ 0 → oppCoeff opp * p.2 ≤ oppCoeff opp * v := by
  induction l with
  | nil => intro b; exact ⟨b, rfl, .inl rfl, le_refl _, by simp⟩
  | cons p l ih =>
    obtain ⟨n, x⟩ := p
    intro b
    by_cases hn : n = 0
    · obtain ⟨v, h1, h2, h3, h4⟩ := ih b
      refine ⟨v, by simp [maxLoop, hn, h1], ?_, h3, ?_⟩
      · rcases h2 with h2 | ⟨p, h2, h5⟩
        · exact .inl h2
        · exact .inr ⟨p, by simp [h2], h5⟩
      · intro p hp hp0
        rcases List.mem_cons.1 hp with rfl | hp
        · exact absurd hn hp0
        · exact h4 p hp hp0
    · by_cases hc : oppCoeff opp * x > oppCoeff opp * b
      · obtain ⟨v, h1, h2, h3, h4⟩ := ih x
        refine ⟨v, by simp [maxLoop, hn, hc, h1], ?_, le_trans hc.le h3, ?_⟩
        · rcases h2 with rfl | ⟨p, h2, h5⟩
          · exact .inr ⟨(n, v), by simp, hn, rfl⟩
          · exact .inr ⟨p, by simp [h2], h5⟩
        · intro p hp hp0
          rcases List.mem_cons.1 hp with rfl | hp
          · exact h3
          · exact h4 p hp hp0
      · obtain ⟨v, h1, h2, h3, h4⟩ := ih b
        refine ⟨v, by simp [maxLoop, hn, hc, h1], ?_, h3, ?_⟩
        · rcases h2 with h2 | ⟨p, h2, h5⟩
          · exact .inl h2
          · exact .inr ⟨p, by simp [h2], h5⟩
        · intro p hp hp0
          rcases List.mem_cons.1 hp with rfl | hp
          · exact le_trans (not_lt.1 hc) h3
          · exact h4 p hp hp0

theorem maxLoop_none [IsStrictOrderedRing 𝕜] (opp : Bool) (l : List (Nat × 𝕜)) (hl : ∃ p ∈ l, p.1 ≠ 0) : ∃ v, maxLoop opp l none = some v ∧
    (∃ p ∈ l, p.1 ≠ 0 ∧ p.2 = v) ∧ ∀ p ∈ l, p.1 ≠ 0 → oppCoeff opp * p.2 ≤ oppCoeff opp * v := by
  induction l with
  | nil => simp at hl
  | cons p l ih =>
    obtain ⟨n, x⟩ := p
    by_cases hn : n = 0
    · obtain ⟨v, h1, ⟨q, g1, g2⟩, h3⟩ := ih (by
        obtain ⟨p, h1, h2⟩ := hl
        rcases List.mem_cons.1 h1 with rfl | h1
        · exact absurd hn h2
        · exact ⟨p, h1, h2⟩)
      refine ⟨v, by simp [maxLoop, hn, h1], ⟨q, by simp [g1], g2⟩, ?_⟩
      intro p hp hp0
      rcases List.mem_cons.1 hp with rfl | hp
      · exact absurd hn hp0
      · exact h3 p hp hp0
    · obtain ⟨v, h1, h2, h3, h4⟩ := maxLoop_some opp l x
      refine ⟨v, by simp [maxLoop, hn, h1], ?_, ?_⟩
      · rcases h2 with rfl | ⟨p, h2, h5⟩
        · exact ⟨(n, v), by simp, hn, rfl⟩
        · exact ⟨p, by simp [h2], h5⟩
      · intro p hp hp0
        rcases List.mem_cons.1 hp with rfl | hp
        · exact h3
        · exact h4 p hp hp0

theorem opp_le [IsStrictOrderedRing 𝕜] (opp : Bool) (a b : 𝕜) : oppCoeff opp * a ≤ oppCoeff opp * b ↔ if opp then b ≤ a else a ≤ b := by
  cases opp <;> simp [oppCoeff]

theorem best_iff [IsStrictOrderedRing 𝕜] (opp : Bool) (s : Set 𝕜) (v : 𝕜) : Best opp s v ↔ v ∈ s ∧ ∀ u ∈ s, oppCoeff opp * u ≤ oppCoeff opp * v := by
  unfold Best
  simp only [opp_le]
  cases opp <;> simp [IsGreatest, IsLeast, upperBounds, lowerBounds]

theorem best_unique (opp : Bool) (s : Set 𝕜) (v w : 𝕜) (h1 : Best opp s v) (h2 : Best opp s w) : v = w := by
  unfold Best at h1 h2
  cases opp
  · exact IsGreatest.unique (by simpa using h1) (by simpa using h2)
  · exact IsLeast.unique (by simpa using h1) (by simpa using h2)

theorem finiteKids_spec (kids : List (Dp 𝕜)) (hk : ∀ k ∈ kids, ∃ x, k.val = some x) :
    ∃ l, finiteKids kids = some l ∧ kids = l.map fun p => { n := p.1, val := some p.2 } := by
  induction kids with
  | nil => exact ⟨[], rfl, rfl⟩
  | cons k kids ih =>
    obtain ⟨x, hx⟩ := hk k (by simp)
    obtain ⟨l, h1, h2⟩ := ih (fun q hq => hk q (by simp [hq]))
    refine ⟨(k.n, x) :: l, by simp [finiteKids, hx, h1], ?_⟩
    simp only [List.map_cons, ← h2]
    cases k
    simp_all

theorem finiteKids_mk (l : List (Nat × 𝕜)) : finiteKids (l.map fun p => { n := p.1, val := some p.2 }) = some l := by
  induction l with
  | nil => rfl
  | cons p l ih => simp [finiteKids, ih]

/-- The backup of a decision node. -/
theorem dpBackupD_best [IsStrictOrderedRing 𝕜] (opp : Bool) (kids : List (Dp 𝕜)) (x : Dp 𝕜) (hk : ∀ k ∈ kids, ∃ x, k.val = some x)
    (hp : ∃ k ∈ kids, k.n ≠ 0) :
    ∃ v, (dpBackupD opp kids x).val = some v ∧ Best opp {u | ∃ k ∈ kids, k.n ≠ 0 ∧ k.val = some u} v := by
  obtain ⟨l, h1, h2⟩ := finiteKids_spec kids hk
  have hl : ∃ p ∈ l, p.1 ≠ 0 := by
    obtain ⟨k, hk, hn⟩ := hp
    rw [h2] at hk
    obtain ⟨p, hp, rfl⟩ := List.mem_map.1 hk
    exact ⟨p, hp, hn⟩
  obtain ⟨v, g1, ⟨p, g2, g3, g4⟩, g5⟩ := maxLoop_none opp l hl
  refine ⟨v, by simp [dpBackupD, h1, g1], ?_⟩
  rw [best_iff]
  refine ⟨⟨⟨p.1, some p.2⟩, by rw [h2]; exact List.mem_map.2 ⟨p, g2, rfl⟩, g3, by simp [g4]⟩, ?_⟩
  rintro u ⟨k, hk, hn, hu⟩
  rw [h2] at hk
  obtain ⟨q, hq, rfl⟩ := List.mem_map.1 hk
  simp only [Option.some.injEq] at hu
  subst hu
  exact g5 q hq hn

end Verif.Backups
