import Verif.Spec.RandManager
import Verif.Proofs.Fp
import Verif.Proofs.Sampling
import Mathlib.Data.Nat.Count
import Mathlib.Data.Int.CardIntervalMod
import Mathlib.Data.Fintype.BigOperators
import Mathlib.Algebra.Order.BigOperators.Ring.Finset
import Mathlib.Tactic.NormNum
import Mathlib.Tactic.Linarith
import Mathlib.Tactic.Positivity
import Mathlib.Tactic.FieldSimp
import Mathlib.Tactic.Ring
import Mathlib.Tactic.ByContra
import Mathlib.Tactic.Set
import Mathlib.Algebra.Order.Floor.Semiring

/-! # The words behind random integers and reals -/

set_option linter.constructorNameAsVariable false

namespace Verif.Rand

open Verif.Fp

/-! ## A real is its second word -/

theorem fl_word {w : Nat} (hw : w ≤ 2 ^ 32) (e : ℤ) (he : -1074 ≤ e) : fl ((w : ℚ) * 2 ^ e) = (w : ℚ) * 2 ^ e := by
  have h : |(w : ℤ)| ≤ 2 ^ 53 := by
    rw [abs_of_nonneg (by positivity)]
    have : (w : ℤ) ≤ 2 ^ 32 := by exact_mod_cast hw
    linarith [show (2 : ℤ) ^ 32 ≤ 2 ^ 53 by norm_num]
  exact_mod_cast fl_exact (m := (w : ℤ)) (e := e) h he

theorem canonical_bounds {w0 w1 : Nat} (h0 : w0 < 2 ^ 32) (h1 : w1 < 2 ^ 32) :
    (w1 : ℚ) / 2 ^ 32 ≤ canonical w0 w1 ∧ canonical w0 w1 ≤ (w1 + 1) / 2 ^ 32 ∧ canonical w0 w1 < 1 := by
  have e1 : fmul w1 (2 ^ 32) = (w1 : ℚ) * 2 ^ 32 := by
    have := fl_word (w := w1) (by omega) 32 (by norm_num)
    unfold fmul
    exact_mod_cast this
  have c0 : (w0 : ℚ) ≤ 2 ^ 32 := by exact_mod_cast h0.le
  have b1 : (w1 : ℚ) * 2 ^ 32 ≤ fadd w0 ((w1 : ℚ) * 2 ^ 32) := by
    have h2 : fl ((w1 : ℚ) * 2 ^ 32) = (w1 : ℚ) * 2 ^ 32 := by exact_mod_cast fl_word (w := w1) (by omega) 32 (by norm_num)
    unfold fadd
    calc (w1 : ℚ) * 2 ^ 32 = fl ((w1 : ℚ) * 2 ^ 32) := h2.symm
      _ ≤ _ := fl_mono (by linarith [show (0 : ℚ) ≤ w0 by positivity])
  have b2 : fadd w0 ((w1 : ℚ) * 2 ^ 32) ≤ ((w1 : ℚ) + 1) * 2 ^ 32 := by
    have h2 : fl (((w1 + 1 : Nat) : ℚ) * 2 ^ 32) = ((w1 + 1 : Nat) : ℚ) * 2 ^ 32 := by exact_mod_cast fl_word (w := w1 + 1) (by omega) 32 (by norm_num)
    push_cast at h2
    unfold fadd
    calc _ ≤ fl (((w1 : ℚ) + 1) * 2 ^ 32) := fl_mono (by linarith)
      _ = _ := h2
  have b3 : (w1 : ℚ) / 2 ^ 32 ≤ fdiv (fadd w0 ((w1 : ℚ) * 2 ^ 32)) (2 ^ 64) := by
    have h2 := fl_word (w := w1) (by omega) (-32) (by norm_num)
    unfold fdiv
    calc (w1 : ℚ) / 2 ^ 32 = (w1 : ℚ) * 2 ^ (-32 : ℤ) := by norm_num [div_eq_mul_inv]
      _ = fl ((w1 : ℚ) * 2 ^ (-32 : ℤ)) := h2.symm
      _ ≤ _ := fl_mono (by
          rw [le_div_iff₀ (by norm_num)]
          calc (w1 : ℚ) * 2 ^ (-32 : ℤ) * 2 ^ 64 = (w1 : ℚ) * 2 ^ 32 := by rw [mul_assoc]; norm_num
            _ ≤ _ := b1)
  have b4 : fdiv (fadd w0 ((w1 : ℚ) * 2 ^ 32)) (2 ^ 64) ≤ ((w1 : ℚ) + 1) / 2 ^ 32 := by
    have h2 := fl_word (w := w1 + 1) (by omega) (-32) (by norm_num)
    push_cast at h2
    unfold fdiv
    calc _ ≤ fl (((w1 : ℚ) + 1) * 2 ^ (-32 : ℤ)) := fl_mono (by
          rw [div_le_iff₀ (by norm_num)]
          calc _ ≤ ((w1 : ℚ) + 1) * 2 ^ 32 := b2
            _ = ((w1 : ℚ) + 1) * 2 ^ (-32 : ℤ) * 2 ^ 64 := by rw [mul_assoc]; norm_num)
      _ = ((w1 : ℚ) + 1) * 2 ^ (-32 : ℤ) := h2
      _ = _ := by norm_num [div_eq_mul_inv]
  have c1 : (w1 : ℚ) + 1 ≤ 2 ^ 32 := by exact_mod_cast h1
  unfold canonical
  simp only [e1]
  split
  · next h =>
    refine ⟨?_, le_trans (sub_le_self _ (by positivity)) (h.trans b4), by norm_num⟩
    calc (w1 : ℚ) / 2 ^ 32 ≤ (2 ^ 32 - 1) / 2 ^ 32 := by gcongr; linarith
      _ ≤ _ := by norm_num
  · next h => exact ⟨b3, b4, not_le.1 h⟩

/-! ## Residues are evenly spread -/

theorem count_half (n a : Nat) : ∀ x, Nat.count (fun w => w / 2 % n = a) (2 * x) = 2 * Nat.count (fun v => v % n = a) x
  | 0 => by simp
  | x + 1 => by
    rw [show 2 * (x + 1) = 2 * x + 1 + 1 by ring, Nat.count_succ, Nat.count_succ, Nat.count_succ, count_half n a x, show (2 * x + 1) / 2 = x by omega,
      show 2 * x / 2 = x by omega]
    split <;> ring

theorem count_mod {n a : Nat} (ha : a < n) (x : Nat) : |(Nat.count (fun v => v % n = a) x : ℚ) - x / n| ≤ 1 := by
  have h : Nat.count (fun v => v % n = a) x = Nat.count (· ≡ a [MOD n]) x := by
    congr 1
    funext v
    rw [Nat.ModEq, Nat.mod_eq_of_lt ha]
  rw [h, Nat.count_modEq_card x (by omega) a]
  have hn : (0 : ℚ) < n := by exact_mod_cast (by omega : 0 < n)
  have e : (x : ℚ) / n = (x / n : Nat) + (x % n : Nat) / (n : ℚ) := by
    rw [eq_comm, ← sub_eq_zero]
    have h3 : (x : ℚ) = (n : ℚ) * (x / n : Nat) + (x % n : Nat) := by exact_mod_cast (Nat.div_add_mod x n).symm
    field_simp
    rw [h3]
    ring
  have h1 : (0 : ℚ) ≤ (x % n : Nat) / (n : ℚ) := by positivity
  have h2 : ((x % n : Nat) : ℚ) / (n : ℚ) ≤ 1 := by
    rw [div_le_one hn]
    exact_mod_cast (Nat.mod_lt x (by omega)).le
  rw [e, abs_le]
  push_cast
  split <;> constructor <;> push_cast <;> linarith

theorem count_words {n a : Nat} (ha : a < n) (x : Nat) : |(Nat.count (fun w => w / 2 % n = a) x : ℚ) - x / n| ≤ 3 := by
  have hn : (1 : ℚ) ≤ n := by exact_mod_cast (by omega : 1 ≤ n)
  obtain ⟨y, hy⟩ : ∃ y, x = 2 * y ∨ x = 2 * y + 1 := ⟨x / 2, by omega⟩
  have h := abs_le.1 (count_mod ha y)
  have h1 : (0 : ℚ) ≤ 1 / n := by positivity
  have h2 : (1 : ℚ) / n ≤ 1 := by rw [div_le_one (by linarith)]; exact hn
  rcases hy with rfl | rfl
  · rw [count_half, abs_le]
    push_cast
    rw [mul_div_assoc]
    constructor <;> linarith [h.1, h.2]
  · rw [Nat.count_succ, count_half, abs_le]
    push_cast
    rw [add_div, mul_div_assoc]
    split <;> constructor <;> push_cast <;> linarith [h.1, h.2]

/-- The number of words in `[A, B)` that give the residue `a`. -/
def wordsIn (n a A B : Nat) : Finset Nat := (Finset.Ico A B).filter fun w => w / 2 % n = a

theorem card_wordsIn {n a : Nat} (ha : a < n) {A B : Nat} (hAB : A ≤ B) : |((wordsIn n a A B).card : ℚ) - ((B : ℚ) - A) / n| ≤ 6 := by
  have h : (wordsIn n a A B).card + Nat.count (fun w => w / 2 % n = a) A = Nat.count (fun w => w / 2 % n = a) B := by
    rw [Nat.count_eq_card_filter_range, Nat.count_eq_card_filter_range, wordsIn, ← Finset.card_union_of_disjoint]
    · congr 1
      ext w
      simp only [Finset.mem_union, Finset.mem_filter, Finset.mem_Ico, Finset.mem_range]
      constructor
      · rintro (⟨h1, h2⟩ | ⟨h1, h2⟩)
        · exact ⟨h1.2, h2⟩
        · exact ⟨by omega, h2⟩
      · rintro ⟨h1, h2⟩
        by_cases h3 : w < A
        · exact .inr ⟨h3, h2⟩
        · exact .inl ⟨⟨by omega, h1⟩, h2⟩
    · rw [Finset.disjoint_left]
      simp only [Finset.mem_filter, Finset.mem_Ico, Finset.mem_range]
      rintro w ⟨h1, _⟩ ⟨h2, _⟩
      omega
  have h' : ((wordsIn n a A B).card : ℚ) = Nat.count (fun w => w / 2 % n = a) B - Nat.count (fun w => w / 2 % n = a) A := by
    rw [← h]; push_cast; ring
  have h1 := abs_le.1 (count_words ha A)
  have h2 := abs_le.1 (count_words ha B)
  rw [h', abs_le, sub_div]
  constructor <;> linarith [h1.1, h1.2, h2.1, h2.2]

theorem card_wordsIn_ge {n a : Nat} (ha : a < n) (A B : Nat) : ((B : ℚ) - A) / n - 6 ≤ (wordsIn n a A B).card := by
  by_cases h : A ≤ B
  · linarith [(abs_le.1 (card_wordsIn ha h)).1]
  · have h1 : (B : ℚ) ≤ A := by exact_mod_cast (not_le.1 h).le
    have h2 : ((B : ℚ) - A) / n ≤ 0 := div_nonpos_of_nonpos_of_nonneg (by linarith) (by positivity)
    linarith [show (0 : ℚ) ≤ (wordsIn n a A B).card by positivity]

/-! ## Two words -/

/-- The pairs of words for which two integers and a real are the ones of interest. -/
def pairs (n0 a0 n1 a1 : Nat) (l r : ℚ) : Finset (Nat × Nat) :=
  (Finset.range (2 ^ 32) ×ˢ Finset.range (2 ^ 32)).filter fun p => p.1 / 2 % n0 = a0 ∧ p.2 / 2 % n1 = a1 ∧ l ≤ canonical p.1 p.2 ∧ canonical p.1 p.2 < r

theorem pairs_sup (n0 a0 n1 a1 : Nat) {l r : ℚ} (hr : r ≤ 1) :
    pairs n0 a0 n1 a1 l r ⊆ wordsIn n0 a0 0 (2 ^ 32) ×ˢ wordsIn n1 a1 (⌈l * 2 ^ 32⌉₊ - 1) ⌈r * 2 ^ 32⌉₊ := by
  rintro ⟨w0, w1⟩ h
  simp only [pairs, wordsIn, Finset.mem_filter, Finset.mem_product, Finset.mem_range, Finset.mem_Ico] at h ⊢
  obtain ⟨⟨h0, h1⟩, e0, e1, h2, h3⟩ := h
  obtain ⟨c1, c2, c3⟩ := canonical_bounds h0 h1
  refine ⟨⟨⟨by omega, h0⟩, e0⟩, ⟨?_, ?_⟩, e1⟩
  · have : ⌈l * 2 ^ 32⌉₊ ≤ w1 + 1 := by
      rw [Nat.ceil_le]
      have h4 := h2.trans c2
      rw [le_div_iff₀ (by norm_num)] at h4
      push_cast
      exact h4
    omega
  · rw [Nat.lt_ceil]
    have h4 := c1.trans_lt h3
    rwa [div_lt_iff₀ (by norm_num)] at h4

theorem pairs_sub (n0 a0 n1 a1 : Nat) {l r : ℚ} (hr : r ≤ 1) :
    wordsIn n0 a0 0 (2 ^ 32) ×ˢ wordsIn n1 a1 ⌈l * 2 ^ 32⌉₊ (⌈r * 2 ^ 32⌉₊ - 1) ⊆ pairs n0 a0 n1 a1 l r := by
  rintro ⟨w0, w1⟩ h
  simp only [pairs, wordsIn, Finset.mem_filter, Finset.mem_product, Finset.mem_range, Finset.mem_Ico] at h ⊢
  obtain ⟨⟨⟨-, h0⟩, e0⟩, ⟨h2, h3⟩, e1⟩ := h
  have h4 : w1 + 1 < ⌈r * 2 ^ 32⌉₊ := by omega
  rw [Nat.lt_ceil] at h4
  push_cast at h4
  have h1 : w1 < 2 ^ 32 := by
    have : (w1 : ℚ) < 2 ^ 32 := by linarith
    exact_mod_cast this
  obtain ⟨c1, c2, c3⟩ := canonical_bounds h0 h1
  rw [Nat.ceil_le] at h2
  refine ⟨⟨h0, h1⟩, e0, e1, ?_, ?_⟩
  · refine le_trans ?_ c1
    rwa [le_div_iff₀ (by norm_num)]
  · refine c2.trans_lt ?_
    rwa [div_lt_iff₀ (by norm_num)]

section
variable {n0 a0 n1 a1 N : Nat} {l r β : ℚ}

theorem pairs_share (h0 : a0 < n0) (h1 : a1 < n1) (g0 : n0 ≤ N) (g1 : n1 ≤ N) (hl : 0 ≤ l) (hr : r ≤ 1) (hβ : 0 < β) (hb : β ≤ r - l) :
    (err N β ≤ 1 → (1 - err N β) ^ 2 * (1 / n0 * (1 / n1) * (r - l)) ≤ (pairs n0 a0 n1 a1 l r).card / 2 ^ 64) ∧
      (pairs n0 a0 n1 a1 l r).card / 2 ^ 64 ≤ (1 + err N β) ^ 2 * (1 / n0 * (1 / n1) * (r - l)) := by
  have hlr : l ≤ r := by linarith
  have p0 : (0 : ℚ) < n0 := by exact_mod_cast (by omega : 0 < n0)
  have p1 : (1 : ℚ) ≤ n1 := by exact_mod_cast (by omega : 1 ≤ n1)
  have q0 : (n0 : ℚ) ≤ N := by exact_mod_cast g0
  have q1 : (n1 : ℚ) ≤ N := by exact_mod_cast g1
  have hN : (0 : ℚ) < N := lt_of_lt_of_le p0 q0
  have hA1 : l * 2 ^ 32 ≤ ⌈l * 2 ^ 32⌉₊ := Nat.le_ceil _
  have hA2 : (⌈l * 2 ^ 32⌉₊ : ℚ) < l * 2 ^ 32 + 1 := Nat.ceil_lt_add_one (by positivity)
  have hB1 : r * 2 ^ 32 ≤ ⌈r * 2 ^ 32⌉₊ := Nat.le_ceil _
  have hB2 : (⌈r * 2 ^ 32⌉₊ : ℚ) < r * 2 ^ 32 + 1 := Nat.ceil_lt_add_one (by nlinarith)
  have hAB : ⌈l * 2 ^ 32⌉₊ ≤ ⌈r * 2 ^ 32⌉₊ := Nat.ceil_le_ceil (by nlinarith)
  set A := ⌈l * 2 ^ 32⌉₊
  set B := ⌈r * 2 ^ 32⌉₊
  set δ := err N β with hδ
  have hd : 8 * (N : ℚ) = δ * (β * 2 ^ 32) := by
    rw [hδ, err]; field_simp; norm_num
  have hδ0 : 0 < δ := by rw [hδ, err]; positivity
  have hβ1 : β ≤ 1 := by linarith
  -- the first word
  have x0 : 6 ≤ δ * (2 ^ 32 / n0) := by
    rw [← mul_div_assoc, le_div_iff₀ p0]
    have : δ * (β * 2 ^ 32) ≤ δ * 2 ^ 32 := mul_le_mul_of_nonneg_left (by linarith) hδ0.le
    linarith
  have c0 := abs_le.1 (card_wordsIn h0 (A := 0) (B := 2 ^ 32) (by omega))
  push_cast at c0
  rw [sub_zero] at c0
  -- the second word
  have x1 : 8 ≤ δ * ((r - l) * 2 ^ 32 / n1) := by
    rw [← mul_div_assoc, le_div_iff₀ (by linarith)]
    have : δ * (β * 2 ^ 32) ≤ δ * ((r - l) * 2 ^ 32) := mul_le_mul_of_nonneg_left (by linarith) hδ0.le
    linarith
  have two : (2 : ℚ) / n1 ≤ 2 := by
    rw [div_le_iff₀ (by linarith)]; linarith
  have eq : (1 : ℚ) / n0 * (1 / n1) * (r - l) = (2 ^ 32 / n0) * ((r - l) * 2 ^ 32 / n1) / 2 ^ 64 := by
    field_simp
  have z0 : (0 : ℚ) ≤ 2 ^ 32 / n0 := by positivity
  have z1 : (0 : ℚ) ≤ (r - l) * 2 ^ 32 / n1 := div_nonneg (by nlinarith) (by linarith)
  constructor
  · intro h
    have s1 := Finset.card_le_card (pairs_sub n0 a0 n1 a1 (l := l) hr)
    rw [Finset.card_product] at s1
    have s2 : ((wordsIn n0 a0 0 (2 ^ 32)).card : ℚ) * (wordsIn n1 a1 A (B - 1)).card ≤ (pairs n0 a0 n1 a1 l r).card := by exact_mod_cast s1
    have c1 := card_wordsIn_ge h1 A (B - 1)
    have c2 : (r - l) * 2 ^ 32 / n1 - 8 ≤ (wordsIn n1 a1 A (B - 1)).card := by
      have : (B : ℚ) - 1 ≤ ((B - 1 : Nat) : ℚ) := by
        have : B ≤ B - 1 + 1 := by omega
        have : (B : ℚ) ≤ ((B - 1 : Nat) : ℚ) + 1 := by exact_mod_cast this
        linarith
      have h3 : ((r - l) * 2 ^ 32 - 2) / n1 ≤ (((B - 1 : Nat) : ℚ) - A) / n1 := by
        apply div_le_div_of_nonneg_right _ (by linarith)
        linarith
      rw [sub_div] at h3
      linarith
    rw [eq, ← mul_div_assoc]
    apply div_le_div_of_nonneg_right _ (by norm_num)
    refine le_trans ?_ s2
    have m0 : (1 - δ) * (2 ^ 32 / n0) ≤ (wordsIn n0 a0 0 (2 ^ 32)).card := by linarith [c0.1]
    have m1 : (1 - δ) * ((r - l) * 2 ^ 32 / n1) ≤ (wordsIn n1 a1 A (B - 1)).card := by linarith
    calc (1 - δ) ^ 2 * (2 ^ 32 / n0 * ((r - l) * 2 ^ 32 / n1)) = ((1 - δ) * (2 ^ 32 / n0)) * ((1 - δ) * ((r - l) * 2 ^ 32 / n1)) := by ring
      _ ≤ _ := mul_le_mul m0 m1 (mul_nonneg (by linarith) z1) (Nat.cast_nonneg _)
  · have s1 := Finset.card_le_card (pairs_sup n0 a0 n1 a1 (l := l) hr)
    rw [Finset.card_product] at s1
    have s2 : ((pairs n0 a0 n1 a1 l r).card : ℚ) ≤ ((wordsIn n0 a0 0 (2 ^ 32)).card : ℚ) * (wordsIn n1 a1 (A - 1) B).card := by exact_mod_cast s1
    have c1 := abs_le.1 (card_wordsIn h1 (A := A - 1) (B := B) (by omega))
    have c2 : ((wordsIn n1 a1 (A - 1) B).card : ℚ) ≤ (r - l) * 2 ^ 32 / n1 + 8 := by
      have : (A : ℚ) - 1 ≤ ((A - 1 : Nat) : ℚ) := by
        have : A ≤ A - 1 + 1 := by omega
        have : (A : ℚ) ≤ ((A - 1 : Nat) : ℚ) + 1 := by exact_mod_cast this
        linarith
      have h3 : ((B : ℚ) - ((A - 1 : Nat) : ℚ)) / n1 ≤ ((r - l) * 2 ^ 32 + 2) / n1 := by
        apply div_le_div_of_nonneg_right _ (by linarith)
        linarith
      rw [add_div] at h3
      linarith [c1.2]
    rw [eq, ← mul_div_assoc]
    apply div_le_div_of_nonneg_right _ (by norm_num)
    refine s2.trans ?_
    have m0 : ((wordsIn n0 a0 0 (2 ^ 32)).card : ℚ) ≤ (1 + δ) * (2 ^ 32 / n0) := by linarith [c0.2]
    have m1 : ((wordsIn n1 a1 (A - 1) B).card : ℚ) ≤ (1 + δ) * ((r - l) * 2 ^ 32 / n1) := by linarith
    calc _ ≤ ((1 + δ) * (2 ^ 32 / n0)) * ((1 + δ) * ((r - l) * 2 ^ 32 / n1)) := mul_le_mul m0 m1 (Nat.cast_nonneg _) (by positivity)
      _ = _ := by ring

end

end Verif.Rand
