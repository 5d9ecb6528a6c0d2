import Verif.Proofs.FpRandom
import Mathlib.Data.Nat.Count
import Mathlib.Order.Interval.Finset.Nat

/-! # Evenly spread draws (C98) -/

namespace Verif.Fp

theorem countP_range (n a b : Nat) (hab : a ≤ b) (hb : b ≤ n) : (List.range n).countP (fun i => decide (a ≤ i ∧ i < b)) = b - a := by
  induction n generalizing a b with
  | zero => simp; omega
  | succ n ih =>
    rw [List.range_succ, List.countP_append]
    rcases Nat.lt_or_ge n b with h | h
    · obtain rfl : b = n + 1 := by omega
      rcases Nat.lt_or_ge n a with h2 | h2
      · obtain rfl : a = n + 1 := by omega
        have e : (List.range n).countP (fun i => decide (n + 1 ≤ i ∧ i < n + 1)) = 0 := by
          rw [List.countP_eq_zero]
          intro i _
          simp only [decide_eq_true_eq]
          omega
        rw [e]
        simp
      · have e : (List.range n).countP (fun i => decide (a ≤ i ∧ i < n + 1)) = n - a := by
          rw [← ih a n h2 (le_refl _)]
          refine List.countP_congr fun i hi => ?_
          have := List.mem_range.1 hi
          simp only [decide_eq_true_eq]
          omega
        rw [e]
        simp [h2]
        omega
    · rw [ih a b hab h]
      have : ¬ (a ≤ n ∧ n < b) := by omega
      simp [this]

/-- The multiples of `2^-b` are evenly spread. -/
theorem grid_even {b : Nat} (hb : b ≤ 53) : EvenDraws (grid b) (1 / 2 ^ b) where
  ne := by
    intro h
    have := congrArg List.length h
    simp [grid] at this
  range := by
    intro u hu
    obtain ⟨i, hi, rfl⟩ := List.mem_map.1 hu
    have hi := List.mem_range.1 hi
    refine ⟨?_, by positivity, ?_⟩
    · have := fl_exact (m := (i : ℤ)) (e := -(b : ℤ)) (by
        rw [abs_of_nonneg (by positivity)]
        have : i ≤ 2 ^ 53 := le_trans hi.le (Nat.pow_le_pow_right (by norm_num) hb)
        exact_mod_cast this) (by omega)
      rw [zpow_neg, zpow_natCast, ← div_eq_mul_inv] at this
      rw [Int.cast_natCast] at this
      exact this
    · rw [div_lt_one (by positivity)]
      exact_mod_cast hi
  even := by
    classical
    intro x y hx hxy hy
    set n := 2 ^ b with hn
    have hn0 : (0 : ℚ) < 2 ^ b := by positivity
    have hcount : (grid b).countP (fun u => @decide (x ≤ u ∧ u < y) (Classical.propDecidable _)) = ⌈y * 2 ^ b⌉₊ - ⌈x * 2 ^ b⌉₊ := by
      unfold grid
      rw [List.countP_map, ← countP_range (2 ^ b) ⌈x * 2 ^ b⌉₊ ⌈y * 2 ^ b⌉₊ (Nat.ceil_mono (mul_le_mul_of_nonneg_right hxy hn0.le))
        (by rw [Nat.ceil_le]; push_cast; nlinarith)]
      refine List.countP_congr fun i _ => ?_
      simp only [Function.comp_apply, decide_eq_true_eq]
      rw [le_div_iff₀ hn0, div_lt_iff₀ hn0, Nat.ceil_le, Nat.lt_ceil]
    unfold share
    have hlen : (grid b).length = 2 ^ b := by simp [grid]
    rw [hcount, hlen]
    have hc : ⌈x * 2 ^ b⌉₊ ≤ ⌈y * 2 ^ b⌉₊ := Nat.ceil_mono (mul_le_mul_of_nonneg_right hxy hn0.le)
    have h1 := Nat.le_ceil (x * 2 ^ b)
    have h2 := Nat.ceil_lt_add_one (mul_nonneg hx hn0.le)
    have h3 := Nat.le_ceil (y * 2 ^ b)
    have h4 := Nat.ceil_lt_add_one (mul_nonneg (le_trans hx hxy) hn0.le)
    generalize ⌈x * 2 ^ b⌉₊ = i at *
    generalize ⌈y * 2 ^ b⌉₊ = j at *
    rw [Nat.cast_sub hc]
    have h1' := (Rat.cast_le (K := ℝ)).2 h1
    have h2' := (Rat.cast_lt (K := ℝ)).2 h2
    have h3' := (Rat.cast_le (K := ℝ)).2 h3
    have h4' := (Rat.cast_lt (K := ℝ)).2 h4
    push_cast at h1' h2' h3' h4' ⊢
    have hp : (0 : ℝ) < 2 ^ b := by positivity
    rw [show ((j : ℝ) - i) / 2 ^ b - (y - x) = ((j - y * 2 ^ b) - (i - x * 2 ^ b)) / 2 ^ b by field_simp; ring, abs_div, abs_of_pos hp]
    refine div_le_div_of_nonneg_right ?_ hp.le
    rw [abs_le]
    constructor <;> linarith

end Verif.Fp
