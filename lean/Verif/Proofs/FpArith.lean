import Verif.Proofs.Fp
import Verif.Model.FpCode
import Verif.Spec.Fp
import Mathlib.Tactic.Linarith
import Mathlib.Tactic.Positivity
import Mathlib.Tactic.Ring
import Mathlib.Tactic.NormNum
import Mathlib.Tactic.FieldSimp

/-!
# Errors of single operations on doubles
-/

namespace Verif.Fp

theorem unit_pos : 0 < unit := by unfold unit; positivity
theorem tiny_pos : 0 < tiny := by unfold tiny; positivity
theorem unit_eq : unit = 1 / 9007199254740992 := by unfold unit; norm_num

/-- Subnormal errors are negligible. -/
theorem tiny_le : tiny ≤ unit * unit * unit * unit := by
  unfold tiny unit
  rw [← zpow_add₀ (by norm_num), ← zpow_add₀ (by norm_num), ← zpow_add₀ (by norm_num)]
  exact zpow_le_zpow_right₀ (by norm_num) (by norm_num)

theorem fl_err' (x : ℚ) : |fl x - x| ≤ unit * |x| + tiny := fl_err x

theorem isDouble_fl (x : ℚ) : IsDouble (fl x) := fl_idem x
theorem isDouble_zero : IsDouble 0 := fl_zero
theorem isDouble_one : IsDouble 1 := fl_one
theorem IsDouble.neg {x : ℚ} (h : IsDouble x) : IsDouble (-x) := by unfold IsDouble at *; rw [fl_neg, h]

theorem isDouble_nat {n : Nat} (h : n ≤ 2 ^ 53) : IsDouble n := by
  have : |(n : ℤ)| ≤ 2 ^ 53 := by rw [abs_of_nonneg (by positivity)]; exact_mod_cast h
  have := fl_int this
  unfold IsDouble
  exact_mod_cast this

/-- Doubles are multiples of the smallest one. -/
theorem IsDouble.multiple {x : ℚ} (h : IsDouble x) : ∃ m : ℤ, x = m * 2 ^ (-1074 : ℤ) := by
  by_cases hx : x = 0
  · exact ⟨0, by simp [hx]⟩
  obtain ⟨h1, -⟩ := fl_form hx
  obtain ⟨j, hj⟩ : ∃ j : Nat, max (expo x - 52) (-1074) = (j : ℤ) + -1074 := ⟨(max (expo x - 52) (-1074) + 1074).toNat, by omega⟩
  refine ⟨roundEven (x / ulp x) * 2 ^ j, ?_⟩
  rw [show fl x = x from h, hj, zpow_add₀ (by norm_num)] at h1
  have e : ((roundEven (x / ulp x) * 2 ^ j : ℤ) : ℚ) * 2 ^ (-1074 : ℤ) = (roundEven (x / ulp x) : ℚ) * ((2 : ℚ) ^ (j : ℤ) * 2 ^ (-1074 : ℤ)) := by
    push_cast; rw [zpow_natCast]; ring
  rw [e]
  exact h1

/-- Multiples of the smallest double have only a relative error. -/
theorem fl_err_rel {x : ℚ} (h : ∃ m : ℤ, x = m * 2 ^ (-1074 : ℤ)) : |fl x - x| ≤ unit * |x| := by
  obtain ⟨m, rfl⟩ := h
  by_cases hm : |m| ≤ 2 ^ 53
  · rw [fl_exact hm (le_refl _), sub_self, abs_zero]
    exact mul_nonneg unit_pos.le (abs_nonneg _)
  · have hm' : ((2 : ℚ) ^ 53) ≤ |(m : ℚ)| := by
      rw [← Int.cast_abs]
      have : (2 ^ 53 : ℤ) ≤ |m| := le_of_lt (not_le.1 hm)
      exact_mod_cast this
    have hx : (m : ℚ) * 2 ^ (-1074 : ℤ) ≠ 0 := by
      intro h0
      rcases mul_eq_zero.1 h0 with h0 | h0
      · rw [h0, abs_zero] at hm'; norm_num at hm'
      · exact absurd h0 (by positivity)
    have hb : (2 : ℚ) ^ (-1021 : ℤ) ≤ |(m : ℚ) * 2 ^ (-1074 : ℤ)| := by
      rw [abs_mul, abs_of_pos (show (0 : ℚ) < 2 ^ (-1074 : ℤ) by positivity),
        show (-1021 : ℤ) = 53 + -1074 by norm_num, zpow_add₀ (by norm_num)]
      exact mul_le_mul_of_nonneg_right (by exact_mod_cast hm') (by positivity)
    have he := le_expo hx hb
    refine le_trans (fl_err_ulp _) ?_
    have h1 := (expo_spec hx).1
    set x := (m : ℚ) * 2 ^ (-1074 : ℤ) with hxd
    unfold ulp unit
    rw [max_eq_left (by omega)]
    calc (2 : ℚ) ^ (expo x - 52) / 2 = 2 ^ (-53 : ℤ) * 2 ^ expo x := by
          rw [← zpow_add₀ (by norm_num), div_eq_mul_inv, show ((2 : ℚ)⁻¹) = 2 ^ (-1 : ℤ) by norm_num, ← zpow_add₀ (by norm_num)]
          congr 1; ring
      _ ≤ _ := mul_le_mul_of_nonneg_left h1 (by positivity)

theorem add_multiple {x y : ℚ} (hx : IsDouble x) (hy : IsDouble y) : ∃ m : ℤ, x + y = m * 2 ^ (-1074 : ℤ) := by
  obtain ⟨a, rfl⟩ := hx.multiple
  obtain ⟨b, rfl⟩ := hy.multiple
  exact ⟨a + b, by push_cast; ring⟩

theorem fadd_err {x y : ℚ} (hx : IsDouble x) (hy : IsDouble y) : |fadd x y - (x + y)| ≤ unit * |x + y| :=
  fl_err_rel (add_multiple hx hy)

theorem fsub_err {x y : ℚ} (hx : IsDouble x) (hy : IsDouble y) : |fsub x y - (x - y)| ≤ unit * |x - y| := by
  have := fl_err_rel (add_multiple hx hy.neg)
  unfold fsub
  rwa [← sub_eq_add_neg] at this

theorem fadd_zero {x : ℚ} (hx : IsDouble x) : fadd x 0 = x := by unfold fadd; rw [add_zero]; exact hx
theorem zero_fadd {x : ℚ} (hx : IsDouble x) : fadd 0 x = x := by unfold fadd; rw [zero_add]; exact hx
theorem fdiv_one {x : ℚ} (hx : IsDouble x) : fdiv x 1 = x := by unfold fdiv; rw [div_one]; exact hx

/-- Rounding does not cross a double. -/
theorem fl_le {x b : ℚ} (hb : IsDouble b) (h : x ≤ b) : fl x ≤ b := by
  have := fl_mono h; rwa [show fl b = b from hb] at this

theorem le_fl {x b : ℚ} (hb : IsDouble b) (h : b ≤ x) : b ≤ fl x := by
  have := fl_mono h; rwa [show fl b = b from hb] at this

end Verif.Fp
