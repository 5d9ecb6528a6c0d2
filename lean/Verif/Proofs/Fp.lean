import Verif.Model.Fp
import Mathlib.Tactic.Linarith
import Mathlib.Tactic.Positivity
import Mathlib.Tactic.FieldSimp
import Mathlib.Tactic.Ring
import Mathlib.Algebra.Order.Field.Power
import Mathlib.Data.Nat.Log
import Mathlib.Algebra.Order.Round

/-! # Properties of rounding to `double` -/

namespace Verif.Fp

/-! ## Rounding to integers -/

theorem roundEven_err (y : ℚ) : |(roundEven y : ℚ) - y| ≤ 1 / 2 := by
  have h1 := Int.floor_le y
  have h2 := Int.lt_floor_add_one y
  unfold roundEven
  split
  · rw [abs_le]; constructor <;> linarith
  · split
    · push_cast; rw [abs_le]; constructor <;> linarith
    · split
      · rw [abs_le]; constructor <;> linarith
      · push_cast; rw [abs_le]; constructor <;> linarith

theorem roundEven_int (n : ℤ) : roundEven (n : ℚ) = n := by
  unfold roundEven
  simp

theorem roundEven_mono {x y : ℚ} (h : x ≤ y) : roundEven x ≤ roundEven y := by
  have hf := Int.floor_le_floor h
  have hx := Int.lt_floor_add_one x
  have hb : ∀ z : ℚ, ⌊z⌋ ≤ roundEven z ∧ roundEven z ≤ ⌊z⌋ + 1 := by
    intro z
    unfold roundEven
    split
    · omega
    · split
      · omega
      · split <;> omega
  rcases lt_or_eq_of_le hf with hlt | heq
  · have := (hb x).2; have := (hb y).1; omega
  · unfold roundEven
    rw [← heq]
    split
    · split
      · exact le_refl _
      · split
        · omega
        · split <;> omega
    · rename_i h1
      split
      · rename_i h2
        rw [if_neg (by linarith), if_pos (by linarith)]
      · split
        · split
          · exact le_refl _
          · split <;> omega
        · split
          · exfalso; linarith
          · split <;> omega

theorem roundEven_neg (y : ℚ) : roundEven (-y) = - roundEven y := by
  by_cases hi : (⌊y⌋ : ℚ) = y
  · rw [← hi]
    have : -((⌊y⌋ : ℤ) : ℚ) = ((-⌊y⌋ : ℤ) : ℚ) := by push_cast; rfl
    rw [this, roundEven_int, roundEven_int]
  · have h1 := Int.floor_le y
    have h2 := Int.lt_floor_add_one y
    have h3 : (⌊y⌋ : ℚ) < y := lt_of_le_of_ne h1 hi
    have e : ⌊-y⌋ = -⌊y⌋ - 1 := by
      rw [Int.floor_eq_iff]
      push_cast
      constructor <;> linarith
    unfold roundEven
    rw [e]
    push_cast
    by_cases ha : y - ⌊y⌋ < 1 / 2
    · rw [if_pos ha, if_neg (by linarith), if_pos (by linarith)]; ring
    · rw [if_neg ha]
      by_cases hb : 1 / 2 < y - ⌊y⌋
      · rw [if_pos hb, if_pos (by linarith)]; ring
      · rw [if_neg hb, if_neg (by linarith), if_neg (by linarith)]
        split <;> split <;> omega

/-! ## The exponent -/

theorem log2_le {n : Nat} (h : n ≠ 0) : (2 : ℚ) ^ (n.log2 : ℤ) ≤ n := by
  have := Nat.log2_self_le h
  rw [zpow_natCast]
  exact_mod_cast this

theorem lt_log2 {n : Nat} : (n : ℚ) < 2 ^ ((n.log2 : ℤ) + 1) := by
  have : n < 2 ^ (n.log2 + 1) := Nat.lt_log2_self
  have h : ((n.log2 : ℤ) + 1) = ((n.log2 + 1 : Nat) : ℤ) := by push_cast; rfl
  rw [h, zpow_natCast]
  exact_mod_cast this

theorem abs_eq_div (x : ℚ) : |x| = (x.num.natAbs : ℚ) / x.den := by
  conv_lhs => rw [← Rat.num_div_den x]
  rw [abs_div, Nat.abs_cast, Nat.cast_natAbs, Int.cast_abs]

theorem expo_spec {x : ℚ} (hx : x ≠ 0) : (2 : ℚ) ^ expo x ≤ |x| ∧ |x| < 2 ^ (expo x + 1) := by
  have hn : x.num.natAbs ≠ 0 := by simpa using hx
  have hd : x.den ≠ 0 := x.den_nz
  have hdp : (0 : ℚ) < x.den := by exact_mod_cast Nat.pos_of_ne_zero hd
  have a1 := log2_le hn
  have a2 := @lt_log2 x.num.natAbs
  have b1 := log2_le hd
  have b2 := @lt_log2 x.den
  have e := abs_eq_div x
  set a : ℤ := (x.num.natAbs.log2 : ℤ) with ha
  set b : ℤ := (x.den.log2 : ℤ) with hb
  have hi : |x| < 2 ^ (a - b + 1) := by
    rw [e, div_lt_iff₀ hdp]
    calc (x.num.natAbs : ℚ) < 2 ^ (a + 1) := a2
      _ = 2 ^ (a - b + 1) * 2 ^ b := by rw [← zpow_add₀ (by norm_num)]; congr 1; ring
      _ ≤ 2 ^ (a - b + 1) * x.den := by gcongr
  have lo : 2 ^ (a - b - 1) ≤ |x| := by
    rw [e, le_div_iff₀ hdp]
    calc (2 : ℚ) ^ (a - b - 1) * x.den ≤ 2 ^ (a - b - 1) * 2 ^ (b + 1) := by gcongr
      _ = 2 ^ a := by rw [← zpow_add₀ (by norm_num)]; congr 1; ring
      _ ≤ x.num.natAbs := a1
  unfold expo
  simp only
  rw [← ha, ← hb]
  split
  · rename_i h; exact ⟨h, hi⟩
  · rename_i h
    rw [not_le] at h
    exact ⟨lo, by rw [sub_add_cancel]; exact h⟩

theorem expo_mono {x y : ℚ} (hx : x ≠ 0) (h : |x| ≤ |y|) : expo x ≤ expo y := by
  have hy : y ≠ 0 := by
    rintro rfl
    rw [abs_zero] at h
    exact hx (abs_eq_zero.1 (le_antisymm h (abs_nonneg x)))
  have h1 := (expo_spec hx).1
  have h2 := (expo_spec hy).2
  have : (2 : ℚ) ^ expo x < 2 ^ (expo y + 1) := lt_of_le_of_lt h1 (lt_of_le_of_lt h h2)
  have := (zpow_lt_zpow_iff_right₀ (by norm_num : (1 : ℚ) < 2)).1 this
  omega

theorem expo_neg (x : ℚ) : expo (-x) = expo x := by
  unfold expo
  simp [Rat.neg_num, Rat.neg_den]

theorem expo_lt {x : ℚ} (hx : x ≠ 0) {k : ℤ} (h : |x| < 2 ^ k) : expo x < k := by
  have h1 := (expo_spec hx).1
  exact (zpow_lt_zpow_iff_right₀ (by norm_num : (1 : ℚ) < 2)).1 (lt_of_le_of_lt h1 h)

theorem le_expo {x : ℚ} (hx : x ≠ 0) {k : ℤ} (h : (2 : ℚ) ^ k ≤ |x|) : k ≤ expo x := by
  have h1 := (expo_spec hx).2
  have := (zpow_lt_zpow_iff_right₀ (by norm_num : (1 : ℚ) < 2)).1 (lt_of_le_of_lt h h1)
  omega

/-! ## Rounding -/

theorem ulp_pos (x : ℚ) : 0 < ulp x := by unfold ulp; positivity

theorem fl_zero : fl 0 = 0 := by simp [fl]

theorem fl_neg (x : ℚ) : fl (-x) = - fl x := by
  unfold fl
  by_cases h : x = 0
  · simp [h]
  · have : ulp (-x) = ulp x := by unfold ulp; rw [expo_neg]
    rw [if_neg (by simpa using h), if_neg h, this, neg_div, roundEven_neg]
    push_cast; ring

/-- Rounding moves a number by at most half the distance to its neighbours. -/
theorem fl_err_ulp (x : ℚ) : |fl x - x| ≤ ulp x / 2 := by
  unfold fl
  split
  · rename_i h; subst h; rw [sub_zero, abs_zero]; exact (half_pos (ulp_pos 0)).le
  · have h1 := roundEven_err (x / ulp x)
    have hp := ulp_pos x
    have e : ulp x * (roundEven (x / ulp x)) - x = ulp x * ((roundEven (x / ulp x)) - x / ulp x) := by field_simp
    rw [e, abs_mul, abs_of_pos hp]
    nlinarith

/-- The relative error, and the absolute error of subnormal numbers. -/
theorem fl_err (x : ℚ) : |fl x - x| ≤ 2 ^ (-53 : ℤ) * |x| + 2 ^ (-1075 : ℤ) := by
  by_cases hx : x = 0
  · subst hx; rw [fl_zero, sub_zero, abs_zero, mul_zero, zero_add]; positivity
  have h1 := fl_err_ulp x
  have h2 := (expo_spec hx).1
  have : ulp x / 2 ≤ 2 ^ (-53 : ℤ) * |x| + 2 ^ (-1075 : ℤ) := by
    unfold ulp
    rcases max_cases (expo x - 52) (-1074) with ⟨h, -⟩ | ⟨h, -⟩
    · rw [h]
      have e : (2 : ℚ) ^ (expo x - 52) / 2 = 2 ^ (-53 : ℤ) * 2 ^ expo x := by
        rw [← zpow_add₀ (by norm_num), div_eq_mul_inv, ← zpow_neg_one, ← zpow_add₀ (by norm_num)]; congr 1; ring
      rw [e]
      have : (0 : ℚ) < 2 ^ (-1075 : ℤ) := by positivity
      have : (2 : ℚ) ^ (-53 : ℤ) * 2 ^ expo x ≤ 2 ^ (-53 : ℤ) * |x| := by gcongr
      linarith
    · rw [h]
      have e : (2 : ℚ) ^ (-1074 : ℤ) / 2 = 2 ^ (-1075 : ℤ) := by
        rw [div_eq_mul_inv, ← zpow_neg_one, ← zpow_add₀ (by norm_num)]; congr 1
      rw [e]
      have : (0 : ℚ) ≤ 2 ^ (-53 : ℤ) * |x| := by positivity
      linarith
  exact le_trans h1 this

/-- Numbers with at most 53 bits are not rounded. -/
theorem fl_exact {m : ℤ} {e : ℤ} (hm : |m| ≤ 2 ^ 53) (he : -1074 ≤ e) : fl ((m : ℚ) * 2 ^ e) = (m : ℚ) * 2 ^ e := by
  have hpow : (0 : ℚ) < 2 ^ e := by positivity
  -- numbers with fewer bits
  have key : ∀ (m e : ℤ), |m| < 2 ^ 53 → -1074 ≤ e → fl ((m : ℚ) * 2 ^ e) = (m : ℚ) * 2 ^ e := by
    intro m e hm he
    have hpow : (0 : ℚ) < 2 ^ e := by positivity
    by_cases h0 : m = 0
    · subst h0; simp [fl_zero]
    set x : ℚ := (m : ℚ) * 2 ^ e with hx
    have hx0 : x ≠ 0 := by rw [hx]; exact mul_ne_zero (by exact_mod_cast h0) hpow.ne'
    have habs : |x| < 2 ^ (53 + e) := by
      rw [hx, abs_mul, abs_of_pos hpow, zpow_add₀ (by norm_num)]
      have : |(m : ℚ)| < 2 ^ (53 : ℤ) := by
        rw [show (53 : ℤ) = ((53 : Nat) : ℤ) by rfl, zpow_natCast]
        exact_mod_cast hm
      gcongr
    have hex := expo_lt hx0 habs
    have hle : max (expo x - 52) (-1074) ≤ e := by omega
    obtain ⟨j, hj⟩ : ∃ j : Nat, e = max (expo x - 52) (-1074) + j := ⟨(e - max (expo x - 52) (-1074)).toNat, by omega⟩
    have hq : x / ulp x = ((m * 2 ^ j : ℤ) : ℚ) := by
      have hp : (2 : ℚ) ^ e = 2 ^ j * ulp x := by
        unfold ulp
        rw [← zpow_natCast, ← zpow_add₀ (by norm_num), add_comm, ← hj]
      rw [div_eq_iff (ulp_pos x).ne']
      push_cast
      rw [mul_assoc, ← hp]
    unfold fl
    rw [if_neg hx0, hq, roundEven_int, ← hq]
    field_simp [(ulp_pos x).ne']
  rcases lt_or_eq_of_le hm with h | h
  · exact key m e h he
  · -- plus or minus 2^53
    have e1 : (m : ℚ) * 2 ^ e = ((m / 2 : ℤ) : ℚ) * 2 ^ (e + 1) := by
      have : m = 2 * (m / 2) := by
        rcases abs_choice m with h' | h' <;> omega
      conv_lhs => rw [this]
      rw [zpow_add₀ (by norm_num)]; push_cast; ring
    rw [e1]
    refine key _ _ ?_ (by omega)
    rcases abs_choice m with h' | h' <;> rw [abs_lt] <;> omega

theorem fl_two_zpow {k : ℤ} (hk : -1074 ≤ k) : fl (2 ^ k) = 2 ^ k := by
  have := @fl_exact 1 k (by norm_num) hk
  simpa using this

/-- Integers up to `2^53` are not rounded. -/
theorem fl_int {m : ℤ} (hm : |m| ≤ 2 ^ 53) : fl m = m := by
  have := @fl_exact m 0 hm (by omega)
  simpa using this

theorem fl_one : fl 1 = 1 := by exact_mod_cast @fl_int 1 (by norm_num)

/-- The integer multiple of the distance that a number is rounded to. -/
theorem fl_form {x : ℚ} (hx : x ≠ 0) : fl x = (roundEven (x / ulp x) : ℚ) * 2 ^ (max (expo x - 52) (-1074)) ∧ |roundEven (x / ulp x)| ≤ 2 ^ 53 := by
  refine ⟨by unfold fl; rw [if_neg hx]; unfold ulp; ring, ?_⟩
  have hb : |x / ulp x| ≤ ((2 ^ 53 : ℤ) : ℚ) := by
    rw [abs_div, abs_of_pos (ulp_pos x), div_le_iff₀ (ulp_pos x)]
    refine le_trans (expo_spec hx).2.le ?_
    unfold ulp
    rw [show (((2 ^ 53 : ℤ)) : ℚ) = 2 ^ (53 : ℤ) by norm_num, ← zpow_add₀ (by norm_num)]
    exact zpow_le_zpow_right₀ (by norm_num) (by omega)
  rw [abs_le] at hb ⊢
  constructor
  · have := roundEven_mono hb.1
    rw [show -(((2 ^ 53 : ℤ)) : ℚ) = ((-2 ^ 53 : ℤ) : ℚ) by push_cast; rfl, roundEven_int] at this
    exact this
  · have := roundEven_mono hb.2
    rw [roundEven_int] at this
    exact this

/-- A rounded number is not rounded again. -/
theorem fl_idem (x : ℚ) : fl (fl x) = fl x := by
  by_cases hx : x = 0
  · subst hx; rw [fl_zero, fl_zero]
  · obtain ⟨h1, h2⟩ := fl_form hx
    rw [h1]
    exact fl_exact h2 (by omega)

theorem fl_le_pow {x : ℚ} {k : ℤ} (hk : -1074 ≤ k) (h0 : 0 ≤ x) (h : x < 2 ^ k) : fl x ≤ 2 ^ k := by
  rcases h0.eq_or_lt with h0 | h0
  · rw [← h0, fl_zero]; positivity
  have hx : x ≠ 0 := h0.ne'
  have hu : max (expo x - 52) (-1074) ≤ k := by
    have := expo_lt hx (k := k) (by rwa [abs_of_pos h0])
    omega
  obtain ⟨j, hj⟩ : ∃ j : Nat, k = max (expo x - 52) (-1074) + j := ⟨(k - max (expo x - 52) (-1074)).toNat, by omega⟩
  have e : (2 : ℚ) ^ k = ulp x * ((2 ^ j : ℤ) : ℚ) := by
    unfold ulp
    push_cast
    rw [← zpow_natCast, ← zpow_add₀ (by norm_num), ← hj]
  unfold fl
  rw [if_neg hx, e]
  have : x / ulp x ≤ ((2 ^ j : ℤ) : ℚ) := by
    rw [div_le_iff₀ (ulp_pos x), mul_comm, ← e]; exact h.le
  have := roundEven_mono this
  rw [roundEven_int] at this
  have hp := ulp_pos x
  have : ((roundEven (x / ulp x) : ℤ) : ℚ) ≤ ((2 ^ j : ℤ) : ℚ) := by exact_mod_cast this
  gcongr

theorem pow_le_fl {x : ℚ} {k : ℤ} (hk : -1074 ≤ k) (h : (2 : ℚ) ^ k ≤ x) (hx2 : expo x = k) : 2 ^ k ≤ fl x := by
  have h0 : 0 < x := lt_of_lt_of_le (by positivity) h
  have hx : x ≠ 0 := h0.ne'
  have hu : max (expo x - 52) (-1074) ≤ k := by omega
  obtain ⟨j, hj⟩ : ∃ j : Nat, k = max (expo x - 52) (-1074) + j := ⟨(k - max (expo x - 52) (-1074)).toNat, by omega⟩
  have e : (2 : ℚ) ^ k = ulp x * ((2 ^ j : ℤ) : ℚ) := by
    unfold ulp
    push_cast
    rw [← zpow_natCast, ← zpow_add₀ (by norm_num), ← hj]
  unfold fl
  rw [if_neg hx, e]
  have : ((2 ^ j : ℤ) : ℚ) ≤ x / ulp x := by
    rw [le_div_iff₀ (ulp_pos x), mul_comm, ← e]; exact h
  have := roundEven_mono this
  rw [roundEven_int] at this
  have hp := ulp_pos x
  have : ((2 ^ j : ℤ) : ℚ) ≤ ((roundEven (x / ulp x) : ℤ) : ℚ) := by exact_mod_cast this
  gcongr

theorem fl_nonneg {x : ℚ} (h : 0 ≤ x) : 0 ≤ fl x := by
  unfold fl
  split
  · exact le_refl _
  · have : (((0 : ℤ)) : ℚ) ≤ x / ulp x := by push_cast; exact div_nonneg h (ulp_pos x).le
    have := roundEven_mono this
    rw [roundEven_int] at this
    exact mul_nonneg (ulp_pos x).le (by exact_mod_cast this)

theorem fl_mono_pos {x y : ℚ} (h0 : 0 < x) (h : x ≤ y) : fl x ≤ fl y := by
  have hx : x ≠ 0 := h0.ne'
  have hy : y ≠ 0 := (lt_of_lt_of_le h0 h).ne'
  have hxy : |x| ≤ |y| := by rw [abs_of_pos h0, abs_of_pos (lt_of_lt_of_le h0 h)]; exact h
  have hle := expo_mono hx hxy
  by_cases hu : ulp x = ulp y
  · unfold fl
    rw [if_neg hx, if_neg hy, ← hu]
    have hp := ulp_pos x
    have h1 : x / ulp x ≤ y / ulp x := by gcongr
    have h2 := roundEven_mono h1
    have : ((roundEven (x / ulp x) : ℤ) : ℚ) ≤ ((roundEven (y / ulp x) : ℤ) : ℚ) := by exact_mod_cast h2
    gcongr
  · have hlt : expo x < expo y := by
      rcases hle.lt_or_eq with h | h
      · exact h
      · exact absurd (by unfold ulp; rw [h]) hu
    have hk : -1074 ≤ expo y := by
      by_contra hc
      apply hu
      unfold ulp
      congr 1
      omega
    have h1 : x < 2 ^ expo y := by
      have := (expo_spec hx).2
      rw [abs_of_pos h0] at this
      exact lt_of_lt_of_le this (zpow_le_zpow_right₀ (by norm_num) (by omega))
    have h2 : (2 : ℚ) ^ expo y ≤ y := by
      have := (expo_spec hy).1
      rwa [abs_of_pos (lt_of_lt_of_le h0 h)] at this
    exact le_trans (fl_le_pow hk h0.le h1) (pow_le_fl hk h2 rfl)

/-- Rounding keeps the order. -/
theorem fl_mono {x y : ℚ} (h : x ≤ y) : fl x ≤ fl y := by
  rcases lt_trichotomy x 0 with hx | hx | hx
  · rcases lt_or_ge y 0 with hy | hy
    · have := @fl_mono_pos (-y) (-x) (by linarith) (by linarith)
      rw [fl_neg, fl_neg] at this
      linarith
    · have h1 := @fl_nonneg (-x) (by linarith)
      rw [fl_neg] at h1
      have h2 := fl_nonneg hy
      linarith
  · subst hx; rw [fl_zero]; exact fl_nonneg h
  · exact fl_mono_pos hx h

end Verif.Fp
