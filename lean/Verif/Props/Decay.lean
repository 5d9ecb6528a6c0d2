import Verif.Model.Decay
import Mathlib.Order.Filter.AtTopBot.Archimedean
import Mathlib.Tactic.Positivity
import Mathlib.Tactic.NormNum
import Mathlib.Tactic.Linarith

/-! # Properties of the temperature decay: C35 -/

namespace Verif.Decay

open Filter

/-- The documented requirements on a decay function (include/algorithms/common/decaying_temp.h:9-12), with positivity and
monotonicity added. -/
structure ValidDecay (f : ℝ → ℝ) : Prop where
  zero : f 0 = 1
  pos : ∀ x, 0 ≤ x → 0 < f x
  anti : ∀ x y, 0 ≤ x → x ≤ y → f y ≤ f x
  lim : Tendsto f atTop (nhds 0)

/-- C35, inverse square root. -/
theorem c35_inv_sqrt : ValidDecay invSqrt := by
  refine ⟨by simp [invSqrt], ?_, ?_, ?_⟩
  · intro x hx
    unfold invSqrt
    positivity
  · intro x y hx hy
    unfold invSqrt
    exact one_div_le_one_div_of_le (Real.sqrt_pos.2 (by linarith)) (Real.sqrt_le_sqrt (by linarith))
  · unfold invSqrt
    simp only [one_div]
    exact tendsto_inv_atTop_zero.comp (Real.tendsto_sqrt_atTop.comp (tendsto_atTop_add_const_left _ _ tendsto_id))

theorem log_ge_one {x : ℝ} (hx : 0 ≤ x) : 1 ≤ Real.log (Real.exp 1 + x) := by
  rw [Real.le_log_iff_exp_le (by positivity)]
  linarith

/-- C35, inverse logarithm. -/
theorem c35_inv_log : ValidDecay invLog := by
  refine ⟨by simp [invLog], ?_, ?_, ?_⟩
  · intro x hx
    unfold invLog
    have := log_ge_one hx
    positivity
  · intro x y hx hy
    unfold invLog
    have h1 := log_ge_one hx
    exact one_div_le_one_div_of_le (by linarith) (Real.log_le_log (by positivity) (by linarith))
  · unfold invLog
    simp only [one_div]
    exact tendsto_inv_atTop_zero.comp (Real.tendsto_log_atTop.comp (tendsto_atTop_add_const_left _ _ tendsto_id))

/-- C35, sigmoid. -/
theorem c35_sigmoid : ValidDecay sigmoid := by
  refine ⟨?_, ?_, ?_, ?_⟩
  · unfold sigmoid
    rw [zero_sub]
    exact div_self (by positivity)
  · intro x _
    unfold sigmoid
    positivity
  · intro x y _ hy
    unfold sigmoid
    have : Real.exp (x - 5) ≤ Real.exp (y - 5) := Real.exp_le_exp.2 (by linarith)
    exact div_le_div_of_nonneg_left (by positivity) (by positivity) (by linarith)
  · unfold sigmoid
    have h1 : Tendsto (fun m : ℝ => 1 + Real.exp (m - 5)) atTop atTop :=
      tendsto_atTop_add_const_left _ _ (Real.tendsto_exp_atTop.comp (tendsto_atTop_add_const_right _ (-5) tendsto_id))
    exact Tendsto.div_atTop (tendsto_const_nhds) h1

variable {f : ℝ → ℝ} {init min scale : ℝ}

/-- C35.  The decayed temperature is never below the configured minimum, so it is positive if the minimum is. -/
theorem c35_at_least_min (f : ℝ → ℝ) (init min scale : ℝ) (n : Nat) : min ≤ decayedTemp f init min n scale := by
  simp only [decayedTemp]
  split <;> linarith

/-- C35.  The decayed temperature is at most the larger of the initial and the minimum temperature; at a node without visits
it is exactly that. -/
theorem c35_at_most_init (hf : ValidDecay f) (hi : 0 ≤ init) (hs : 0 ≤ scale) (n : Nat) :
    decayedTemp f init min n scale ≤ max init min ∧ decayedTemp f init min 0 scale = max init min := by
  have h1 : f (scale * n) ≤ 1 := hf.zero ▸ hf.anti 0 _ le_rfl (by positivity)
  constructor
  · simp only [decayedTemp]
    split
    · exact le_max_right _ _
    · exact le_trans (by nlinarith) (le_max_left _ _)
  · simp only [decayedTemp, Nat.cast_zero, mul_zero, hf.zero, mul_one]
    split
    · exact (max_eq_right (by linarith)).symm
    · exact (max_eq_left (by linarith)).symm

/-- C35.  The decayed temperature never increases with the number of visits. -/
theorem c35_antitone (hf : ValidDecay f) (hi : 0 ≤ init) (hs : 0 ≤ scale) {n k : Nat} (h : n ≤ k) :
    decayedTemp f init min k scale ≤ decayedTemp f init min n scale := by
  have h1 : f (scale * k) ≤ f (scale * n) :=
    hf.anti _ _ (by positivity) (mul_le_mul_of_nonneg_left (by exact_mod_cast h) hs)
  have h2 : init * f (scale * k) ≤ init * f (scale * n) := mul_le_mul_of_nonneg_left h1 hi
  simp only [decayedTemp]
  split <;> split <;> linarith

/-- C35.  With a positive scale the temperature tends to the configured minimum (if that is not negative), and with a positive
minimum it equals the minimum from some number of visits on. -/
theorem c35_limit (hf : ValidDecay f) (hm : 0 ≤ min) (hs : 0 < scale) :
    Tendsto (fun n : Nat => decayedTemp f init min n scale) atTop (nhds min) ∧
    (0 < min → ∀ᶠ n : Nat in atTop, decayedTemp f init min n scale = min) := by
  have h0 : Tendsto (fun n : Nat => init * f (scale * n)) atTop (nhds 0) := by
    have h1 : Tendsto (fun n : Nat => scale * (n : ℝ)) atTop atTop :=
      Tendsto.const_mul_atTop hs tendsto_natCast_atTop_atTop
    simpa using (hf.lim.comp h1).const_mul init
  constructor
  · have h2 : (fun n : Nat => decayedTemp f init min n scale) = fun n : Nat => max (init * f (scale * n)) min := by
      funext n
      simp only [decayedTemp]
      split
      · exact (max_eq_right (by linarith)).symm
      · exact (max_eq_left (by linarith)).symm
    rw [h2]
    have := h0.max (tendsto_const_nhds (x := min))
    rwa [max_eq_right hm] at this
  · intro hpos
    filter_upwards [h0.eventually (gt_mem_nhds hpos)] with n hn
    simp [decayedTemp, hn]

/-- The default settings of DENTS: initial temperature 1, minimum 1e-6, scale 1. -/
example : decayedTemp invSqrt 1 (1 / 10 ^ 6) 3 1 = 1 / 2 := by
  have : √(1 + 3 : ℝ) = 2 := by rw [show (1 + 3 : ℝ) = 2 ^ 2 by norm_num]; exact Real.sqrt_sq (by norm_num)
  simp only [decayedTemp, invSqrt, Nat.cast_ofNat, one_mul, this]
  norm_num

end Verif.Decay
