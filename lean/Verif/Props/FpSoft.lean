import Verif.Proofs.FpSoft
import Verif.Props.FpMents

/-!
# C87: MENTS values are accurate in floating point
-/

namespace Verif.Props

open Verif.Fp

variable {K : Type}

/-- C87: with an `exp` of relative error `α`, a `log` of relative error `β`, at most 1000 actions and soft values (times `opp`, which is `-1` for the opponent) divided by the
temperature between `-B` and `B`, the soft value after a backup is `opp * temp * log (sum of exp (q / temp))` in real numbers, up to
`temp * ((16 n + 29 B) 2^-53 + 4 α + 2 n β)` and half the smallest double. -/
theorem c87_value {ex lg : ℚ → ℚ} (hex : GoodExp ex) {α β : ℝ} (hacc : Accurate ex α) (hα0 : 0 ≤ α) (hα : α ≤ 1 / 100) (hlg : AccurateLog lg β) (hβ0 : 0 ≤ β) (hβ : β ≤ 1 / 100)
    {opp temp low B : ℚ} (hopp : opp = 1 ∨ opp = -1) (htd : IsDouble temp) (ht0 : 0 < temp) {qs : List (K × ℚ)} (h0 : qs ≠ [])
    (hlow : ∀ p ∈ qs, low ≤ fdiv p.2 temp) (hn : qs.length ≤ 1000) (hB : 1 ≤ B) (hB2 : B ≤ 10 ^ 6) (hq : ∀ p ∈ qs, |p.2 / temp| ≤ B) :
    |(softValue ex lg opp temp low qs : ℝ) - opp * temp * logSumExp temp qs| ≤ temp * ((16 * qs.length + 29 * B) * unit + 4 * α + 2 * qs.length * β) + tiny :=
  softValue_err hex hacc hα0 hα hlg hβ0 hβ hopp htd ht0 h0 hlow hn hB hB2 hq

/-- Non-vacuity: there is a `log` that satisfies the assumption. -/
theorem log_exists : ∃ lg, AccurateLog lg (1 / 100) := by
  have hr : ∀ x : ℚ, ∃ r : ℚ, 1 < x → Real.log x * (1 - 1 / 1000) < r ∧ (r : ℝ) < Real.log x := by
    intro x
    by_cases hx : 1 < x
    · have hp : 0 < Real.log (x : ℝ) := Real.log_pos (by exact_mod_cast hx)
      obtain ⟨r, h1, h2⟩ := exists_rat_btwn (show Real.log (x : ℝ) * (1 - 1 / 1000) < Real.log x by linarith)
      exact ⟨r, fun _ => ⟨h1, h2⟩⟩
    · exact ⟨0, fun h => absurd h hx⟩
  choose r hr using hr
  refine ⟨fun x => if 1 < x then fl (r x) else 0, fun x hx _ => ?_⟩
  beta_reduce
  split_ifs with h
  · obtain ⟨h1, h2⟩ := hr x h
    have hp : 0 < Real.log (x : ℝ) := Real.log_pos (by exact_mod_cast h)
    have e := cast_abs_le (fl_err' (r x))
    have h0 : (0 : ℝ) < r x := by linarith
    have hu : (unit : ℝ) ≤ 1 / 1000 := by
      have : unit ≤ 1 / 1000 := by rw [unit_eq]; norm_num
      have := (Rat.cast_le (K := ℝ)).2 this
      push_cast at this
      exact this
    push_cast at e
    rw [abs_of_pos h0] at e
    have h3 : (unit : ℝ) * r x ≤ 1 / 1000 * r x := mul_le_mul_of_nonneg_right hu h0.le
    have h4 := abs_le.1 e
    refine ⟨isDouble_fl _, ?_⟩
    rw [abs_le]
    constructor <;> linarith
  · have : x = 1 := le_antisymm (not_lt.1 h) hx
    subst this
    refine ⟨isDouble_zero, ?_⟩
    simp
    exact tiny_pos.le

/-- Non-vacuity of `c87_value`, for the opponent. -/
example : ∃ ex lg, |(softValue ex lg (-1) 2 (-1000) [("a", 1), ("b", 2), ("c", -3)] : ℝ) - ((-1 : ℚ) : ℝ) * ((2 : ℚ) : ℝ) * logSumExp 2 [("a", 1), ("b", 2), ("c", -3)]| ≤
    ((2 : ℚ) : ℝ) * ((16 * (3 : Nat) + 29 * ((2 : ℚ) : ℝ)) * unit + 4 * (1 / 100) + 2 * (3 : Nat) * (1 / 100)) + tiny := by
  obtain ⟨ex, h1, h2⟩ := exp_exists
  obtain ⟨lg, h3⟩ := log_exists
  exact ⟨ex, lg, c87_value h1 h2 (by norm_num) (by norm_num) h3 (by norm_num) (by norm_num) (.inr rfl) (by decide +kernel) (by norm_num) (by simp)
    (by decide +kernel) (by decide) (by norm_num) (by norm_num) (by decide +kernel)⟩

end Verif.Props
