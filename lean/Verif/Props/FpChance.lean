import Verif.Proofs.FpChance

/-!
# C86: chance node values are accurate in floating point
-/

namespace Verif.Props

open Verif.Fp

/-- C86, as far as it holds: the value of a chance node with `k` children, whose values lie between `-M` and `M`, is the local reward plus the average of the children's
values weighted by their backups, up to `(8 k + 2) 2^-53 M + 2^-53 |R|`. Missing: that it is exact with one child, and stays between the children's values. -/
theorem c86_value_partial {M R : ℚ} (hM : 1 ≤ M) (hR : IsDouble R) {children : List (Nat × ℚ)} (hk : children.length ≤ 2 ^ 30)
    (hv : ∀ p ∈ children, |p.2| ≤ M) (hb : backups children ≤ 2 ^ 50) (hb0 : 1 ≤ backups children) :
    |chanceValue R children - (R + weighted children / backups children)| ≤ (8 * children.length + 2) * (unit * M) + unit * |R| :=
  chanceValue_err hM hR hk hv hb hb0

/-- Non-vacuity, with rounding errors. -/
example : let children := [(3, fl (1 / 10)), (0, 1), (2, fl (7 / 10))]
    backups children = 5 ∧ (∀ p ∈ children, |p.2| ≤ 1) ∧ chanceValue 0 children ≠ 0 + weighted children / backups children := by decide +kernel

theorem double_mul_pow {v : ℚ} (hv : IsDouble v) (j : Nat) : IsDouble (((2 ^ j : Nat) : ℚ) * v) := by
  by_cases h0 : v = 0
  · subst h0; rw [mul_zero]; exact isDouble_zero
  obtain ⟨h1, h2⟩ := fl_form h0
  rw [show fl v = v from hv] at h1
  have e : ((2 ^ j : Nat) : ℚ) * v = (roundEven (v / ulp v) : ℚ) * 2 ^ (max (expo v - 52) (-1074) + j) := by
    rw [zpow_add₀ (by norm_num), zpow_natCast, ← mul_assoc, ← h1]
    push_cast
    ring
  rw [e]
  exact fl_exact h2 (by omega)

/-- With one child whose number of backups is a power of two the value is exact up to the addition of the reward. -/
theorem c86_one_child_partial {v R : ℚ} (hv : IsDouble v) {j : Nat} (hj : j ≤ 53) : chanceValue R [(2 ^ j, v)] = fl (v + R) := by
  have hc : fl ((2 ^ j : Nat) : ℚ) = ((2 ^ j : Nat) : ℚ) := isDouble_nat (Nat.pow_le_pow_right (by norm_num) hj)
  have hp : (0 : ℚ) < ((2 ^ j : Nat) : ℚ) := by positivity
  have hm : fmul ((2 ^ j : Nat) : ℚ) v = ((2 ^ j : Nat) : ℚ) * v := double_mul_pow hv j
  have hd : fdiv (((2 ^ j : Nat) : ℚ) * v) ((2 ^ j : Nat) : ℚ) = v := by
    unfold fdiv
    rw [mul_div_cancel_left₀ _ hp.ne']
    exact hv
  have h0 : fmul 0 (fdiv (fsub ((2 ^ j : Nat) : ℚ) ((2 ^ j : Nat) : ℚ)) ((2 ^ j : Nat) : ℚ)) = 0 := by unfold fmul; rw [zero_mul, fl_zero]
  unfold chanceValue chanceStep
  simp only [List.foldl_cons, List.foldl_nil]
  rw [if_neg (by positivity)]
  simp only [hc]
  rw [show fadd 0 ((2 ^ j : Nat) : ℚ) = ((2 ^ j : Nat) : ℚ) from zero_fadd hc, h0, hm, hd, zero_fadd hv]
  rfl

example : chanceValue 0 [(2 ^ 2, fl (1 / 10))] = fl (fl (1 / 10) + 0) := c86_one_child_partial (isDouble_fl _) (by norm_num)

/-- C86 is false with one child: with three backups and value `0.1`, the value of the chance node is `0.10000000000000002`. -/
theorem c86_one_child_false : ¬ ∀ (c : Nat) (v : ℚ), 1 ≤ c → IsDouble v → chanceValue 0 [(c, v)] = v := by
  intro h
  exact absurd (h 3 (fl (1 / 10)) (by norm_num) (isDouble_fl _)) (by decide +kernel)

/-- C86 is false about the interval: the same child lifts the value above the largest value of a child. -/
theorem c86_range_false : ¬ ∀ (children : List (Nat × ℚ)) (hi : ℚ), (∀ p ∈ children, 1 ≤ p.1 ∧ IsDouble p.2 ∧ p.2 ≤ hi) → children ≠ [] → IsDouble hi →
    chanceValue 0 children ≤ hi := by
  intro h
  exact absurd (h [(3, fl (1 / 10))] (fl (1 / 10)) (by decide +kernel) (by simp) (isDouble_fl _)) (by decide +kernel)

end Verif.Props
