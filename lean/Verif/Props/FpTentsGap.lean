import Verif.Props.FpTents

/-!
# C88, values between `2^53` and `2^54` temperatures

There the doubles are the even integers `2 m`, and adding one is a tie that is rounded to the even `m`.
-/

namespace Verif.Props

open Verif.Fp
open Verif.Sampling (Draw)

variable {K : Type}

theorem expo_eq {x : ℚ} {k : ℤ} (h1 : (2 : ℚ) ^ k ≤ x) (h2 : x < 2 ^ (k + 1)) : expo x = k := by
  have hp : (0 : ℚ) < 2 ^ k := by positivity
  have h0 : x ≠ 0 := by intro h; rw [h] at h1; linarith
  have ha : |x| = x := abs_of_nonneg (by linarith)
  have a := le_expo h0 (k := k) (by rw [ha]; exact h1)
  have b := expo_lt h0 (k := k + 1) (by rw [ha]; exact h2)
  omega

/-- One plus an even integer between `2^53` and `2^54`. -/
theorem fl_tie {m : ℤ} (h1 : 2 ^ 52 ≤ m) (h2 : m < 2 ^ 53) : fl (1 + 2 * (m : ℚ)) = if m % 2 = 0 then 2 * (m : ℚ) else 2 * (m : ℚ) + 2 := by
  have q1 : (2 : ℚ) ^ 52 ≤ m := by exact_mod_cast h1
  have q2 : (m : ℚ) + 1 ≤ 2 ^ 53 := by exact_mod_cast h2
  have he : expo (1 + 2 * (m : ℚ)) = 53 := expo_eq (by norm_num at *; linarith) (by norm_num at *; linarith)
  have hu : ulp (1 + 2 * (m : ℚ)) = 2 := by
    unfold ulp
    rw [he]
    norm_num
  have h0 : 1 + 2 * (m : ℚ) ≠ 0 := by
    have : (0 : ℚ) < 1 + 2 * (m : ℚ) := by linarith
    exact this.ne'
  unfold fl
  rw [if_neg h0, hu]
  have hd : (1 + 2 * (m : ℚ)) / 2 = m + 1 / 2 := by ring
  have hf : ⌊(m : ℚ) + 1 / 2⌋ = m := by
    rw [Int.floor_eq_iff]
    constructor <;> linarith
  rw [hd]
  unfold roundEven
  rw [hf]
  have hs : (m : ℚ) + 1 / 2 - m = 1 / 2 := by ring
  rw [hs, if_neg (lt_irrefl _), if_neg (lt_irrefl _)]
  split
  · rfl
  · push_cast; ring

theorem isDouble_even {m : ℤ} (h1 : 2 ^ 52 ≤ m) (h2 : m < 2 ^ 53) : IsDouble (2 * (m : ℚ)) := by
  have := @fl_exact m 1 (by rw [abs_of_nonneg (by omega)]; omega) (by omega)
  rw [zpow_one, mul_comm] at this
  exact this

/-- **C88 is false from `2^53` temperatures on.**  If the larger of two values is twice an even number between `2^52` and `2^53`, whatever the other one is, the sparse set is
empty, so that the value of the node is one half and selecting throws for every exploration, iteration order and draw. -/
theorem c88_between_false {m : ℤ} (h1 : 2 ^ 52 ≤ m) (h2 : m < 2 ^ 53) (hm : m % 2 = 0) {w : ℚ} (hw : IsDouble w) (hle : w ≤ 2 * m) (a b : K) :
    (∀ sq : ℚ → ℚ, spmax sq [(2 * (m : ℚ), a), (w, b)] = 1 / 2) ∧
    ∀ lam iter q actions u, selectTents lam iter q [(2 * (m : ℚ), a), (w, b)] actions u = .tooLittle := by
  have q1 : (2 : ℚ) ^ 52 ≤ m := by exact_mod_cast h1
  have hv := isDouble_even h1 h2
  have hi1 : fadd 0 1 = 1 := by decide +kernel
  have hi2 : fadd 1 1 = 2 := by decide +kernel
  have e1 : fmul 1 (2 * (m : ℚ)) = 2 * m := by unfold fmul; rw [one_mul]; exact hv
  have e2 : fmul 2 w = 2 * w := isDouble_two_mul hw
  have e3 : fadd 1 (2 * (m : ℚ)) = 2 * m := by unfold fadd; rw [fl_tie h1 h2, if_pos hm]
  have e5 : fadd 1 (2 * w) ≤ fadd (2 * (m : ℚ)) w := by
    by_cases hc : w ≤ 2 * m - 1
    · exact fl_mono (by linarith)
    · have hw53 : (2 : ℚ) ^ 53 ≤ w := by
        by_contra hlt
        have hlt : w < 2 ^ 53 := not_le.1 hlt
        have hlo : (2 : ℚ) ^ 53 - 1 < w := by linarith
        have hex : expo w = 52 := expo_eq (by norm_num at *; linarith) (by norm_num at *; linarith)
        have hw0 : w ≠ 0 := by
          have : (0 : ℚ) < w := by norm_num at hlo; linarith
          exact this.ne'
        obtain ⟨f1, -⟩ := fl_form hw0
        rw [show fl w = w from hw, hex] at f1
        generalize roundEven (w / ulp w) = k at f1
        norm_num at f1
        rw [f1] at hlt hlo
        have k1 : k < 2 ^ 53 := by exact_mod_cast hlt
        have k2 : 2 ^ 53 - 1 < k := by exact_mod_cast hlo
        omega
      have e4 : fadd 1 (2 * w) = 2 * w := fl_add_one_large (isDouble_two_mul hw) (by norm_num at *; linarith)
      rw [e4]
      exact le_fl (isDouble_two_mul hw) (by linarith)
  have e : sparseSet [(2 * (m : ℚ), a), (w, b)] = [] := by
    unfold sparseSet
    simp only [sparseLoop, hi1, hi2, zero_fadd hv, e1, e2, e3]
    rw [if_neg (lt_irrefl _), if_neg (not_lt.2 e5)]
  refine ⟨fun sq => ?_, fun lam iter q actions u => ?_⟩
  · unfold spmax
    simp only [e, List.foldl_nil]
  · unfold selectTents tentsWeights
    simp [e]

/-- C88, what holds between `2^53` and `2^54` temperatures: if the largest value is twice an odd number, then an action is selected as below `2^53`. -/
theorem c88_between_partial {m : ℤ} (h1 : 2 ^ 52 ≤ m) (h2 : m < 2 ^ 53) (hm : m % 2 ≠ 0) {q : K → ℚ} {M : ℚ} (hM : 1 ≤ M) (hM2 : M ≤ 2 ^ 100) {a : K}
    {rest : List (ℚ × K)} {actions : List K} (hlen : ((2 * (m : ℚ), a) :: rest).length ≤ 1000) (hn : actions.length ≤ 800)
    (hdesc : ∀ p ∈ (2 * (m : ℚ), a) :: rest, p.2 ∈ actions) (hq : ∀ a ∈ actions, IsDouble (q a) ∧ |q a| ≤ M)
    {lam : ℚ} (hl : IsDouble lam) (hl1 : lam ≤ 1) (hbig : actions.length * (6 * actions.length + 12) * unit ≤ lam)
    {iter : List (K × ℚ) → List (K × ℚ)} (hiter : ∀ l, (iter l).Perm l) {u : ℚ} (hu0 : 0 ≤ u) :
    selectTents lam iter q ((2 * (m : ℚ), a) :: rest) actions u ≠ .tooMuch ∧
    (u < 1 - (5 * actions.length + 9) * unit → ∃ b, selectTents lam iter q ((2 * (m : ℚ), a) :: rest) actions u = .key b ∧ b ∈ actions) := by
  have hv := isDouble_even h1 h2
  have hi1 : fadd 0 1 = 1 := by decide +kernel
  have e1 : fmul 1 (2 * (m : ℚ)) = 2 * m := by unfold fmul; rw [one_mul]; exact hv
  have e3 : fadd 1 (2 * (m : ℚ)) = 2 * m + 2 := by unfold fadd; rw [fl_tie h1 h2, if_neg hm]
  have hne : sparseSet ((2 * (m : ℚ), a) :: rest) ≠ [] := by
    unfold sparseSet
    simp only [sparseLoop, hi1, zero_fadd hv, e1, e3]
    rw [if_pos (by linarith)]
    simp
  have hs : (sparseSet ((2 * (m : ℚ), a) :: rest)).Sublist ((2 * (m : ℚ), a) :: rest) := sparse_sub
  obtain ⟨t1, t2, t3⟩ := selectTents_spec hM hM2 hne (le_trans hs.length_le hlen) (List.ne_nil_of_mem (hdesc (2 * (m : ℚ), a) (by simp))) hn hdesc
    (fun p hp => hs.subset hp) hq hl hl1 hbig hiter hu0
  refine ⟨t1, fun hu => ?_⟩
  have t2 := t2 hu
  cases hs : selectTents lam iter q ((2 * (m : ℚ), a) :: rest) actions u with
  | tooMuch => exact absurd hs t1
  | tooLittle => exact absurd hs t2
  | key b => exact ⟨b, rfl, t3 b hs⟩

/-- Non-vacuity: two neighbouring values, one of each kind. -/
example : (2 : ℤ) ^ 52 % 2 = 0 ∧ ((2 : ℤ) ^ 52 + 1) % 2 ≠ 0 ∧ IsDouble (2 * ((2 : ℤ) ^ 52 + 1 : ℤ)) := by decide +kernel

end Verif.Props
