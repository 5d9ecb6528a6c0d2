import Verif.Proofs.FpAverage

/-!
# C84: average returns are accurate in floating point
-/

namespace Verif.Props

open Verif.Fp
open Verif.Uct (Stats)

/-- The average return after backing up `returns` at a new node (`num_backups = 0`, `avg_return = 0.0`), as UCT and the empirical nodes compute it. -/
def avgReturn (returns : List ℚ) : ℚ := (returns.foldl backupAvg ⟨0, 0⟩).avg

theorem avg_cons {x : ℚ} (hx : IsDouble x) (xs : List ℚ) : avgReturn (x :: xs) = (xs.foldl backupAvg ⟨1, x⟩).avg := by
  have h := backupAvg_first (s := ⟨0, 0⟩) rfl rfl hx
  unfold avgReturn
  rw [List.foldl_cons]
  have : backupAvg ⟨0, 0⟩ x = ⟨1, x⟩ := by
    have : (backupAvg ⟨0, 0⟩ x).n = 1 := rfl
    generalize backupAvg ⟨0, 0⟩ x = s at *
    cases s
    simp only at h this
    rw [h, this]
  rw [this]

/-- C84, first part: after `n` backups of returns between `-M` and `M` the average return is the mean of the returns, up to
`(6 + (n+1)/2) 2^-53 M` (and a subnormal error). -/
theorem c84_average {M : ℚ} (hM : IsDouble M) {xs : List ℚ} (h0 : xs ≠ []) (hn : xs.length ≤ 2 ^ 53) (hx : ∀ x ∈ xs, IsDouble x ∧ |x| ≤ M) :
    |avgReturn xs - exactMean xs| ≤ (6 + (xs.length + 1) / 2) * unit * M + (xs.length + 1) / 2 * tiny := by
  cases xs with
  | nil => exact absurd rfl h0
  | cons x xs =>
    have hxx := hx x (by simp)
    simp only [List.length_cons] at hn
    have h := fold_err hM xs ⟨1, x⟩ x (fun y hy => hx y (by simp [hy])) (le_refl _) (by simp only; omega) hxx.1 hxx.2
    rw [avg_cons hxx.1]
    have hup := unit_pos
    have htp := tiny_pos
    have hM0 : 0 ≤ M := le_trans (abs_nonneg _) hxx.2
    have huM : 0 ≤ unit * M := mul_nonneg hup.le hM0
    unfold exactMean
    simp only [List.length_cons, List.sum_cons, Nat.cast_one, one_mul, sub_self, abs_zero, zero_add] at h ⊢
    generalize ((xs.foldl backupAvg ⟨1, x⟩).avg) = a at *
    push_cast
    generalize hL : (xs.length : ℚ) = L at *
    have hL0 : 0 ≤ L := by rw [← hL]; positivity
    have hn0 : (0 : ℚ) < L + 1 := by linarith
    have e : a - (x + xs.sum) / (L + 1) = ((1 + L) * a - (x + xs.sum)) / (L + 1) := by field_simp; ring
    rw [e, abs_div, abs_of_pos hn0, div_le_iff₀ hn0]
    refine le_trans h ?_
    have h1 : ((6 + (L + 1 + 1) / 2) * unit * M + (L + 1 + 1) / 2 * tiny) * (L + 1) =
        (L + 1) * (6 * unit * M) + (1 + L) * (1 + L + 1) / 2 * (unit * M + tiny) := by ring
    rw [h1]
    have h2 : ((1 + L) * (1 + L + 1) / 2 - 1 * (1 + 1) / 2) * (unit * M + tiny) ≤ (1 + L) * (1 + L + 1) / 2 * (unit * M + tiny) :=
      mul_le_mul_of_nonneg_right (by linarith) (by linarith)
    have h3 : L * (6 * unit * M) ≤ (L + 1) * (6 * unit * M) := by nlinarith
    linarith

/-- C84, second part: the average return does not leave an interval of doubles that contains all returns, however many there are. -/
theorem c84_range {lo hi : ℚ} (hlo : IsDouble lo) (hhi : IsDouble hi) {xs : List ℚ} (h0 : xs ≠ []) (hx : ∀ x ∈ xs, IsDouble x ∧ lo ≤ x ∧ x ≤ hi) :
    lo ≤ avgReturn xs ∧ avgReturn xs ≤ hi := by
  cases xs with
  | nil => exact absurd rfl h0
  | cons x xs =>
    have hxx := hx x (by simp)
    rw [avg_cons hxx.1]
    exact fold_range hlo hhi xs ⟨1, x⟩ (fun y hy => hx y (by simp [hy])) (le_refl _) hxx.1 hxx.2.1 hxx.2.2

/-- The same for a node that starts with the heuristic value and at least one pseudo trial. -/
theorem c84_range_heuristic {lo hi h : ℚ} {trials : Nat} (hlo : IsDouble lo) (hhi : IsDouble hi) (ht : 1 ≤ trials) (hh : IsDouble h ∧ lo ≤ h ∧ h ≤ hi)
    {xs : List ℚ} (hx : ∀ x ∈ xs, IsDouble x ∧ lo ≤ x ∧ x ≤ hi) :
    lo ≤ (xs.foldl backupAvg ⟨trials, h⟩).avg ∧ (xs.foldl backupAvg ⟨trials, h⟩).avg ≤ hi :=
  fold_range hlo hhi xs ⟨trials, h⟩ hx ht hh.1 hh.2.1 hh.2.2

/-- Non-vacuity: returns whose average in doubles is not the exact one. -/
example : avgReturn [fl (1 / 10), fl (2 / 10), fl (6 / 10)] ≠ fl (exactMean [fl (1 / 10), fl (2 / 10), fl (6 / 10)]) := by decide +kernel

example : IsDouble 1 ∧ ∀ x ∈ [fl (1 / 10), fl (2 / 10), fl (6 / 10)], IsDouble x ∧ |x| ≤ 1 := by decide +kernel

/-- With a heuristic value but no pseudo trials (`num_backups = 0`, `avg_return` the heuristic value) the range is left at the first backup. -/
theorem c84_heuristic_false : ¬ ∀ (h x : ℚ), IsDouble h → IsDouble x → h ≤ x → (backupAvg ⟨0, h⟩ x).avg ≤ x := by
  intro hall
  have := hall (-9007199254740992) 3 (by decide +kernel) (by decide +kernel) (by norm_num)
  exact absurd this (by decide +kernel)

/-- C84, third part: the return after a node that is backed up is the sum of the rewards after it, up to `L (L+3) 2^-53 r` for `L` rewards of size at most
`r`. -/
theorem c84_return {hv r : ℚ} (hh : IsDouble hv) (hr : |hv| ≤ r) {rewards : List ℚ} (hx : ∀ x ∈ rewards, IsDouble x ∧ |x| ≤ r)
    (hl : rewards.length ≤ 2 ^ 51) :
    IsDouble (returnAfter hv rewards) ∧ |returnAfter hv rewards - (rewards.sum + hv)| ≤ rewards.length * (rewards.length + 3) * (unit * r) :=
  ⟨(returnAfter_err hh hr rewards hx hl).1, (returnAfter_err hh hr rewards hx hl).2.2⟩

example : (∀ x ∈ [fl (1 / 10), fl (2 / 10), fl (3 / 10)], IsDouble x ∧ |x| ≤ 1) ∧
    returnAfter 0 [fl (1 / 10), fl (2 / 10), fl (3 / 10)] ≠ [fl (1 / 10), fl (2 / 10), fl (3 / 10)].sum + 0 := by decide +kernel

theorem mean_close {α : Type} {f g : α → ℚ} {b : ℚ} : ∀ {l : List α}, l ≠ [] → (∀ p ∈ l, |f p - g p| ≤ b) → |exactMean (l.map f) - exactMean (l.map g)| ≤ b := by
  intro l h0 h
  have hl : (0 : ℚ) < l.length := by exact_mod_cast List.length_pos_of_ne_nil h0
  have key : ∀ l : List α, (∀ p ∈ l, |f p - g p| ≤ b) → |(l.map f).sum - (l.map g).sum| ≤ l.length * b := by
    intro l
    induction l with
    | nil => intro _; simp
    | cons p l ih =>
      intro h
      have h1 := h p (by simp)
      have h2 := ih fun q hq => h q (by simp [hq])
      simp only [List.map_cons, List.sum_cons, List.length_cons]
      have h3 : f p + (l.map f).sum - (g p + (l.map g).sum) = (f p - g p) + ((l.map f).sum - (l.map g).sum) := by ring
      rw [h3]
      refine le_trans (abs_add_le _ _) ?_
      push_cast
      linarith
  unfold exactMean
  rw [List.length_map, List.length_map, ← sub_div, abs_div, abs_of_pos hl, div_le_iff₀ hl]
  have := key l h
  linarith

/-- C84, all parts together: `trials` are the rewards after a node and the heuristic values at the end of the trials through it.  The value of the node is the mean
of the exact returns up to the rounding of returns and of the average. -/
theorem c84_value {r M : ℚ} {L : Nat} (hM : IsDouble M) {trials : List (List ℚ × ℚ)} (h0 : trials ≠ []) (hn : trials.length ≤ 2 ^ 53) (hL : L ≤ 2 ^ 51)
    (hlen : ∀ t ∈ trials, t.1.length ≤ L) (hrew : ∀ t ∈ trials, ∀ x ∈ t.1, IsDouble x ∧ |x| ≤ r) (hheur : ∀ t ∈ trials, IsDouble t.2 ∧ |t.2| ≤ r)
    (hbound : 2 * (L + 1) * r ≤ M) :
    |avgReturn (trials.map fun t => returnAfter t.2 t.1) - exactMean (trials.map fun t => t.1.sum + t.2)| ≤
      L * (L + 3) * (unit * r) + ((6 + (trials.length + 1) / 2) * unit * M + (trials.length + 1) / 2 * tiny) := by
  have hup := unit_pos
  have hus := unit_small
  have hr : 0 ≤ r := by
    obtain ⟨t, ht⟩ := List.exists_mem_of_ne_nil _ h0
    exact le_trans (abs_nonneg _) (hheur t ht).2
  have hLq : (0 : ℚ) ≤ L := by positivity
  have hret : ∀ t ∈ trials, IsDouble (returnAfter t.2 t.1) ∧ |returnAfter t.2 t.1 - (t.1.sum + t.2)| ≤ L * (L + 3) * (unit * r) ∧ |returnAfter t.2 t.1| ≤ M := by
    intro t ht
    obtain ⟨h1, h2, h3⟩ := returnAfter_err (hheur t ht).1 (hheur t ht).2 t.1 (hrew t ht) (le_trans (hlen t ht) hL)
    have hl : (t.1.length : ℚ) ≤ L := by exact_mod_cast hlen t ht
    have hl0 : (0 : ℚ) ≤ t.1.length := by positivity
    have h4 : (t.1.length : ℚ) * (t.1.length + 3) * (unit * r) ≤ L * (L + 3) * (unit * r) := by
      refine mul_le_mul_of_nonneg_right ?_ (mul_nonneg hup.le hr)
      exact mul_le_mul hl (by linarith) (by linarith) hLq
    refine ⟨h1, le_trans h3 h4, ?_⟩
    have h5 := abs_sub_abs_le_abs_sub (returnAfter t.2 t.1) (t.1.sum + t.2)
    have h6 : (t.1.length + 1 : ℚ) * r ≤ (L + 1) * r := mul_le_mul_of_nonneg_right (by linarith) hr
    have h7 : (L : ℚ) * (L + 3) * (unit * r) ≤ (L + 1) * r := by
      have hL2 : (L : ℚ) * unit ≤ 1 / 4 := by
        have : (L : ℚ) ≤ 2 ^ 51 := by exact_mod_cast hL
        rw [unit_eq]; linarith
      have h8 : (L : ℚ) * (L + 3) * (unit * r) = (L * unit) * ((L + 3) * r) := by ring
      rw [h8]
      have h9 : (L * unit : ℚ) * ((L + 3) * r) ≤ 1 / 4 * ((L + 3) * r) := mul_le_mul_of_nonneg_right hL2 (by positivity)
      nlinarith
    linarith
  have h1 := c84_average hM (xs := trials.map fun t => returnAfter t.2 t.1) (by simpa using h0) (by simpa using hn) (by
    intro x hx
    obtain ⟨t, ht, rfl⟩ := List.mem_map.1 hx
    exact ⟨(hret t ht).1, (hret t ht).2.2⟩)
  rw [List.length_map] at h1
  have h2 := mean_close h0 fun t ht => (hret t ht).2.1
  have h3 := abs_sub_le (avgReturn (trials.map fun t => returnAfter t.2 t.1)) (exactMean (trials.map fun t => returnAfter t.2 t.1))
    (exactMean (trials.map fun t => t.1.sum + t.2))
  linarith

/-- Non-vacuity of `c84_value`. -/
example : ∃ trials : List (List ℚ × ℚ), trials ≠ [] ∧ (∀ t ∈ trials, t.1.length ≤ 2) ∧ (∀ t ∈ trials, ∀ x ∈ t.1, IsDouble x ∧ |x| ≤ 1) ∧
    (∀ t ∈ trials, IsDouble t.2 ∧ |t.2| ≤ 1) ∧
    avgReturn (trials.map fun t => returnAfter t.2 t.1) ≠ exactMean (trials.map fun t => t.1.sum + t.2) :=
  ⟨[([fl (1 / 10), fl (2 / 10)], 0), ([fl (7 / 10)], fl (1 / 3))], by decide +kernel, by decide +kernel, by decide +kernel, by decide +kernel, by decide +kernel⟩

/-- C84, last part: the evaluator's mean return is the mean of the sampled returns up to `(2 n + 4) 2^-53 M`. -/
theorem c84_mean {M : ℚ} (hM : 1 ≤ M) {xs : List ℚ} (h0 : xs ≠ []) (hn : xs.length ≤ 2 ^ 50) (hx : ∀ x ∈ xs, |x| ≤ M) :
    |meanReturn xs - exactMean xs| ≤ (2 * xs.length + 4) * (unit * M) := meanReturn_err hM h0 hn hx

example : meanReturn [fl (1 / 10), fl (2 / 10), fl (6 / 10)] ≠ exactMean [fl (1 / 10), fl (2 / 10), fl (6 / 10)] := by decide +kernel

end Verif.Props
