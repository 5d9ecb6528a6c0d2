import Verif.Proofs.FpArith
import Mathlib.Algebra.BigOperators.Group.List.Basic

/-!
# Running averages and sums of returns in doubles
-/

namespace Verif.Fp

open Verif.Uct (Stats)

theorem unit_small : unit ≤ 1 / 1000000 := by rw [unit_eq]; norm_num

/-- The step of a running average towards a larger value does not overshoot. -/
theorem step_le {x y d : ℚ} (hx : IsDouble x) (hy : IsDouble y) (h : y ≤ x) (hd : 2 ≤ d) :
    0 ≤ fdiv (fsub x y) d ∧ fdiv (fsub x y) d ≤ x - y := by
  have hD : 0 ≤ x - y := by linarith
  have h0 : 0 ≤ fsub x y := fl_nonneg hD
  refine ⟨fl_nonneg (div_nonneg h0 (by linarith)), ?_⟩
  have hu := unit_pos
  have hs := unit_small
  have ht := tiny_pos
  by_cases hbig : 4 * tiny ≤ x - y
  · have e1 := fsub_err hx hy
    rw [abs_of_nonneg hD] at e1
    have e1 := (abs_le.1 e1).2
    have e2 := fl_err' (fsub x y / d)
    have hq : fsub x y / d ≤ (x - y) * (1 + unit) / 2 := by
      rw [div_le_div_iff₀ (by linarith) (by norm_num)]
      nlinarith
    have hq0 : 0 ≤ fsub x y / d := div_nonneg h0 (by linarith)
    rw [abs_of_nonneg hq0] at e2
    have e2 := (abs_le.1 e2).2
    unfold fdiv
    have hm : unit * (fsub x y / d) ≤ unit * ((x - y) * (1 + unit) / 2) := mul_le_mul_of_nonneg_left hq hu.le
    have h3 : fl (fsub x y / d) ≤ (x - y) * ((1 + unit) / 2 * (1 + unit)) + (x - y) * (1 / 4) := by nlinarith
    have h4 : (1 + unit) / 2 * (1 + unit) + 1 / 4 ≤ 1 := by nlinarith
    nlinarith
  · -- one of the two smallest multiples
    obtain ⟨a, ha⟩ := hx.multiple
    obtain ⟨b, hb⟩ := hy.multiple
    have hp : (0 : ℚ) < 2 ^ (-1074 : ℤ) := by positivity
    have e : x - y = ((a - b : ℤ) : ℚ) * 2 ^ (-1074 : ℤ) := by rw [ha, hb]; push_cast; ring
    have h4 : 4 * tiny = 2 * (2 : ℚ) ^ (-1074 : ℤ) := by
      unfold tiny
      rw [show (-1074 : ℤ) = 1 + -1075 by norm_num, zpow_add₀ (by norm_num : (2 : ℚ) ≠ 0) 1 (-1075)]; ring
    have hlt : ((a - b : ℤ) : ℚ) < 2 := by
      by_contra hc
      have := mul_le_mul_of_nonneg_right (not_lt.1 hc) hp.le
      rw [← e, ← h4] at this
      exact hbig this
    have hge : (0 : ℚ) ≤ ((a - b : ℤ) : ℚ) := by
      by_contra hc
      have := mul_neg_of_neg_of_pos (not_le.1 hc) hp
      rw [← e] at this
      linarith
    have h1 : a - b < 2 := by exact_mod_cast hlt
    have h2 : 0 ≤ a - b := by exact_mod_cast hge
    have hex : fsub x y = x - y := by
      unfold fsub
      rw [e]
      exact fl_exact (by rw [abs_of_nonneg h2]; omega) (le_refl _)
    rw [hex]
    unfold fdiv
    have hle : (x - y) / d ≤ x - y := div_le_self hD (by linarith)
    have := fl_mono hle
    unfold fsub at hex
    rwa [hex] at this

theorem step_ge {x y d : ℚ} (hx : IsDouble x) (hy : IsDouble y) (h : x ≤ y) (hd : 2 ≤ d) :
    x - y ≤ fdiv (fsub x y) d ∧ fdiv (fsub x y) d ≤ 0 := by
  obtain ⟨h1, h2⟩ := step_le hy hx h hd
  have e : fdiv (fsub y x) d = - fdiv (fsub x y) d := by
    unfold fdiv fsub
    rw [← fl_neg, ← neg_div, ← fl_neg, neg_sub]
  rw [e] at h1 h2
  constructor <;> linarith

/-- The new average before the last rounding lies between the old one and the return. -/
theorem step_between {x y d lo hi : ℚ} (hx : IsDouble x) (hy : IsDouble y) (hd : 2 ≤ d) (h1 : lo ≤ x) (h2 : x ≤ hi) (h3 : lo ≤ y) (h4 : y ≤ hi) :
    lo ≤ y + fdiv (fsub x y) d ∧ y + fdiv (fsub x y) d ≤ hi := by
  rcases le_total y x with h | h
  · obtain ⟨a, b⟩ := step_le hx hy h hd
    constructor <;> linarith
  · obtain ⟨a, b⟩ := step_ge hx hy h hd
    constructor <;> linarith

theorem two_le_fl {n : Nat} (h : 2 ≤ n) : (2 : ℚ) ≤ fl n :=
  le_fl (by exact_mod_cast isDouble_nat (n := 2) (by norm_num)) (by exact_mod_cast h)

theorem backupAvg_range {s : Stats ℚ} {x lo hi : ℚ} (hn : 1 ≤ s.n) (hs : IsDouble s.avg) (hx : IsDouble x) (hlo : IsDouble lo) (hhi : IsDouble hi)
    (h1 : lo ≤ x) (h2 : x ≤ hi) (h3 : lo ≤ s.avg) (h4 : s.avg ≤ hi) :
    lo ≤ (backupAvg s x).avg ∧ (backupAvg s x).avg ≤ hi := by
  obtain ⟨a, b⟩ := step_between hx hs (two_le_fl (n := s.n + 1) (by omega)) h1 h2 h3 h4
  exact ⟨le_fl hlo a, fl_le hhi b⟩

theorem backupAvg_first {s : Stats ℚ} {x : ℚ} (hn : s.n = 0) (hs : s.avg = 0) (hx : IsDouble x) : (backupAvg s x).avg = x := by
  unfold backupAvg
  simp only [hn, hs]
  unfold fsub
  rw [sub_zero, show fl x = x from hx]
  simp only [zero_add, Nat.cast_one]
  rw [show fl 1 = 1 from fl_one, fdiv_one hx, zero_fadd hx]

theorem backupAvg_double (s : Stats ℚ) (x : ℚ) : IsDouble (backupAvg s x).avg := isDouble_fl _

theorem fold_range {lo hi : ℚ} (hlo : IsDouble lo) (hhi : IsDouble hi) :
    ∀ (xs : List ℚ) (s : Stats ℚ), (∀ x ∈ xs, IsDouble x ∧ lo ≤ x ∧ x ≤ hi) → 1 ≤ s.n → IsDouble s.avg → lo ≤ s.avg → s.avg ≤ hi →
      lo ≤ (xs.foldl backupAvg s).avg ∧ (xs.foldl backupAvg s).avg ≤ hi := by
  intro xs
  induction xs with
  | nil => intro s _ _ _ h1 h2; exact ⟨h1, h2⟩
  | cons x xs ih =>
    intro s hxs hn hd h1 h2
    have hx := hxs x (by simp)
    obtain ⟨a, b⟩ := backupAvg_range hn hd hx.1 hlo hhi hx.2.1 hx.2.2 h1 h2
    exact ih _ (fun y hy => hxs y (by simp [hy])) (by simp [backupAvg]) (backupAvg_double _ _) a b

/-- Error of one backup. -/
theorem backupAvg_err {s : Stats ℚ} {x M : ℚ} (hn : 1 ≤ s.n) (hN : s.n + 1 ≤ 2 ^ 53) (hs : IsDouble s.avg) (hx : IsDouble x)
    (h1 : |x| ≤ M) (h3 : |s.avg| ≤ M) :
    |(backupAvg s x).avg - (s.avg + (x - s.avg) / ((s.n + 1 : Nat) : ℚ))| ≤ 6 * unit * M / ((s.n + 1 : Nat) : ℚ) + (unit * M + tiny) := by
  have hu := unit_pos
  have hsm := unit_small
  have hM : 0 ≤ M := le_trans (abs_nonneg _) h1
  have hNe : fl ((s.n + 1 : Nat) : ℚ) = ((s.n + 1 : Nat) : ℚ) := isDouble_nat hN
  have hbt := step_between hx hs (two_le_fl (n := s.n + 1) (by omega)) (abs_le.1 h1).1 (abs_le.1 h1).2 (abs_le.1 h3).1 (abs_le.1 h3).2
  unfold backupAvg
  simp only
  rw [hNe] at hbt ⊢
  generalize hNd : ((s.n + 1 : Nat) : ℚ) = N at *
  have hNp : 2 ≤ N := by rw [← hNd]; exact_mod_cast (by omega : 2 ≤ s.n + 1)
  have hN0 : (0 : ℚ) < N := by linarith
  have e1 := fsub_err hx hs
  have hD : |x - s.avg| ≤ 2 * M := by
    have := abs_sub x s.avg
    linarith
  have hD1 : |fsub x s.avg| ≤ 2 * M * (1 + unit) := by
    have := abs_sub_abs_le_abs_sub (fsub x s.avg) (x - s.avg)
    nlinarith
  have e2 := fl_err' (fsub x s.avg / N)
  rw [abs_div, abs_of_pos hN0] at e2
  have e3 := fadd_err hs (isDouble_fl (fsub x s.avg / N))
  have h4 : |s.avg + fl (fsub x s.avg / N)| ≤ M := abs_le.2 hbt
  have hq : unit * (|fsub x s.avg| / N) ≤ 3 * unit * M / N := by
    rw [mul_div_assoc', div_le_div_iff_of_pos_right hN0]
    have h3M : |fsub x s.avg| ≤ 3 * M := by nlinarith
    nlinarith [mul_le_mul_of_nonneg_left h3M hu.le]
  have hq1 : |fsub x s.avg / N - (x - s.avg) / N| ≤ 2 * unit * M / N := by
    rw [← sub_div, abs_div, abs_of_pos hN0, div_le_div_iff_of_pos_right hN0]
    nlinarith
  have hsplit : fadd s.avg (fdiv (fsub x s.avg) N) - (s.avg + (x - s.avg) / N) =
      (fadd s.avg (fdiv (fsub x s.avg) N) - (s.avg + fdiv (fsub x s.avg) N)) + ((fl (fsub x s.avg / N) - fsub x s.avg / N) +
        (fsub x s.avg / N - (x - s.avg) / N)) := by unfold fdiv; ring
  rw [hsplit]
  have t1 := abs_add_le (fadd s.avg (fdiv (fsub x s.avg) N) - (s.avg + fdiv (fsub x s.avg) N)) ((fl (fsub x s.avg / N) - fsub x s.avg / N) +
        (fsub x s.avg / N - (x - s.avg) / N))
  have t2 := abs_add_le (fl (fsub x s.avg / N) - fsub x s.avg / N) (fsub x s.avg / N - (x - s.avg) / N)
  have e3' : |fadd s.avg (fdiv (fsub x s.avg) N) - (s.avg + fdiv (fsub x s.avg) N)| ≤ unit * M := by
    refine le_trans e3 (mul_le_mul_of_nonneg_left h4 hu.le)
  have h5 : 2 * unit * M / N + 3 * unit * M / N ≤ 6 * unit * M / N := by
    rw [← add_div, div_le_div_iff_of_pos_right hN0]
    nlinarith [mul_nonneg hu.le hM]
  linarith

/-- The error of the sum behind a running average. -/
theorem fold_err {M : ℚ} (hMd : IsDouble M) :
    ∀ (xs : List ℚ) (s : Stats ℚ) (T : ℚ), (∀ x ∈ xs, IsDouble x ∧ |x| ≤ M) → 1 ≤ s.n → s.n + xs.length ≤ 2 ^ 53 → IsDouble s.avg → |s.avg| ≤ M →
      |(s.n + xs.length : ℚ) * (xs.foldl backupAvg s).avg - (T + xs.sum)| ≤ |(s.n : ℚ) * s.avg - T| +
        (xs.length * (6 * unit * M) + ((s.n + xs.length) * (s.n + xs.length + 1) / 2 - s.n * (s.n + 1) / 2) * (unit * M + tiny)) := by
  intro xs
  induction xs with
  | nil => intro s T _ _ _ _ _; simp
  | cons x xs ih =>
    intro s T hxs hn hN hd hM
    have hx := hxs x (by simp)
    simp only [List.length_cons] at hN
    obtain ⟨h1, h2⟩ := backupAvg_range hn hd hx.1 hMd.neg hMd (abs_le.1 hx.2).1 (abs_le.1 hx.2).2 (abs_le.1 hM).1 (abs_le.1 hM).2
    have e := backupAvg_err hn (by omega) hd hx.1 hx.2 hM
    have hih := ih (backupAvg s x) (T + x) (fun y hy => hxs y (by simp [hy])) (by simp [backupAvg]) (by simp only [backupAvg]; omega) (backupAvg_double _ _)
      (abs_le.2 ⟨h1, h2⟩)
    have hN0 : (0 : ℚ) < ((s.n + 1 : Nat) : ℚ) := by positivity
    have hb : (backupAvg s x).n = s.n + 1 := rfl
    rw [hb] at hih
    have h5 : |((s.n + 1 : Nat) : ℚ) * (backupAvg s x).avg - (T + x)| ≤ |(s.n : ℚ) * s.avg - T| + (6 * unit * M + ((s.n + 1 : Nat) : ℚ) * (unit * M + tiny)) := by
      have hsplit : ((s.n + 1 : Nat) : ℚ) * (backupAvg s x).avg - (T + x) = ((s.n : ℚ) * s.avg - T) +
          ((s.n + 1 : Nat) : ℚ) * ((backupAvg s x).avg - (s.avg + (x - s.avg) / ((s.n + 1 : Nat) : ℚ))) := by
        field_simp
        push_cast
        ring
      rw [hsplit]
      refine le_trans (abs_add_le _ _) ?_
      rw [abs_mul, abs_of_pos hN0]
      have := mul_le_mul_of_nonneg_left e hN0.le
      rw [mul_add (((s.n + 1 : Nat)) : ℚ), mul_div_cancel₀ _ hN0.ne'] at this
      linarith
    simp only [List.foldl_cons, List.length_cons, List.sum_cons]
    push_cast at hih h5 ⊢
    rw [show (s.n : ℚ) + (xs.length + 1) = s.n + 1 + xs.length by ring, show T + (x + xs.sum) = T + x + xs.sum by ring]
    refine le_trans hih ?_
    have : (xs.length + 1 : ℚ) * (6 * unit * M) + ((s.n + 1 + xs.length : ℚ) * (s.n + 1 + xs.length + 1) / 2 - s.n * (s.n + 1) / 2) * (unit * M + tiny) =
       (xs.length * (6 * unit * M) + ((s.n + 1 + xs.length : ℚ) * (s.n + 1 + xs.length + 1) / 2 - (s.n + 1) * (s.n + 1 + 1) / 2) * (unit * M + tiny)) +
       (6 * unit * M + (s.n + 1) * (unit * M + tiny)) := by ring
    rw [this]
    linarith

/-! ## Returns -/

/-- Error of the return after a node. -/
theorem returnAfter_err {hv r : ℚ} (hh : IsDouble hv) (hr0 : |hv| ≤ r) :
    ∀ (rs : List ℚ), (∀ x ∈ rs, IsDouble x ∧ |x| ≤ r) → rs.length ≤ 2 ^ 51 →
      IsDouble (returnAfter hv rs) ∧ |rs.sum + hv| ≤ (rs.length + 1) * r ∧
      |returnAfter hv rs - (rs.sum + hv)| ≤ rs.length * (rs.length + 3) * (unit * r) := by
  intro rs
  have hu := unit_pos
  have hr : 0 ≤ r := le_trans (abs_nonneg _) hr0
  have hur : 0 ≤ unit * r := mul_nonneg hu.le hr
  induction rs with
  | nil =>
    intro _ _
    refine ⟨hh, by simpa using hr0, by simp [returnAfter]⟩
  | cons x rs ih =>
    intro hx hl
    simp only [List.length_cons] at hl
    obtain ⟨h1, h2, h3⟩ := ih (fun y hy => hx y (by simp [hy])) (by omega)
    have hxx := hx x (by simp)
    have e : returnAfter hv (x :: rs) = fadd (returnAfter hv rs) x := rfl
    have e1 := fadd_err h1 hxx.1
    rw [e]
    have hs : |(x :: rs).sum + hv| ≤ ((rs.length + 1 : ℚ) + 1) * r := by
      rw [List.sum_cons, add_assoc]
      have := abs_add_le x (rs.sum + hv)
      linarith
    refine ⟨isDouble_fl _, by simpa using hs, ?_⟩
    generalize hL : (rs.length : ℚ) = L at *
    have hL0 : 0 ≤ L := by rw [← hL]; positivity
    have hL1 : L ≤ 2 ^ 51 := by rw [← hL]; exact_mod_cast (by omega : rs.length ≤ 2 ^ 51)
    have hsum : |returnAfter hv rs + x| ≤ (L + 2) * r + L * (L + 3) * (unit * r) := by
      have hsp : returnAfter hv rs + x = (returnAfter hv rs - (rs.sum + hv)) + ((x :: rs).sum + hv) := by rw [List.sum_cons]; ring
      rw [hsp]
      have := abs_add_le (returnAfter hv rs - (rs.sum + hv)) ((x :: rs).sum + hv)
      linarith
    have hsp : fadd (returnAfter hv rs) x - ((x :: rs).sum + hv) = (fadd (returnAfter hv rs) x - (returnAfter hv rs + x)) + (returnAfter hv rs - (rs.sum + hv)) := by
      rw [List.sum_cons]; ring
    rw [hsp]
    have ha := abs_add_le (fadd (returnAfter hv rs) x - (returnAfter hv rs + x)) (returnAfter hv rs - (rs.sum + hv))
    have hb : unit * |returnAfter hv rs + x| ≤ unit * ((L + 2) * r + L * (L + 3) * (unit * r)) := mul_le_mul_of_nonneg_left hsum hu.le
    have hc : unit * (L * (L + 3)) ≤ L + 2 := by
      rw [unit_eq]
      have : L * (L + 3) ≤ 2 ^ 51 * (L + 3) := mul_le_mul_of_nonneg_right hL1 (by linarith)
      nlinarith
    have hd := mul_le_mul_of_nonneg_right hc hur
    simp only [List.length_cons]
    push_cast
    rw [hL]
    nlinarith

/-! ## The evaluator's mean -/

theorem tiny_mul {n : Nat} (h : n ≤ 2 ^ 50) {M : ℚ} (hM : 1 ≤ M) : n * ((1 + M) * tiny) ≤ unit * M := by
  have hu := unit_pos
  have ht := tiny_le
  have h1 : (n : ℚ) ≤ 2 ^ 50 := by exact_mod_cast h
  have h2 : (n : ℚ) * tiny ≤ unit / 2 := by
    have h3 : (n : ℚ) * tiny ≤ 2 ^ 50 * (unit * unit * unit * unit) := mul_le_mul h1 ht tiny_pos.le (by positivity)
    refine le_trans h3 ?_
    rw [unit_eq]; norm_num
  have : (n : ℚ) * ((1 + M) * tiny) = (n * tiny) * (1 + M) := by ring
  rw [this]
  nlinarith

theorem inv_err {n : Nat} (h0 : 1 ≤ n) (h : n ≤ 2 ^ 50) :
    |fdiv 1 (fl (n : ℚ)) - 1 / n| ≤ unit * (1 / n) + tiny ∧ 0 ≤ fdiv 1 (fl (n : ℚ)) ∧ fdiv 1 (fl (n : ℚ)) ≤ 2 * (1 / n) := by
  have hn : fl (n : ℚ) = n := isDouble_nat (le_trans h (by norm_num))
  have hn0 : (1 : ℚ) ≤ n := by exact_mod_cast h0
  rw [hn]
  have e := fl_err' (1 / (n : ℚ))
  have hp : (0 : ℚ) < 1 / n := by positivity
  rw [abs_of_pos hp] at e
  refine ⟨e, fl_nonneg hp.le, ?_⟩
  have e2 := (abs_le.1 e).2
  have ht : tiny ≤ 1 / 2 * (1 / n) := by
    have := tiny_mul h (le_refl 1)
    rw [← mul_div_assoc, mul_one, le_div_iff₀ (by linarith)]
    have := unit_small
    nlinarith [tiny_pos]
  have := unit_small
  unfold fdiv
  nlinarith

theorem term_err {n : Nat} (h0 : 1 ≤ n) (h : n ≤ 2 ^ 50) {M v : ℚ} (hM : 1 ≤ M) (hv : |v| ≤ M) :
    |fmul (fdiv 1 (fl (n : ℚ))) v - v / n| ≤ 4 * (unit * M) / n := by
  have hu := unit_pos
  obtain ⟨e1, e2, e3⟩ := inv_err h0 h
  have hn0 : (1 : ℚ) ≤ n := by exact_mod_cast h0
  generalize fdiv 1 (fl (n : ℚ)) = w at *
  have e4 := fl_err' (w * v)
  rw [abs_mul, abs_of_nonneg e2] at e4
  have hp : (0 : ℚ) < 1 / n := by positivity
  have h5 : w * |v| ≤ 2 * (1 / n) * M := mul_le_mul e3 hv (abs_nonneg _) (by positivity)
  have hsp : fmul w v - v / n = (fl (w * v) - w * v) + (w - 1 / n) * v := by unfold fmul; ring
  have h6 : |(w - 1 / n) * v| ≤ (unit * (1 / n) + tiny) * M := by
    rw [abs_mul]
    exact mul_le_mul e1 hv (abs_nonneg _) (add_nonneg (mul_nonneg hu.le hp.le) tiny_pos.le)
  have h7 := abs_add_le (fl (w * v) - w * v) ((w - 1 / n) * v)
  rw [← hsp] at h7
  have h8 : unit * (w * |v|) ≤ unit * (2 * (1 / n) * M) := mul_le_mul_of_nonneg_left h5 hu.le
  have h9 : (1 + M) * tiny ≤ unit * M / n := by
    rw [le_div_iff₀ (by linarith)]
    have := tiny_mul h hM
    linarith
  have h10 : 4 * (unit * M) / n = unit * (2 * (1 / n) * M) + unit * (1 / n) * M + unit * M / n := by field_simp; ring
  rw [h10]
  nlinarith

theorem mean_fold {n : Nat} (h0 : 1 ≤ n) (h : n ≤ 2 ^ 50) {M : ℚ} (hM : 1 ≤ M) :
    ∀ (xs : List ℚ) (j : Nat) (s T : ℚ), (∀ x ∈ xs, |x| ≤ M) → j + xs.length = n → IsDouble s → |T| ≤ j * M / n →
      |s - T| ≤ j * (4 * (unit * M) / n + 2 * (unit * M)) →
      |xs.foldl (fun mean val => fadd mean (fmul (fdiv 1 (fl (n : ℚ))) val)) s - (T + xs.sum / n)| ≤ n * (4 * (unit * M) / n + 2 * (unit * M)) := by
  intro xs
  have hu := unit_pos
  have hn0 : (1 : ℚ) ≤ n := by exact_mod_cast h0
  have hnp : (0 : ℚ) < n := by linarith
  have hq : (0 : ℚ) ≤ 4 * (unit * M) / n + 2 * (unit * M) := by positivity
  induction xs with
  | nil =>
    intro j s T _ hj _ _ hs
    simp only [List.length_nil, add_zero] at hj
    subst hj
    simpa using hs
  | cons x xs ih =>
    intro j s T hx hj hd hT hs
    simp only [List.length_cons] at hj
    have hxx := hx x (by simp)
    have et := term_err h0 h hM hxx
    set p := fmul (fdiv 1 (fl (n : ℚ))) x with hpd
    have hjn : (j : ℚ) + 1 ≤ n := by exact_mod_cast (by omega : j + 1 ≤ n)
    have hT' : |T + x / n| ≤ ((j + 1 : Nat) : ℚ) * M / n := by
      have h1 := abs_add_le T (x / n)
      have h2 : |x / n| ≤ M / n := by rw [abs_div, abs_of_pos hnp]; exact (div_le_div_iff_of_pos_right hnp).2 hxx
      have h3 : ((j + 1 : Nat) : ℚ) * M / n = j * M / n + M / n := by push_cast; ring
      linarith
    have hTM : |T + x / n| ≤ M := by
      refine le_trans hT' ?_
      rw [div_le_iff₀ hnp]; push_cast; nlinarith
    have ha := fadd_err hd (show IsDouble p from isDouble_fl _)
    have hb : |s + p - (T + x / n)| ≤ j * (4 * (unit * M) / n + 2 * (unit * M)) + 4 * (unit * M) / n := by
      have hsp : s + p - (T + x / n) = (s - T) + (p - x / n) := by ring
      rw [hsp]
      have := abs_add_le (s - T) (p - x / n)
      linarith
    have hc : |s + p| ≤ 2 * M := by
      have h1 := abs_sub_abs_le_abs_sub (s + p) (T + x / n)
      have h2 : j * (4 * (unit * M) / n + 2 * (unit * M)) + 4 * (unit * M) / n ≤ M := by
        have h3 : (j : ℚ) * (4 * (unit * M) / n + 2 * (unit * M)) + 4 * (unit * M) / n ≤ n * (4 * (unit * M) / n + 2 * (unit * M)) := by
          have h4 := mul_le_mul_of_nonneg_right hjn hq
          have : 0 ≤ 2 * (unit * M) := by positivity
          linarith
        refine le_trans h3 ?_
        rw [mul_add, mul_div_cancel₀ _ hnp.ne']
        have h5 : (n : ℚ) ≤ 2 ^ 50 := by exact_mod_cast h
        have h6 : n * unit ≤ 1 / 8 := by rw [unit_eq]; nlinarith
        have := unit_small
        nlinarith
      linarith
    have hd2 : unit * |s + p| ≤ 2 * (unit * M) := by nlinarith
    have := ih (j + 1) (fadd s p) (T + x / n) (fun y hy => hx y (by simp [hy])) (by omega) (isDouble_fl _) hT' (by
      have hsp : fadd s p - (T + x / n) = (fadd s p - (s + p)) + (s + p - (T + x / n)) := by ring
      rw [hsp]
      refine le_trans (abs_add_le _ _) ?_
      push_cast
      linarith)
    simp only [List.foldl_cons, List.sum_cons]
    rw [add_div, ← add_assoc]
    exact this

/-- Error of the evaluator's mean. -/
theorem meanReturn_err {M : ℚ} (hM : 1 ≤ M) {xs : List ℚ} (h0 : xs ≠ []) (h : xs.length ≤ 2 ^ 50) (hx : ∀ x ∈ xs, |x| ≤ M) :
    |meanReturn xs - xs.sum / xs.length| ≤ (2 * xs.length + 4) * (unit * M) := by
  have hl : 1 ≤ xs.length := by cases xs with | nil => exact absurd rfl h0 | cons => simp
  have hlp : (0 : ℚ) < xs.length := by exact_mod_cast hl
  have := mean_fold hl h hM xs 0 0 0 hx (Nat.zero_add _) isDouble_zero (by rw [abs_zero, Nat.cast_zero, zero_mul, zero_div])
    (by rw [sub_zero, abs_zero, Nat.cast_zero, zero_mul])
  rw [zero_add] at this
  unfold meanReturn
  refine le_trans this ?_
  rw [mul_add, mul_div_cancel₀ _ hlp.ne']
  linarith

end Verif.Fp
