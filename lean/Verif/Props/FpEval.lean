import Verif.Model.FpEval
import Verif.Spec.FpEval
import Verif.Props.FpAverage
import Mathlib.Tactic.GCongr

/-!
# C118: the evaluator's statistics in floating point
-/

namespace Verif.Fp

theorem isDouble_foldAdd {f : ℚ → ℚ} : ∀ (xs : List ℚ) {s : ℚ}, IsDouble s → IsDouble (xs.foldl (fun m v => fadd m (f v)) s) := by
  intro xs
  induction xs with
  | nil => exact fun h => h
  | cons x xs ih => exact fun _ => ih (isDouble_fl _)

theorem foldAdd_nonneg {f : ℚ → ℚ} : ∀ (xs : List ℚ) {s : ℚ}, (∀ x ∈ xs, 0 ≤ f x) → 0 ≤ s → 0 ≤ xs.foldl (fun m v => fadd m (f v)) s := by
  intro xs
  induction xs with
  | nil => exact fun _ h => h
  | cons x xs ih =>
    intro s hx hs
    exact ih (fun y hy => hx y (by simp [hy])) (fl_nonneg (add_nonneg hs (hx x (by simp))))

theorem foldAdd_map {f g : ℚ → ℚ} : ∀ (xs : List ℚ) (s : ℚ), xs.foldl (fun m v => fadd m (f (g v))) s = (xs.map g).foldl (fun m v => fadd m (f v)) s := by
  intro xs
  induction xs with
  | nil => intro s; rfl
  | cons x xs ih => exact fun s => ih _

theorem pred_length_fl {n : Nat} (h2 : 2 ≤ n) (hn : n ≤ 2 ^ 50) : fsub (fl (n : ℚ)) 1 = fl ((n - 1 : Nat) : ℚ) := by
  have h1 : fl (n : ℚ) = n := isDouble_nat (by omega)
  rw [h1, Nat.cast_sub (by omega), Nat.cast_one]
  rfl

/-- C118.  The number reported is never negative. -/
theorem c118_nonneg {sq : ℚ → ℚ} (hsq : SquaresWell sq) {xs : List ℚ} (h2 : 2 ≤ xs.length) : 0 ≤ spreadReturn sq xs := by
  have h1 : (1 : ℚ) ≤ fl (xs.length : ℚ) := by
    have : fl 1 ≤ fl (xs.length : ℚ) := fl_mono (by exact_mod_cast (by omega : 1 ≤ xs.length))
    rwa [fl_one] at this
  have hw : 0 ≤ fdiv 1 (fsub (fl (xs.length : ℚ)) 1) :=
    fl_nonneg (div_nonneg zero_le_one (fl_nonneg (by linarith)))
  exact foldAdd_nonneg xs (fun x _ => fl_nonneg (mul_nonneg hw (hsq _ (isDouble_fl _)).1)) (le_refl _)

/-- A sum of `n + 1` numbers with weights `1 / n` on doubles. -/
theorem weightedAdd_err {n : Nat} (h0 : 1 ≤ n) (h : n ≤ 2 ^ 50) {M : ℚ} (hM : 1 ≤ M) {ys : List ℚ} (hl : ys.length = n + 1) (hy : ∀ y ∈ ys, |y| ≤ M) :
    |ys.foldl (fun s v => fadd s (fmul (fdiv 1 (fl (n : ℚ))) v)) 0 - ys.sum / n| ≤ (2 * n + 12) * (unit * M) := by
  have hne : ys ≠ [] := by rintro rfl; simp at hl
  obtain ⟨zs, z, rfl⟩ : ∃ zs z, ys = zs ++ [z] := ⟨ys.dropLast, ys.getLast hne, (List.dropLast_append_getLast hne).symm⟩
  have hz : zs.length = n := by simpa using hl
  have hnp : (0 : ℚ) < n := by exact_mod_cast h0
  have hn1 : (1 : ℚ) ≤ n := by exact_mod_cast h0
  have hu := unit_pos
  have huM : 0 < unit * M := by positivity
  have e1 := mean_fold h0 h hM zs 0 0 0 (fun y hz => hy y (by simp [hz])) (by omega) isDouble_zero (by simp) (by simp)
  rw [zero_add, mul_add, mul_div_cancel₀ _ hnp.ne'] at e1
  have e2 := term_err h0 h hM (hy z (by simp))
  have hs := isDouble_foldAdd (f := fun v => fmul (fdiv 1 (fl (n : ℚ))) v) zs isDouble_zero
  have e3 := fadd_err hs (show IsDouble (fmul (fdiv 1 (fl (n : ℚ))) z) from isDouble_fl _)
  rw [List.foldl_append, List.foldl_cons, List.foldl_nil, List.sum_append, List.sum_singleton]
  have hzs : |zs.sum / n| ≤ M := by
    rw [abs_div, abs_of_pos hnp, div_le_iff₀ hnp]
    have : ∀ l : List ℚ, (∀ y ∈ l, |y| ≤ M) → |l.sum| ≤ M * l.length := by
      intro l
      induction l with
      | nil => simp
      | cons a l ih =>
        intro hl
        have h1 := ih (fun y hy => hl y (by simp [hy]))
        have h2 := abs_add_le a l.sum
        have h3 := hl a (by simp)
        simp only [List.sum_cons, List.length_cons]
        push_cast
        linarith
    have := this zs (fun y hz => hy y (by simp [hz]))
    rwa [hz] at this
  have hzn : |z / n| ≤ M := by
    rw [abs_div, abs_of_pos hnp, div_le_iff₀ hnp]
    have := hy z (by simp)
    nlinarith
  generalize List.foldl (fun s v => fadd s (fmul (fdiv 1 (fl (n : ℚ))) v)) 0 zs = s at *
  generalize fmul (fdiv 1 (fl (n : ℚ))) z = p at *
  have e2' : |p - z / n| ≤ 4 * (unit * M) := by
    refine le_trans e2 ?_
    rw [div_le_iff₀ hnp]
    nlinarith
  have hnu : (n : ℚ) * unit ≤ 1 / 8 := by
    have h5 : (n : ℚ) ≤ 2 ^ 50 := by exact_mod_cast h
    rw [unit_eq]; nlinarith
  have hus := unit_small
  have hb : |s + p| ≤ 3 * M := by
    have t1 := abs_add_le (s - zs.sum / n) (p - z / n)
    have t2 := abs_add_le (zs.sum / n) (z / n)
    have t3 := abs_add_le ((s - zs.sum / n) + (p - z / n)) (zs.sum / n + z / n)
    have t4 : (s - zs.sum / n) + (p - z / n) + (zs.sum / n + z / n) = s + p := by ring
    rw [t4] at t3
    have t5 : (n : ℚ) * (2 * (unit * M)) ≤ 1 / 4 * M := by nlinarith
    have t6 : unit * M ≤ 1 / 1000000 * M := mul_le_mul_of_nonneg_right hus (by linarith)
    linarith
  have hb' : unit * |s + p| ≤ 3 * (unit * M) := by nlinarith
  have t1 := abs_add_le (s - zs.sum / n) (p - z / n)
  have t2 := abs_add_le (fadd s p - (s + p)) ((s - zs.sum / n) + (p - z / n))
  have t3 : fadd s p - (s + p) + ((s - zs.sum / n) + (p - z / n)) = fadd s p - (zs.sum + z) / n := by ring
  rw [t3] at t2
  have t4 : (2 * (n : ℚ) + 12) * (unit * M) = n * (2 * (unit * M)) + 12 * (unit * M) := by ring
  rw [t4]
  linarith

theorem spread_sum_close {f g : ℚ → ℚ} {b : ℚ} : ∀ (l : List ℚ), (∀ x ∈ l, |f x - g x| ≤ b) → |(l.map f).sum - (l.map g).sum| ≤ l.length * b := by
  intro l
  induction l with
  | nil => simp
  | cons a l ih =>
    intro hl
    have h1 := ih (fun y hy => hl y (by simp [hy]))
    have h2 := abs_add_le (f a - g a) ((l.map f).sum - (l.map g).sum)
    have h3 := hl a (by simp)
    simp only [List.map_cons, List.sum_cons, List.length_cons]
    have h4 : f a + (l.map f).sum - (g a + (l.map g).sum) = f a - g a + ((l.map f).sum - (l.map g).sum) := by ring
    rw [h4]
    push_cast
    linarith

/-- C118.  The number reported is the sample variance up to `(40 n + 300) 2^-53 M^2`. -/
theorem c118_accurate {sq : ℚ → ℚ} (hsq : SquaresWell sq) {M : ℚ} (hM : 1 ≤ M) {xs : List ℚ} (h2 : 2 ≤ xs.length) (hn : xs.length ≤ 2 ^ 40)
    (hx : ∀ x ∈ xs, IsDouble x ∧ |x| ≤ M) :
    |spreadReturn sq xs - sampleVariance xs| ≤ (40 * xs.length + 300) * (unit * M ^ 2) := by
  have hu := unit_pos
  have hus := unit_small
  have hut : 2 * tiny ≤ unit := by
    have := tiny_le
    have t1 : unit * unit * unit * unit ≤ 1 / 1000000 * (1 / 1000000) * (1 / 1000000) * unit := by gcongr
    linarith
  have hne : xs ≠ [] := by rintro rfl; simp at h2
  set n := xs.length with hnd
  have hnq : (n : ℚ) ≤ 2 ^ 40 := by exact_mod_cast hn
  have hn2 : (2 : ℚ) ≤ n := by exact_mod_cast h2
  have hnu : (n : ℚ) * unit ≤ 1 / 8192 := by rw [unit_eq]; nlinarith
  have em := meanReturn_err hM hne (by omega) (fun x h => (hx x h).2)
  rw [← hnd] at em
  have hmd : IsDouble (meanReturn xs) := isDouble_foldAdd xs isDouble_zero
  have hmu : |xs.sum / n| ≤ M := by
    have hnp : (0 : ℚ) < n := by linarith
    rw [abs_div, abs_of_pos hnp, div_le_iff₀ hnp]
    have h1 := spread_sum_close (f := fun x => x) (g := fun _ => 0) (b := M) xs (fun x h => by simpa using (hx x h).2)
    simp only [List.map_id', List.map_const', List.sum_replicate, smul_zero, sub_zero] at h1
    linarith
  set m := meanReturn xs with hmdef
  set μ := xs.sum / n with hμ
  have key : ∀ x ∈ xs, |sq (fsub x m) - (x - μ) ^ 2| ≤ (10 * n + 90) * (unit * M ^ 2) ∧ |sq (fsub x m)| ≤ 10 * M ^ 2 := by
    intro x hxm
    obtain ⟨hxd, hxM⟩ := hx x hxm
    have e1 := fsub_err hxd hmd
    have b1 : |m| ≤ 2 * M := by
      have t1 := abs_add_le (m - μ) μ
      rw [sub_add_cancel] at t1
      have : (2 * (n : ℚ) + 4) * (unit * M) ≤ M := by nlinarith
      linarith
    have b2 : |x - m| ≤ 3 * M := by
      have := abs_sub x m
      linarith
    set d := fsub x m with hd
    set e := x - μ with he
    have hde : |d - e| ≤ (2 * n + 7) * (unit * M) := by
      have t1 := abs_add_le (d - (x - m)) (μ - m)
      have t2 : d - (x - m) + (μ - m) = d - e := by rw [he]; ring
      rw [t2, abs_sub_comm μ m] at t1
      have t3 : unit * |x - m| ≤ unit * (3 * M) := mul_le_mul_of_nonneg_left b2 hu.le
      linarith
    have heM : |e| ≤ 2 * M := by
      have := abs_sub x μ
      linarith
    have hsm : (2 * (n : ℚ) + 7) * (unit * M) ≤ 1 / 10 * M := by nlinarith
    have hdM : |d| ≤ 21 / 10 * M := by
      have t1 := abs_add_le (d - e) e
      rw [sub_add_cancel] at t1
      linarith
    have hdM2 : d ^ 2 ≤ 9 / 2 * M ^ 2 := by
      rw [← sq_abs]
      have : |d| ^ 2 ≤ (21 / 10 * M) ^ 2 := by gcongr
      nlinarith
    obtain ⟨s0, s1⟩ := hsq d (isDouble_fl _)
    have hM2 : 1 ≤ M ^ 2 := by nlinarith
    have huM2 : unit ≤ unit * M ^ 2 := by nlinarith
    have s2 : |sq d - d ^ 2| ≤ 19 * (unit * M ^ 2) := by
      have : 4 * unit * d ^ 2 ≤ 4 * unit * (9 / 2 * M ^ 2) := mul_le_mul_of_nonneg_left hdM2 (by positivity)
      linarith
    have s3 : |d ^ 2 - e ^ 2| ≤ (10 * n + 35) * (unit * M ^ 2) := by
      have t1 : d ^ 2 - e ^ 2 = (d - e) * (d + e) := by ring
      rw [t1, abs_mul]
      have t2 := abs_add_le d e
      have t3 : |d - e| * |d + e| ≤ ((2 * n + 7) * (unit * M)) * (5 * M) := mul_le_mul hde (by linarith) (abs_nonneg _) (by positivity)
      refine le_trans t3 (le_of_eq ?_)
      ring
    constructor
    · have t1 := abs_add_le (sq d - d ^ 2) (d ^ 2 - e ^ 2)
      rw [sub_add_sub_cancel] at t1
      have : (10 * (n : ℚ) + 90) * (unit * M ^ 2) = (10 * n + 35) * (unit * M ^ 2) + 55 * (unit * M ^ 2) := by ring
      have : 0 < unit * M ^ 2 := by positivity
      linarith
    · rw [abs_of_nonneg s0]
      have t1 := (abs_le.1 s2).2
      have : unit * M ^ 2 ≤ 1 / 1000000 * M ^ 2 := mul_le_mul_of_nonneg_right hus (by positivity)
      nlinarith
  have hn1 : ((n - 1 : Nat) : ℚ) = n - 1 := by rw [Nat.cast_sub (by omega), Nat.cast_one]
  have hM2 : 1 ≤ M ^ 2 := by nlinarith
  have hsum := spread_sum_close (f := fun x => sq (fsub x m)) (g := fun x => (x - μ) ^ 2) xs (fun x h => (key x h).1)
  rw [← hnd] at hsum
  have hfold := weightedAdd_err (n := n - 1) (by omega) (by omega) (M := 10 * M ^ 2) (by linarith) (ys := xs.map fun x => sq (fsub x m))
    (by rw [List.length_map, ← hnd]; omega) (by
      intro y hy
      obtain ⟨x, hxm, rfl⟩ := List.mem_map.1 hy
      exact (key x hxm).2)
  have hdef : spreadReturn sq xs =
      (xs.map fun x => sq (fsub x m)).foldl (fun s v => fadd s (fmul (fdiv 1 (fl ((n - 1 : Nat) : ℚ))) v)) 0 := by
    unfold spreadReturn
    simp only
    rw [← hnd, pred_length_fl h2 (by omega), ← hmdef]
    exact foldAdd_map (f := fun v => fmul (fdiv 1 (fl ((n - 1 : Nat) : ℚ))) v) (g := fun x => sq (fsub x m)) xs 0
  rw [← hdef, hn1] at hfold
  have hvar : sampleVariance xs = (xs.map fun x => (x - μ) ^ 2).sum / (n - 1) := rfl
  rw [hvar]
  have hp : (0 : ℚ) < n - 1 := by linarith
  have hq : |(xs.map fun x => sq (fsub x m)).sum / ((n : ℚ) - 1) - (xs.map fun x => (x - μ) ^ 2).sum / (n - 1)| ≤
      2 * ((10 * n + 90) * (unit * M ^ 2)) := by
    rw [← sub_div, abs_div, abs_of_pos hp, div_le_iff₀ hp]
    have : 0 ≤ (10 * (n : ℚ) + 90) * (unit * M ^ 2) := by positivity
    nlinarith
  have t := abs_sub_le (spreadReturn sq xs) ((xs.map fun x => sq (fsub x m)).sum / ((n : ℚ) - 1)) ((xs.map fun x => (x - μ) ^ 2).sum / (n - 1))
  have t1 : (2 * ((n : ℚ) - 1) + 12) * (unit * (10 * M ^ 2)) + 2 * ((10 * n + 90) * (unit * M ^ 2)) = (40 * n + 280) * (unit * M ^ 2) := by ring
  have t2 : (40 * (n : ℚ) + 300) * (unit * M ^ 2) = (40 * n + 280) * (unit * M ^ 2) + 20 * (unit * M ^ 2) := by ring
  have t3 : 0 < unit * M ^ 2 := by positivity
  linarith

/-- **Not exact.**  Nine returns of 1: the mean reported is above every return, and the spread is not zero. -/
theorem c118_equal_false : 1 < meanReturn (List.replicate 9 1) ∧ sampleVariance (List.replicate 9 1) = 0 ∧
    0 < spreadReturn (fun d => fmul d d) (List.replicate 9 1) := by decide +kernel

/-- Six returns of 1: the mean reported is below every return. -/
theorem c118_below_false : meanReturn (List.replicate 6 1) < 1 := by decide +kernel

/-- C118, what holds of equal returns: the mean is that return up to `(2 n + 4) 2^-53 M`, and the spread is zero up to `(40 n + 300) 2^-53 M^2`.
Missing: exactness (`c118_equal_false`). -/
theorem c118_equal_partial {sq : ℚ → ℚ} (hsq : SquaresWell sq) {M x : ℚ} (hM : 1 ≤ M) {n : Nat} (h2 : 2 ≤ n) (hn : n ≤ 2 ^ 40) (hx : IsDouble x ∧ |x| ≤ M) :
    |meanReturn (List.replicate n x) - x| ≤ (2 * n + 4) * (unit * M) ∧ 0 ≤ spreadReturn sq (List.replicate n x) ∧
      spreadReturn sq (List.replicate n x) ≤ (40 * n + 300) * (unit * M ^ 2) := by
  have hn0 : (n : ℚ) ≠ 0 := by exact_mod_cast (by omega : n ≠ 0)
  have hmean : (List.replicate n x).sum / (n : ℚ) = x := by
    rw [List.sum_replicate, nsmul_eq_mul, mul_div_cancel_left₀ _ hn0]
  have hall : ∀ y ∈ List.replicate n x, IsDouble y ∧ |y| ≤ M := fun y hy => by rw [List.eq_of_mem_replicate hy]; exact hx
  have h1 := meanReturn_err hM (xs := List.replicate n x) (by simp; omega) (by simp; omega) (fun y hy => (hall y hy).2)
  rw [List.length_replicate, hmean] at h1
  have h3 := c118_accurate hsq hM (xs := List.replicate n x) (by simpa using h2) (by simpa using hn) hall
  have h4 : sampleVariance (List.replicate n x) = 0 := by
    unfold sampleVariance
    rw [List.length_replicate, hmean, List.map_replicate]
    simp
  rw [h4, sub_zero, List.length_replicate] at h3
  exact ⟨h1, c118_nonneg hsq (by simpa using h2), (abs_le.1 h3).2⟩

theorem exact_fold {k : Nat} (hk : k ≤ 1074) : ∀ (zs : List ℤ) (m : ℤ) {b : ℤ}, (∀ z ∈ zs, |z| ≤ b) → |m| + zs.length * b ≤ 2 ^ 53 →
    (zs.map fun z : ℤ => (z : ℚ)).foldl (fun s v => fadd s (fmul (2 ^ (-(k : ℤ))) v)) (m * 2 ^ (-(k : ℤ))) = (m + zs.sum : ℤ) * 2 ^ (-(k : ℤ)) := by
  intro zs
  induction zs with
  | nil => intro m b _ _; simp
  | cons z zs ih =>
    intro m b hz hb
    have hb0 : 0 ≤ b := le_trans (abs_nonneg _) (hz z (by simp))
    have h1 := hz z (by simp)
    have h2 := abs_add_le m z
    simp only [List.length_cons] at hb
    push_cast at hb
    have h3 : 0 ≤ (zs.length : ℤ) * b := mul_nonneg (by positivity) hb0
    have h4 := abs_nonneg m
    have hp : fmul (2 ^ (-(k : ℤ))) (z : ℚ) = z * 2 ^ (-(k : ℤ)) := by
      unfold fmul
      rw [mul_comm]
      exact fl_exact (by linarith) (by omega)
    have hs : fadd ((m : ℚ) * 2 ^ (-(k : ℤ))) (z * 2 ^ (-(k : ℤ))) = ((m + z : ℤ) : ℚ) * 2 ^ (-(k : ℤ)) := by
      unfold fadd
      rw [← add_mul, ← Int.cast_add]
      exact fl_exact (by linarith) (by omega)
    rw [List.map_cons, List.foldl_cons, hp, hs, ih (m + z) (fun y hy => hz y (by simp [hy])) (by linarith), List.sum_cons, add_assoc]

/-- C118, when the mean is exact: `2^k` returns that are integers of size at most `b`, with `2^k b` at most `2^53` (for example wins and losses). -/
theorem c118_exact_mean_partial {k : Nat} {b : ℤ} {zs : List ℤ} (hl : zs.length = 2 ^ k) (hz : ∀ z ∈ zs, |z| ≤ b) (hb : 2 ^ k * b ≤ 2 ^ 53) (hk : k ≤ 53) :
    meanReturn (zs.map fun z : ℤ => (z : ℚ)) = (zs.sum : ℚ) / 2 ^ k := by
  have hw : fdiv 1 (fl (((zs.map fun z : ℤ => (z : ℚ)).length : Nat) : ℚ)) = 2 ^ (-(k : ℤ)) := by
    rw [List.length_map, hl]
    have h1 : fl (((2 ^ k : Nat)) : ℚ) = ((2 ^ k : Nat) : ℚ) := isDouble_nat (Nat.pow_le_pow_right (by norm_num) hk)
    rw [h1]
    unfold fdiv
    have h2 : (1 : ℚ) / ((2 ^ k : Nat) : ℚ) = 2 ^ (-(k : ℤ)) := by
      rw [zpow_neg, zpow_natCast]; push_cast; rw [one_div]
    rw [h2]
    exact fl_two_zpow (by omega)
  unfold meanReturn
  simp only
  rw [hw]
  have h := exact_fold (k := k) (by omega) zs 0 hz (by rw [hl]; push_cast; simpa using hb)
  rw [Int.cast_zero, zero_mul, zero_add] at h
  rw [h, zpow_neg, zpow_natCast, div_eq_mul_inv]

/-- C118, when equal returns have no spread. -/
theorem c118_exact_equal_partial {sq : ℚ → ℚ} (h0 : sq 0 = 0) {k : Nat} {z : ℤ} (hb : 2 ^ k * |z| ≤ 2 ^ 53) (hk : k ≤ 53) :
    meanReturn (List.replicate (2 ^ k) (z : ℚ)) = z ∧ spreadReturn sq (List.replicate (2 ^ k) (z : ℚ)) = 0 := by
  have hm : meanReturn (List.replicate (2 ^ k) (z : ℚ)) = z := by
    have := c118_exact_mean_partial (zs := List.replicate (2 ^ k) z) (b := |z|) (by simp) (fun y hy => by rw [List.eq_of_mem_replicate hy]) hb hk
    rw [List.map_replicate] at this
    rw [this, List.sum_replicate, nsmul_eq_mul]
    push_cast
    rw [mul_div_cancel_left₀ _ (by positivity)]
  refine ⟨hm, ?_⟩
  unfold spreadReturn
  simp only
  rw [hm]
  have : ∀ (n : Nat) (w : ℚ), (List.replicate n (z : ℚ)).foldl (fun s v => fadd s (fmul w (sq (fsub v z)))) 0 = 0 := by
    intro n w
    induction n with
    | zero => rfl
    | succ n ih =>
      have h1 : fsub (z : ℚ) z = 0 := by unfold fsub; rw [sub_self, fl_zero]
      have h2 : fadd 0 (fmul w 0) = 0 := by unfold fadd fmul; rw [mul_zero, fl_zero, add_zero, fl_zero]
      rw [List.replicate_succ, List.foldl_cons, h1, h0, h2]
      exact ih
  exact this _ _

example : (2 : ℤ) ^ 10 * |1| ≤ 2 ^ 53 ∧ (fun d : ℚ => fmul d d) 0 = 0 := by decide +kernel

/-- C118.  The return of a rollout of `L` moves is the sum of its rewards up to `L (L+3) 2^-53 r`. -/
theorem c118_return {r : ℚ} (hr : 0 ≤ r) {rewards : List ℚ} (hx : ∀ x ∈ rewards, IsDouble x ∧ |x| ≤ r) (hl : rewards.length ≤ 2 ^ 51) :
    IsDouble (rolloutReturn rewards) ∧ |rolloutReturn rewards - rewards.sum| ≤ rewards.length * (rewards.length + 3) * (unit * r) := by
  have h := Props.c84_return (hv := 0) (r := r) isDouble_zero (by simpa using hr) (rewards := rewards.reverse) (by simpa using hx) (by simpa using hl)
  have he : returnAfter 0 rewards.reverse = rolloutReturn rewards := by
    unfold returnAfter rolloutReturn
    rw [List.foldr_reverse]
  rw [he, List.sum_reverse, add_zero, List.length_reverse] at h
  exact h

/-- C118.  The mean reported for `n` rollouts of at most `L` moves is the mean of the exact sums of their rewards, up to both rounding errors. -/
theorem c118_mean_of_rollouts {r M : ℚ} {L : Nat} (hr : 0 ≤ r) (hM : 1 ≤ M) {rolls : List (List ℚ)} (h0 : rolls ≠ []) (hn : rolls.length ≤ 2 ^ 50) (hL : L ≤ 2 ^ 51)
    (hlen : ∀ t ∈ rolls, t.length ≤ L) (hx : ∀ t ∈ rolls, ∀ x ∈ t, IsDouble x ∧ |x| ≤ r) (hb : 2 * (L + 1) * r ≤ M) :
    |meanReturn (rolls.map rolloutReturn) - exactMean (rolls.map List.sum)| ≤ L * (L + 3) * (unit * r) + (2 * rolls.length + 4) * (unit * M) := by
  have hu := unit_pos
  have hLq : (0 : ℚ) ≤ L := by positivity
  have hret : ∀ t ∈ rolls, |rolloutReturn t - t.sum| ≤ L * (L + 3) * (unit * r) ∧ |rolloutReturn t| ≤ M := by
    intro t ht
    have hl : (t.length : ℚ) ≤ L := by exact_mod_cast hlen t ht
    have hl0 : (0 : ℚ) ≤ t.length := by positivity
    have hur : 0 ≤ unit * r := mul_nonneg hu.le hr
    have h1 : |rolloutReturn t - t.sum| ≤ L * (L + 3) * (unit * r) := by
      refine le_trans (c118_return hr (hx t ht) (le_trans (hlen t ht) hL)).2 ?_
      gcongr
    refine ⟨h1, ?_⟩
    have h2 := spread_sum_close (f := fun x => x) (g := fun _ => 0) (b := r) t (fun x h => by simpa using (hx t ht x h).2)
    simp only [List.map_id', List.map_const', List.sum_replicate, smul_zero, sub_zero] at h2
    have h3 := abs_add_le (rolloutReturn t - t.sum) t.sum
    rw [sub_add_cancel] at h3
    have h4 : (t.length : ℚ) * r ≤ L * r := mul_le_mul_of_nonneg_right hl hr
    have hLu : (L : ℚ) * unit ≤ 1 / 4 := by
      have : (L : ℚ) ≤ 2 ^ 51 := by exact_mod_cast hL
      rw [unit_eq]; linarith
    have h5 : (L : ℚ) * (L + 3) * (unit * r) = (L * unit) * ((L + 3) * r) := by ring
    have h6 : (L * unit : ℚ) * ((L + 3) * r) ≤ 1 / 4 * ((L + 3) * r) := mul_le_mul_of_nonneg_right hLu (by positivity)
    have h7 : 0 ≤ (L : ℚ) * r := mul_nonneg hLq hr
    linarith
  have h1 := Props.c84_mean hM (xs := rolls.map rolloutReturn) (by simpa using h0) (by simpa using hn) (by
    intro x hx
    obtain ⟨t, ht, rfl⟩ := List.mem_map.1 hx
    exact (hret t ht).2)
  rw [List.length_map] at h1
  have h2 := Props.mean_close (f := rolloutReturn) (g := List.sum) h0 fun t ht => (hret t ht).1
  have h3 := abs_sub_le (meanReturn (rolls.map rolloutReturn)) (exactMean (rolls.map rolloutReturn)) (exactMean (rolls.map List.sum))
  linarith

/-- Non-vacuity: rollouts that meet the conditions and whose mean on doubles is not the exact one. -/
example : (∀ t ∈ [[fl (1 / 10), fl (2 / 10)], [fl (7 / 10)]], t.length ≤ 2 ∧ ∀ x ∈ t, IsDouble x ∧ |x| ≤ 1) ∧
    meanReturn ([[fl (1 / 10), fl (2 / 10)], [fl (7 / 10)]].map rolloutReturn) ≠ exactMean ([[fl (1 / 10), fl (2 / 10)], [fl (7 / 10)]].map List.sum) := by
  decide +kernel

/-- The product of a number with itself is a square in the sense of `SquaresWell`. -/
theorem squaresWell_mul : SquaresWell fun d => fmul d d := by
  intro d _
  refine ⟨fl_nonneg (mul_self_nonneg d), ?_⟩
  have := fl_err' (d * d)
  rw [abs_of_nonneg (mul_self_nonneg d)] at this
  have h1 : 0 ≤ unit * (d * d) := mul_nonneg unit_pos.le (mul_self_nonneg d)
  have h2 := tiny_pos
  unfold fmul
  rw [pow_two]
  linarith

/-- Non-vacuity: returns that meet the conditions and whose spread on doubles is not the exact one. -/
example : (∀ x ∈ [fl (1 / 10), fl (2 / 10), fl (6 / 10)], IsDouble x ∧ |x| ≤ 1) ∧
    spreadReturn (fun d => fmul d d) [fl (1 / 10), fl (2 / 10), fl (6 / 10)] ≠ sampleVariance [fl (1 / 10), fl (2 / 10), fl (6 / 10)] := by
  decide +kernel

end Verif.Fp
