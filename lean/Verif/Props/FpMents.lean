import Verif.Proofs.FpExp

/-!
# C85: the search policy of MENTS in floating point
-/

namespace Verif.Props

open Verif.Fp
open Verif.Sampling (Draw)

variable {K : Type}

/-- C85, the policy: with an `exp` of relative error `α`, and soft values divided by the temperature between `-B` and `B`, every probability is that of the mixture of
softmax and the uniform policy in real numbers, up to `(3 n + 9 + 48 B) 2^-53 + 8 α`. -/
theorem c85_policy {ex : ℚ → ℚ} (hex : GoodExp ex) {α : ℝ} (hacc : Accurate ex α) (hα0 : 0 ≤ α) (hα : α ≤ 1 / 100) {temp low lam B : ℚ} {qs : List (K × ℚ)}
    (h0 : qs ≠ []) (hlow : ∀ p ∈ qs, low ≤ fdiv p.2 temp) (hn : qs.length ≤ 1000) (hl : IsDouble lam) (hl0 : 0 ≤ lam) (hl1 : lam ≤ 1)
    (hB : 1 ≤ B) (hB2 : B ≤ 10 ^ 6) (hq : ∀ p ∈ qs, |p.2 / temp| ≤ B) :
    ∃ prob : K × ℚ → ℚ, mixture lam (actionWeights ex temp low qs) = qs.map (fun p => (p.1, prob p)) ∧
      ∀ p ∈ qs, |(prob p : ℝ) - softMix lam temp qs p.2| ≤ (3 * qs.length + 9 + 48 * B) * unit + 8 * α :=
  policy_err hex hacc hα0 hα h0 hlow hn hl hl0 hl1 hB hB2 hq

/-- C85, selecting, as far as it holds: with enough exploration an action of the node is selected for every draw below `1 - (5 n + 9) 2^-53`, and for every draw
the sampled key is an action whose segment of `[0, 1]` contains the draw, up to rounding. Missing: no exploration, and draws next to one. -/
theorem c85_select_partial {ex : ℚ → ℚ} (hex : GoodExp ex) {temp low lam : ℚ} {qs : List (K × ℚ)} (h0 : qs ≠ []) (hlow : ∀ p ∈ qs, low ≤ fdiv p.2 temp)
    (hn : qs.length ≤ 800) (hl : IsDouble lam) (hl1 : lam ≤ 1) (hbig : qs.length * (6 * qs.length + 12) * unit ≤ lam)
    {iter : List (K × ℚ) → List (K × ℚ)} (hiter : ∀ l, (iter l).Perm l) {u : ℚ} (hu0 : 0 ≤ u) :
    selectMents ex temp low lam iter qs u ≠ .tooMuch ∧
    (u < 1 - (5 * qs.length + 9) * unit → ∃ a, selectMents ex temp low lam iter qs u = .key a ∧ a ∈ qs.map Prod.fst) ∧
    ∀ a, selectMents ex temp low lam iter qs u = .key a → ∃ pre w post,
      iter (mixture lam (actionWeights ex temp low qs)) = pre ++ (a, w) :: post ∧
      mass pre - 2 * qs.length * unit ≤ u ∧ u < mass pre + w + 2 * qs.length * unit := by
  obtain ⟨h1, h2, h3⟩ := selectMents_spec hex h0 hlow hn hl hl1 hbig hiter hu0
  refine ⟨h1, fun hu => ?_, h3⟩
  have h2 := h2 hu
  cases hs : selectMents ex temp low lam iter qs u with
  | tooMuch => exact absurd hs h1
  | tooLittle => exact absurd hs h2
  | key a =>
    refine ⟨a, rfl, ?_⟩
    obtain ⟨pre, w, post, e, -⟩ := h3 a hs
    have hm : (a, w) ∈ mixture lam (actionWeights ex temp low qs) := (hiter _).mem_iff.1 (by rw [e]; simp)
    unfold mixture mixtureW actionWeights at hm
    simp only [List.map_map, List.mem_map, Function.comp, Prod.mk.injEq] at hm
    obtain ⟨p, hp, e, -⟩ := hm
    exact List.mem_map.2 ⟨p, hp, e⟩

/-- Non-vacuity: an `exp` for the examples. -/
theorem goodExp_step : GoodExp fun x => if x = 0 then 1 else 1 / 2 := by
  refine ⟨fun x => ?_, fun x => ?_, fun x _ => ?_, by simp⟩ <;> split_ifs <;> first | decide +kernel | norm_num

example : ∃ a, selectMents (fun x => if x = 0 then 1 else 1 / 2) 1 (-1000) (fl (1 / 10)) id [("a", 1), ("b", 2), ("c", fl (1 / 3))] (9 / 10) = .key a ∧ a ∈ ["a", "b", "c"] :=
  (c85_select_partial goodExp_step (by simp) (by decide +kernel) (by decide) (isDouble_fl _) (by decide +kernel) (by rw [unit_eq]; decide +kernel) (fun _ => .refl _)
    (by norm_num)).2.1 (by rw [unit_eq]; norm_num)

/-- Non-vacuity: there is an `exp` that satisfies both assumptions. -/
theorem exp_exists : ∃ ex, GoodExp ex ∧ Accurate ex (1 / 100) := by
  have hr : ∀ x : ℚ, ∃ r : ℚ, x < 0 → Real.exp x * (1 - 1 / 1000) < r ∧ (r : ℝ) < Real.exp x := by
    intro x
    have hp := Real.exp_pos (x : ℝ)
    obtain ⟨r, h1, h2⟩ := exists_rat_btwn (show Real.exp (x : ℝ) * (1 - 1 / 1000) < Real.exp x by linarith)
    exact ⟨r, fun _ => ⟨h1, h2⟩⟩
  choose r hr using hr
  have hpos : ∀ x : ℚ, x < 0 → 0 < r x := by
    intro x hx
    have := (hr x hx).1
    have hp := Real.exp_pos (x : ℝ)
    have h2 : (0 : ℝ) < r x := by linarith
    exact_mod_cast h2
  have hle : ∀ x : ℚ, x < 0 → r x ≤ 1 := by
    intro x hx
    have h1 : Real.exp (x : ℝ) ≤ 1 := Real.exp_le_one_iff.2 (by exact_mod_cast hx.le)
    have h2 : (r x : ℝ) ≤ 1 := by linarith [(hr x hx).2]
    exact_mod_cast h2
  refine ⟨fun x => if x < 0 then fl (r x) else 1, ⟨fun x => ?_, fun x => ?_, fun x _ => ?_, by simp⟩, fun x hx _ => ?_⟩
  · beta_reduce
    split_ifs
    · exact isDouble_fl _
    · decide +kernel
  · beta_reduce
    split_ifs with h
    · exact fl_nonneg (hpos x h).le
    · norm_num
  · beta_reduce
    split_ifs with h
    · exact fl_le (by decide +kernel) (hle x h)
    · norm_num
  · beta_reduce
    split_ifs with h
    · obtain ⟨h1, h2⟩ := hr x h
      have e := cast_abs_le (fl_err' (r x))
      have h0 : (0 : ℝ) < r x := by exact_mod_cast hpos x h
      have hu : (unit : ℝ) ≤ 1 / 1000 := by
        have : unit ≤ 1 / 1000 := by rw [unit_eq]; norm_num
        have := (Rat.cast_le (K := ℝ)).2 this
        push_cast at this
        exact this
      push_cast at e
      rw [abs_of_pos h0] at e
      have h3 : (unit : ℝ) * r x ≤ 1 / 1000 * r x := mul_le_mul_of_nonneg_right hu h0.le
      have h4 := abs_le.1 e
      rw [abs_le]
      constructor <;> linarith
    · have : x = 0 := le_antisymm hx (not_lt.1 h)
      subst this
      have ht : (0 : ℝ) < tiny := by exact_mod_cast tiny_pos
      simp
      linarith

/-- Non-vacuity of `c85_policy`: three actions. -/
example : ∃ ex, ∃ prob : String × ℚ → ℚ, mixture (1 / 2) (actionWeights ex 2 (-1000) [("a", 1), ("b", 2), ("c", -3)]) = [("a", 1), ("b", 2), ("c", -3)].map (fun p => (p.1, prob p)) ∧
    |(prob ("b", 2) : ℝ) - softMix (1 / 2) 2 [("a", 1), ("b", 2), ("c", -3)] 2| ≤ (3 * 3 + 9 + 48 * (2 : ℚ)) * unit + 8 * (1 / 100) := by
  obtain ⟨ex, h1, h2⟩ := exp_exists
  obtain ⟨prob, h3, h4⟩ := c85_policy (lam := 1 / 2) (temp := 2) (low := -1000) (B := 2) (qs := [("a", 1), ("b", 2), ("c", -3)]) h1 h2 (by norm_num) (by norm_num) (by simp)
    (by decide +kernel) (by decide) (by decide +kernel) (by norm_num) (by norm_num) (by norm_num) (by norm_num) (by decide +kernel)
  exact ⟨ex, prob, h3, h4 ("b", 2) (by simp)⟩

/-- `exp(-36.75)` is between `1e-16`, the bound below which actions are removed, and `2^-53`. -/
theorem exp_window : 109 / 10 ^ 18 < Real.exp (-(147 / 4)) ∧ Real.exp (-(147 / 4)) < 1098 / 10 ^ 19 := by
  have e : Real.exp (-(147 / 4)) ^ 4 * Real.exp 1 ^ 147 = 1 := by
    rw [← Real.exp_nat_mul, ← Real.exp_nat_mul, ← Real.exp_add]
    norm_num
  have h1 := Real.exp_one_gt_d9
  have h2 := Real.exp_one_lt_d9
  have hp := Real.exp_pos (-(147 / 4))
  have b1 : (2.7182818283 : ℝ) ^ 147 ≤ Real.exp 1 ^ 147 := pow_le_pow_left₀ (by norm_num) h1.le _
  have b2 : Real.exp 1 ^ 147 ≤ (2.7182818286 : ℝ) ^ 147 := pow_le_pow_left₀ (Real.exp_pos _).le h2.le _
  generalize Real.exp (-(147 / 4)) = y at *
  generalize Real.exp 1 ^ 147 = E at *
  constructor
  · by_contra hc
    have h3 : y ^ 4 ≤ (109 / 10 ^ 18) ^ 4 := pow_le_pow_left₀ hp.le (not_lt.1 hc) _
    have h4 : y ^ 4 * E ≤ (109 / 10 ^ 18) ^ 4 * (2.7182818286 : ℝ) ^ 147 := mul_le_mul h3 b2 (le_trans (by positivity) b1) (by positivity)
    rw [e] at h4
    norm_num at h4
  · by_contra hc
    have h3 : ((1098 : ℝ) / 10 ^ 19) ^ 4 ≤ y ^ 4 := pow_le_pow_left₀ (by norm_num) (not_lt.1 hc) _
    have h4 : ((1098 : ℝ) / 10 ^ 19) ^ 4 * (2.7182818283 : ℝ) ^ 147 ≤ y ^ 4 * E := mul_le_mul h3 b1 (by positivity) (by positivity)
    rw [e] at h4
    norm_num at h4

/-- C85 is false without exploration: with `epsilon = 0`, temperature one and two actions of soft values `0` and `-36.75`, for every `exp` with relative error at most
one percent, no draw selects an action: the search throws "somehow got to cumulative probability of more than 1.0" in every trial. -/
theorem c85_gap_false {ex : ℚ → ℚ} (hex : GoodExp ex) (hacc : Accurate ex (1 / 100)) {low : ℚ} (hlow : low ≤ -1000) (u : ℚ) :
    exploreProb 0 1 1 = 0 ∧ selectMents ex 1 low (exploreProb 0 1 1) id [("best", 0), ("other", -147 / 4)] u = .tooMuch := by
  have h0 : exploreProb 0 1 1 = 0 := by decide +kernel
  refine ⟨h0, ?_⟩
  rw [h0]
  have d0 : fdiv 0 1 = 0 := by decide +kernel
  have d1 : fdiv (-147 / 4) 1 = -147 / 4 := by decide +kernel
  have s0 : fsub 0 0 = 0 := by decide +kernel
  have s1 : fsub (-147 / 4) 0 = -147 / 4 := by decide +kernel
  have hN : normTerm 1 low [("best", (0 : ℚ)), ("other", -147 / 4)] = 0 := by
    unfold normTerm
    simp only [List.foldl_cons, List.foldl_nil, d0, d1]
    rw [if_pos (show low < 0 by linarith), if_neg (by norm_num)]
  have hw : actionWeights ex 1 low [("best", (0 : ℚ)), ("other", -147 / 4)] = [("best", 1), ("other", ex (-147 / 4))] := by
    unfold actionWeights
    rw [hN]
    simp only [List.map_cons, List.map_nil, d0, d1, s0, s1, hex.zero]
  have hwin : EPS16 ≤ ex (-147 / 4) ∧ ex (-147 / 4) < unit := by
    have h1 := hacc (-147 / 4) (by norm_num) (by decide +kernel)
    obtain ⟨w1, w2⟩ := exp_window
    have e1 : (((-147 / 4 : ℚ)) : ℝ) = -(147 / 4) := by push_cast; ring
    rw [e1] at h1
    have ht : (tiny : ℝ) ≤ 1 / 10 ^ 40 := by
      have : tiny ≤ 1 / 10 ^ 40 := by
        refine le_trans tiny_le ?_
        rw [unit_eq]; norm_num
      have := (Rat.cast_le (K := ℝ)).2 this
      push_cast at this
      exact this
    have h2 := abs_le.1 h1
    constructor
    · have hE : EPS16 ≤ 107 / 10 ^ 18 := by decide +kernel
      refine le_trans hE ?_
      rw [← Rat.cast_le (K := ℝ)]
      push_cast
      linarith
    · have hE : (111 / 10 ^ 18 : ℚ) < unit := by rw [unit_eq]; norm_num
      refine lt_trans ?_ hE
      rw [← Rat.cast_lt (K := ℝ)]
      push_cast
      linarith
  obtain ⟨wl, wh⟩ := hwin
  have wd := hex.dbl (-147 / 4)
  have w0 := hex.nonneg (-147 / 4)
  unfold selectMents actionDistr
  rw [hw]
  generalize ex (-147 / 4) = w at *
  have hsum : fadd 1 w = 1 := by
    unfold fadd
    rw [unit_eq] at wh
    have := fl_near (m := 2 ^ 52) (e := -52) (x := 1 + w) (by norm_num; linarith) (by norm_num; linarith) (by norm_num)
      (by norm_num; rw [abs_of_nonneg w0]; linarith)
    rw [this]; norm_num
  have hmix : mixture 0 [("best", (1 : ℚ)), ("other", w)] = [("best", 1), ("other", w)] := by
    unfold mixture mixtureW sumWeights
    have e1 : fadd 0 1 = 1 := by decide +kernel
    have e2 : fsub 1 0 = 1 := by decide +kernel
    have e3 : fdiv 1 1 = 1 := by decide +kernel
    have e4 : fmul 1 1 = 1 := by decide +kernel
    have e5 : fmul w 1 = w := by unfold fmul; rw [mul_one]; exact wd
    have e6 : ∀ x, fmul 0 x = 0 := fun x => by unfold fmul; rw [zero_mul, fl_zero]
    have e7 : fadd 1 0 = 1 := by decide +kernel
    simp only [List.foldl_cons, List.foldl_nil, List.map_cons, List.map_nil, e1, hsum, e2, e3, e4, e5, e6, e7, fadd_zero wd]
  rw [hmix]
  have hf : List.filter (fun p : String × ℚ => decide ¬ p.2 < EPS16) [("best", 1), ("other", w)] = [("best", 1), ("other", w)] := by
    have e1 : ¬ (1 : ℚ) < EPS16 := by decide +kernel
    simp [not_lt.1 e1, wl]
  rw [hf]
  have h1 : fadd 0 (fdiv 1 1) = 1 := by decide +kernel
  unfold sampleFrom
  simp only [if_true, id]
  rw [sampleLoop, h1]
  simp

example : ∃ ex, selectMents ex 1 (-1000) 0 id [("best", 0), ("other", -147 / 4)] (1 / 2) = .tooMuch := by
  obtain ⟨ex, h1, h2⟩ := exp_exists
  have h := c85_gap_false h1 h2 (le_refl (-1000 : ℚ)) (1 / 2)
  rw [h.1] at h
  exact ⟨ex, h.2⟩

end Verif.Props
