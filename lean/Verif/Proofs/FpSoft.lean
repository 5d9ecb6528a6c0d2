import Verif.Proofs.FpExp

/-!
# Error of the soft value of MENTS
-/

namespace Verif.Fp

variable {K : Type}

theorem log_near {s T δ : ℝ} (hT : 0 < T) (hδ : δ ≤ 1 / 2) (h : |s - T| ≤ δ * T) : |Real.log s - Real.log T| ≤ 2 * δ := by
  have h1 := abs_le.1 h
  have hδ0 : 0 ≤ δ := by
    by_contra hc
    have h2 : δ * T < 0 := mul_neg_of_neg_of_pos (not_le.1 hc) hT
    have := abs_nonneg (s - T)
    linarith
  have hs : 0 < s := by nlinarith
  rw [← Real.log_div hs.ne' hT.ne']
  have hr : 0 < s / T := div_pos hs hT
  have a1 := Real.log_le_sub_one_of_pos hr
  have a2 := Real.one_sub_inv_le_log_of_pos hr
  have b1 : s / T ≤ 1 + δ := by rw [div_le_iff₀ hT]; linarith
  have b2 : 1 - δ ≤ s / T := by rw [le_div_iff₀ hT]; linarith
  rw [abs_le]
  constructor
  · have : (s / T)⁻¹ ≤ 1 + 2 * δ := by
      rw [inv_le_comm₀ hr (by linarith)]
      refine le_trans ?_ b2
      rw [inv_le_iff_one_le_mul₀ (by linarith)]
      nlinarith
    linarith
  · linarith

theorem weight_sum_err {n : Nat} {s S T ρ u t : ℝ} (hn1 : 1 ≤ n) (hT : 1 / 2 ≤ T) (hρ0 : 0 ≤ ρ) (hρ : ρ ≤ 1 / 8) (hu0 : 0 ≤ u) (hu : n * u ≤ 1 / 100) (ht0 : 0 ≤ t) (ht : t ≤ u / 100)
    (h1 : |s - S| ≤ 2 * n * u * S) (h2 : |S - T| ≤ ρ * T + n * t) : |s - T| ≤ (4 * (n * u) + ρ) * T := by
  have hn : (1 : ℝ) ≤ n := by exact_mod_cast hn1
  have h3 := abs_le.1 h2
  have hnt : n * t ≤ n * u / 100 := by
    have := mul_le_mul_of_nonneg_left ht (by linarith : (0 : ℝ) ≤ n)
    linarith
  have hnt2 : n * t ≤ n * u / 50 * T := by nlinarith [mul_nonneg (by linarith : (0 : ℝ) ≤ n) hu0]
  have hnu0 : 0 ≤ n * u := mul_nonneg (by linarith) hu0
  have hS : S ≤ 3 / 2 * T := by nlinarith
  have h4 : 2 * (n * u) * S ≤ 2 * (n * u) * (3 / 2 * T) := mul_le_mul_of_nonneg_left hS (by linarith)
  have h5 := abs_sub_le s S T
  have h6 : 0 ≤ n * u * T := mul_nonneg hnu0 (by linarith)
  nlinarith

set_option maxHeartbeats 1000000 in
/-- The soft value in doubles is close to the one in real numbers. -/
theorem softValue_err {ex lg : ℚ → ℚ} (hex : GoodExp ex) {α β : ℝ} (hacc : Accurate ex α) (hα0 : 0 ≤ α) (hα : α ≤ 1 / 100) (hlg : AccurateLog lg β) (hβ0 : 0 ≤ β) (hβ : β ≤ 1 / 100)
    {opp temp low B : ℚ} (hopp : opp = 1 ∨ opp = -1) (htd : IsDouble temp) (ht0 : 0 < temp)
    {qs : List (K × ℚ)} (h0 : qs ≠ []) (hlow : ∀ p ∈ qs, low ≤ fdiv p.2 temp) (hn : qs.length ≤ 1000)
    (hB : 1 ≤ B) (hB2 : B ≤ 10 ^ 6) (hq : ∀ p ∈ qs, |p.2 / temp| ≤ B) :
    |(softValue ex lg opp temp low qs : ℝ) - opp * temp * logSumExp temp qs| ≤ temp * ((16 * qs.length + 29 * B) * unit + 4 * α + 2 * qs.length * β) + tiny := by
  have hg := actionWeights_good hex h0 hlow
  obtain ⟨-, hmax, hat⟩ := @normTerm_spec K temp qs low
  have hqn : 1 ≤ qs.length := List.length_pos_of_ne_nil h0
  have hlen : (actionWeights ex temp low qs).length = qs.length := by simp [actionWeights]
  obtain ⟨q0, hq0, em⟩ : ∃ p ∈ qs, normTerm temp low qs = fdiv p.2 temp := by
    rcases hat with h3 | h3
    · obtain ⟨p, hp⟩ := List.exists_mem_of_ne_nil _ h0
      exact ⟨p, hp, le_antisymm (by rw [h3]; exact hlow p hp) (hmax p hp)⟩
    · exact h3
  have hsum := sumWeights_err (ws := actionWeights ex temp low qs) (by rw [hlen]; exact le_trans hn (by norm_num)) fun p hp => ⟨hg.dbl p hp, hg.nonneg p hp⟩
  rw [hlen] at hsum
  have hS1 : 1 ≤ mass (actionWeights ex temp low qs) := hg.one_le
  have hSn : mass (actionWeights ex temp low qs) ≤ qs.length := by
    have : ∀ l : List (K × ℚ), (∀ p ∈ l, p.2 ≤ 1) → mass l ≤ l.length := by
      intro l
      induction l with
      | nil => intro _; simp [mass]
      | cons p l ih =>
        intro h
        have h1 := h p (by simp)
        have h2 := ih fun q hq => h q (by simp [hq])
        unfold mass at *
        simp only [List.map_cons, List.sum_cons, List.length_cons]
        push_cast
        linarith
    have := this _ hg.le_one
    rwa [hlen] at this
  set m := normTerm temp low qs with hm
  have hmd : IsDouble m := by rw [em]; exact isDouble_fl _
  have hup := unit_pos
  have hus := unit_small
  have htu : tiny ≤ unit / 100 := by
    refine le_trans tiny_le ?_
    rw [unit_eq]; norm_num
  have hmq : |m - q0.2 / temp| ≤ 2 * (unit * B) := by
    rw [em]
    have e1 := fl_err' (q0.2 / temp)
    change |fdiv q0.2 temp - _| ≤ _ at e1
    have h1 := mul_le_mul_of_nonneg_left (hq q0 hq0) hup.le
    have huB : unit ≤ unit * B := by nlinarith
    linarith
  have huB6 : unit * B ≤ 1 / 1000 := by rw [unit_eq]; linarith
  have hmB : |m| ≤ 2 * B := by
    have h1 := hq q0 hq0
    have h3 := abs_sub_abs_le_abs_sub m (q0.2 / temp)
    linarith
  set S := mass (actionWeights ex temp low qs) with hS
  set s := sumWeights (actionWeights ex temp low qs) with hs
  have hsd : IsDouble s ∧ 1 ≤ s := by
    have : ∀ (l : List (K × ℚ)) (x : ℚ), IsDouble x → (∀ p ∈ l, 0 ≤ p.2) → IsDouble (l.foldl (fun s p => fadd s p.2) x) ∧ x ≤ l.foldl (fun s p => fadd s p.2) x ∧
        ∀ p ∈ l, IsDouble p.2 → 0 ≤ x → p.2 ≤ l.foldl (fun s p => fadd s p.2) x := by
      intro l
      induction l with
      | nil => intro x hx _; exact ⟨hx, le_refl _, by simp⟩
      | cons p l ih =>
        intro x hx h
        have hp := h p (by simp)
        obtain ⟨h1, h2, h3⟩ := ih (fadd x p.2) (isDouble_fl _) fun q hq => h q (by simp [hq])
        simp only [List.foldl_cons]
        have hx2 : x ≤ fadd x p.2 := le_fl hx (by linarith)
        refine ⟨h1, le_trans hx2 h2, fun q hq hqd hx0 => ?_⟩
        rcases List.mem_cons.1 hq with rfl | hq
        · exact le_trans (le_fl hqd (by linarith)) h2
        · exact h3 q hq hqd (le_trans hx0 hx2)
    obtain ⟨h1, -, h3⟩ := this (actionWeights ex temp low qs) 0 isDouble_zero hg.nonneg
    obtain ⟨p, hp, e⟩ := hg.one
    have := h3 p hp (hg.dbl p hp) (le_refl _)
    rw [e] at this
    exact ⟨h1, this⟩
  -- real side
  set g : K × ℚ → ℝ := fun p => Real.exp ((p.2 : ℝ) / temp - m) with hgd
  have hgp : ∀ p ∈ qs, 0 ≤ g p := fun p _ => (Real.exp_pos _).le
  obtain ⟨-, hle⟩ := le_sum_real hgp
  set T := (qs.map g).sum with hTd
  have hur : (0 : ℝ) < unit := by exact_mod_cast hup
  have htr : (0 : ℝ) < tiny := by exact_mod_cast tiny_pos
  have hBr : (1 : ℝ) ≤ B := by exact_mod_cast hB
  have htur : (tiny : ℝ) ≤ unit / 100 := by
    have := (Rat.cast_le (K := ℝ)).2 htu
    push_cast at this
    exact this
  have huB6r : (unit : ℝ) * B ≤ 1 / 1000 := by
    have := (Rat.cast_le (K := ℝ)).2 huB6
    push_cast at this
    exact this
  have hT : 1 / 2 ≤ T := by
    refine le_trans ?_ (hle q0 hq0)
    have h1 := cast_abs_le hmq
    push_cast at h1
    have h2 := abs_le.1 h1
    have h3 := Real.add_one_le_exp ((q0.2 : ℝ) / temp - m)
    rw [hgd]
    simp only
    linarith
  have hTpos : 0 < T := by linarith
  have hlse : logSumExp temp qs = Real.log T + m := by
    unfold logSumExp
    have h1 : ∀ p : K × ℚ, Real.exp ((p.2 : ℝ) / temp) = Real.exp (m : ℝ) * g p := by
      intro p; rw [hgd]; simp only; rw [← Real.exp_add]; congr 1; ring
    have h2 : (qs.map fun p => Real.exp ((p.2 : ℝ) / temp)).sum = Real.exp (m : ℝ) * T := by
      rw [hTd, ← List.sum_map_mul_left]
      congr 1
      exact List.map_congr_left fun p _ => h1 p
    rw [h2, Real.log_mul (Real.exp_pos _).ne' hTpos.ne', Real.log_exp]
    ring
  have hwe : ∀ p ∈ qs, |((ex (fsub (fdiv p.2 temp) m) : ℚ) : ℝ) - g p| ≤ (2 * α + 12 * ((unit : ℝ) * B)) * g p + (tiny : ℝ) :=
    fun p hp => weight_err hacc hα0 hB hB2 (hq p hp) hmB hmd (hmax p hp)
  have hse := sum_err_real hwe
  have hSr : (S : ℝ) = (qs.map fun p => ((ex (fsub (fdiv p.2 temp) m) : ℚ) : ℝ)).sum := by
    rw [hS]
    unfold mass actionWeights
    rw [List.map_map]
    have : ∀ l : List (K × ℚ), (((l.map (Prod.snd ∘ fun p => (p.1, ex (fsub (fdiv p.2 temp) (normTerm temp low qs))))).sum : ℚ) : ℝ) =
        (l.map fun p => ((ex (fsub (fdiv p.2 temp) m) : ℚ) : ℝ)).sum := by
      intro l
      induction l with
      | nil => simp
      | cons p l ih => simp only [List.map_cons, List.sum_cons]; rw [Rat.cast_add, ih]; rfl
    exact this qs
  rw [← hSr, ← hTd] at hse
  have hsumr := cast_abs_le hsum
  push_cast at hsumr
  have hnr : (1 : ℝ) ≤ qs.length := by exact_mod_cast hqn
  have hnur : (qs.length : ℝ) * unit ≤ 1 / 1000 := by
    have h1 : (qs.length : ℚ) * unit ≤ 1 / 1000 := by
      have hnq : (qs.length : ℚ) ≤ 1000 := by exact_mod_cast hn
      have h2 : (qs.length : ℚ) * unit ≤ 1000 * unit := mul_le_mul_of_nonneg_right hnq hup.le
      refine le_trans h2 ?_
      rw [unit_eq]; norm_num
    have := (Rat.cast_le (K := ℝ)).2 h1
    push_cast at this
    exact this
  have e1 := weight_sum_err hqn hT (by positivity : 0 ≤ 2 * α + 12 * ((unit : ℝ) * B)) (by linarith) hur.le (by linarith) htr.le htur hsumr hse
  have e2 := log_near hTpos (by linarith) e1
  obtain ⟨hld, e3⟩ := hlg s hsd.2 hsd.1
  have hs1 : (1 : ℝ) ≤ s := by exact_mod_cast hsd.2
  have hlog0 : 0 ≤ Real.log s := Real.log_nonneg hs1
  have hsn : (s : ℝ) ≤ 2 * qs.length := by
    have hSnr : (S : ℝ) ≤ qs.length := by exact_mod_cast hSn
    have hS1r : (1 : ℝ) ≤ S := by exact_mod_cast hS1
    have h2 := abs_le.1 hsumr
    have h3 : 2 * ((qs.length : ℝ) * unit) * S ≤ 2 * (1 / 1000) * S := mul_le_mul_of_nonneg_right (by linarith) (by linarith)
    linarith
  have hlogn : Real.log s ≤ 2 * qs.length := by
    have := Real.log_le_sub_one_of_pos (by linarith : (0 : ℝ) < s)
    linarith
  have e3' : |(lg s : ℝ) - Real.log s| ≤ 2 * qs.length * β + tiny := by
    have h1 := mul_le_mul_of_nonneg_left hlogn hβ0
    linarith
  have e4 := cast_abs_le (fadd_err hld hmd)
  push_cast at e4
  have hmBr := cast_abs_le hmB
  push_cast at hmBr
  have hlgabs : |(lg s : ℝ)| ≤ 3 * qs.length := by
    have h1 := abs_sub_abs_le_abs_sub (lg s : ℝ) (Real.log s)
    rw [abs_of_nonneg hlog0] at h1
    have h2 : 2 * (qs.length : ℝ) * β ≤ 2 * qs.length * (1 / 100) := mul_le_mul_of_nonneg_left hβ (by linarith)
    nlinarith
  have hlm : |(lg s : ℝ) + m| ≤ 3 * qs.length + 2 * B := le_trans (abs_add_le _ _) (by linarith)
  have e4' : |((fadd (lg s) m : ℚ) : ℝ) - (lg s + m)| ≤ (unit : ℝ) * (3 * qs.length + 2 * B) := le_trans e4 (mul_le_mul_of_nonneg_left hlm hur.le)
  have e5 : |((fadd (lg s) m : ℚ) : ℝ) - logSumExp temp qs| ≤ (12 * qs.length + 26 * B) * unit + 4 * α + 2 * qs.length * β := by
    rw [hlse]
    have h1 : ((fadd (lg s) m : ℚ) : ℝ) - (Real.log T + m) = (((fadd (lg s) m : ℚ) : ℝ) - (lg s + m)) + (((lg s : ℝ) - Real.log s) + (Real.log s - Real.log T)) := by ring
    rw [h1]
    refine le_trans (abs_add_le _ _) ?_
    have h2 := abs_add_le ((lg s : ℝ) - Real.log s) (Real.log s - Real.log T)
    nlinarith
  have hot : fmul opp temp = opp * temp := by
    unfold fmul
    rcases hopp with h | h
    · rw [h, one_mul]; exact htd
    · rw [h]; rw [neg_one_mul]; exact htd.neg
  have e6 := cast_abs_le (fl_err' (opp * temp * fadd (lg s) m))
  have habs : |opp * temp * fadd (lg s) m| = temp * |fadd (lg s) m| := by
    rw [abs_mul, abs_mul]
    rcases hopp with h | h <;> rw [h] <;> simp [abs_of_pos ht0]
  rw [habs] at e6
  push_cast at e6
  have htempr : (0 : ℝ) < temp := by exact_mod_cast ht0
  have hsv : softValue ex lg opp temp low qs = fl (opp * temp * fadd (lg s) m) := by
    unfold softValue
    rw [← hs, ← hm, hot]
    rfl
  rw [hsv]
  generalize ((fl (opp * temp * fadd (lg s) m) : ℚ) : ℝ) = V at *
  generalize ((fadd (lg s) m : ℚ) : ℝ) = F at *
  generalize logSumExp temp qs = X at *
  have hF : |F| ≤ 4 * qs.length + 3 * B := by
    have h1 := abs_sub_abs_le_abs_sub F (lg s + m)
    have h2 : (unit : ℝ) * (3 * qs.length + 2 * B) ≤ 1 / 100 := by nlinarith
    linarith
  have hor : |(opp : ℝ)| = 1 := by rcases hopp with h | h <;> rw [h] <;> simp
  have h7 : |(opp : ℝ) * temp * F - opp * temp * X| ≤ temp * ((12 * qs.length + 26 * B) * unit + 4 * α + 2 * qs.length * β) := by
    have h1 : (opp : ℝ) * temp * F - opp * temp * X = opp * (temp * (F - X)) := by ring
    rw [h1, abs_mul, hor, one_mul, abs_mul, abs_of_pos htempr]
    exact mul_le_mul_of_nonneg_left e5 htempr.le
  have h8 : (unit : ℝ) * (temp * |F|) ≤ temp * ((4 * qs.length + 3 * B) * unit) := by
    have h1 := mul_le_mul_of_nonneg_left hF (mul_nonneg hur.le htempr.le)
    linarith
  have h9 := abs_sub_le V (opp * temp * F) (opp * temp * X)
  linarith

end Verif.Fp
