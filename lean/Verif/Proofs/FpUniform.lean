import Verif.Proofs.FpSampling

/-!
# Adding the same double many times

The running mass of a uniform distribution over 36217 keys, in one step per power of two that it passes.
-/

namespace Verif.Fp

open Verif.Sampling (Draw)

/-- A number within half a unit of a double between two powers of two is rounded to it. -/
theorem fl_near {m e : ℤ} {x : ℚ} (h1 : (2 : ℚ) ^ (52 : ℤ) * 2 ^ e ≤ x) (h2 : x < 2 ^ (53 : ℤ) * 2 ^ e) (he : -1074 ≤ e)
    (h : |x - m * 2 ^ e| < 2 ^ e / 2) : fl x = m * 2 ^ e := by
  have hp : (0 : ℚ) < 2 ^ e := by positivity
  have hx0 : 0 < x := lt_of_lt_of_le (by positivity) h1
  have hx : x ≠ 0 := hx0.ne'
  rw [← zpow_add₀ (by norm_num)] at h1 h2
  have e1 : 52 + e ≤ expo x := le_expo hx (by rwa [abs_of_pos hx0])
  have e2 : expo x < 53 + e := expo_lt hx (by rwa [abs_of_pos hx0])
  have hu : ulp x = 2 ^ e := by
    unfold ulp
    congr 1
    omega
  unfold fl
  rw [if_neg hx, hu, mul_comm]
  congr 2
  have h3 : |x / 2 ^ e - m| < 1 / 2 := by
    have : x / 2 ^ e - m = (x - m * 2 ^ e) / 2 ^ e := by field_simp
    rw [this, abs_div, abs_of_pos hp, div_lt_iff₀ hp]
    linarith
  have h4 := roundEven_err (x / 2 ^ e)
  have h3' := abs_lt.1 h3
  have h4' := abs_le.1 h4
  have h5 : ((roundEven (x / 2 ^ e) : ℤ) : ℚ) < m + 1 := by linarith
  have h6 : ((m : ℤ) : ℚ) < (roundEven (x / 2 ^ e) : ℤ) + 1 := by linarith
  have h5' : roundEven (x / 2 ^ e) < m + 1 := by exact_mod_cast h5
  have h6' : m < roundEven (x / 2 ^ e) + 1 := by exact_mod_cast h6
  omega

/-- The running mass after adding `w` another `n` times. -/
def accum (w : ℚ) : Nat → ℚ → ℚ
  | 0, r => r
  | n + 1, r => accum w n (fadd r w)

theorem accum_add (w : ℚ) : ∀ (a b : Nat) (r : ℚ), accum w (a + b) r = accum w b (accum w a r) := by
  intro a
  induction a with
  | zero => intro b r; rw [Nat.zero_add]; rfl
  | succ a ih => intro b r; rw [show a + 1 + b = (a + b) + 1 by omega]; exact ih b _

/-- Between two powers of two each addition adds the same multiple. -/
theorem accum_seg {w : ℚ} {e k : ℤ} (he : -1074 ≤ e) (hk : 1 ≤ k) (hw : |w - k * 2 ^ e| < 2 ^ e / 2) :
    ∀ (n : Nat) (A : ℤ), 2 ^ 52 ≤ A → A + n * k + 1 ≤ 2 ^ 53 → accum w n (A * 2 ^ e) = ((A + n * k : ℤ) : ℚ) * 2 ^ e := by
  intro n
  have hp : (0 : ℚ) < 2 ^ e := by positivity
  induction n with
  | zero => intro A _ _; simp [accum]
  | succ n ih =>
    intro A h1 h2
    have hnk : 0 ≤ (n : ℤ) * k := by positivity
    push_cast at h2
    have hw' := abs_lt.1 hw
    have h1q : ((2 ^ 52 : ℤ) : ℚ) ≤ A := by exact_mod_cast h1
    have hkq : (1 : ℚ) ≤ k := by exact_mod_cast hk
    have h2q : (A : ℚ) + k + 1 ≤ ((2 ^ 53 : ℤ) : ℚ) := by
      have : A + k + 1 ≤ 2 ^ 53 := by linarith
      exact_mod_cast this
    have hstep : fadd (A * 2 ^ e) w = ((A + k : ℤ) : ℚ) * 2 ^ e := by
      unfold fadd
      refine fl_near ?_ ?_ he ?_
      · have : (2 : ℚ) ^ (52 : ℤ) = ((2 ^ 52 : ℤ) : ℚ) := by norm_num
        rw [this]
        have h3 := mul_le_mul_of_nonneg_right h1q hp.le
        have h4 := mul_le_mul_of_nonneg_right hkq hp.le
        linarith
      · have : (2 : ℚ) ^ (53 : ℤ) = ((2 ^ 53 : ℤ) : ℚ) := by norm_num
        rw [this]
        have h3 := mul_le_mul_of_nonneg_right h2q hp.le
        linarith
      · have : (A : ℚ) * 2 ^ e + w - ((A + k : ℤ) : ℚ) * 2 ^ e = w - k * 2 ^ e := by push_cast; ring
        rw [this]
        exact hw
    have : accum w (n + 1) (A * 2 ^ e) = accum w n (((A + k : ℤ) : ℚ) * 2 ^ e) := by rw [← hstep]; rfl
    rw [this, ih (A + k) (by linarith) (by linarith)]
    congr 2
    push_cast
    ring

/-- The double `1.0 / 36217`. -/
def w36217 : ℚ := fdiv 1 (fl 36217)

theorem acc_0 : accum w36217 1 ((0 : ℚ)) = (8149429968781313 : ℚ) / 295147905179352825856 := by unfold w36217; decide +kernel
theorem acc_1 : accum w36217 1 ((8149429968781313 : ℚ) / 295147905179352825856) = (8149429968781313 : ℚ) / 147573952589676412928 := by unfold w36217; decide +kernel
theorem acc_2 : accum w36217 1 ((8149429968781313 : ℚ) / 147573952589676412928) = (6112072476585985 : ℚ) / 73786976294838206464 := by unfold w36217; decide +kernel
theorem acc_3 : accum w36217 1 ((6112072476585985 : ℚ) / 73786976294838206464) = (8149429968781313 : ℚ) / 73786976294838206464 := by
  have h := @accum_seg w36217 (-66) 2037357492195328 (by norm_num) (by norm_num) (by unfold w36217; decide +kernel) 1 6112072476585985 (by norm_num) (by norm_num)
  have e1 : ((6112072476585985 : ℤ) : ℚ) * 2 ^ (-66 : ℤ) = (6112072476585985 : ℚ) / 73786976294838206464 := by norm_num
  rw [e1] at h
  rw [h]
  norm_num
theorem acc_4 : accum w36217 1 ((8149429968781313 : ℚ) / 73786976294838206464) = (5093393730488321 : ℚ) / 36893488147419103232 := by unfold w36217; decide +kernel
theorem acc_5 : accum w36217 3 ((5093393730488321 : ℚ) / 36893488147419103232) = (8149429968781313 : ℚ) / 36893488147419103232 := by
  have h := @accum_seg w36217 (-65) 1018678746097664 (by norm_num) (by norm_num) (by unfold w36217; decide +kernel) 3 5093393730488321 (by norm_num) (by norm_num)
  have e1 : ((5093393730488321 : ℤ) : ℚ) * 2 ^ (-65 : ℤ) = (5093393730488321 : ℚ) / 36893488147419103232 := by norm_num
  rw [e1] at h
  rw [h]
  norm_num
theorem acc_6 : accum w36217 1 ((8149429968781313 : ℚ) / 36893488147419103232) = (4584054357439489 : ℚ) / 18446744073709551616 := by unfold w36217; decide +kernel
theorem acc_7 : accum w36217 8 ((4584054357439489 : ℚ) / 18446744073709551616) = (8658769341830145 : ℚ) / 18446744073709551616 := by
  have h := @accum_seg w36217 (-64) 509339373048832 (by norm_num) (by norm_num) (by unfold w36217; decide +kernel) 8 4584054357439489 (by norm_num) (by norm_num)
  have e1 : ((4584054357439489 : ℤ) : ℚ) * 2 ^ (-64 : ℤ) = (4584054357439489 : ℚ) / 18446744073709551616 := by norm_num
  rw [e1] at h
  rw [h]
  norm_num
theorem acc_8 : accum w36217 1 ((8658769341830145 : ℚ) / 18446744073709551616) = (4584054357439489 : ℚ) / 9223372036854775808 := by unfold w36217; decide +kernel
theorem acc_9 : accum w36217 17 ((4584054357439489 : ℚ) / 9223372036854775808) = (8913439028354561 : ℚ) / 9223372036854775808 := by
  have h := @accum_seg w36217 (-63) 254669686524416 (by norm_num) (by norm_num) (by unfold w36217; decide +kernel) 17 4584054357439489 (by norm_num) (by norm_num)
  have e1 : ((4584054357439489 : ℤ) : ℚ) * 2 ^ (-63 : ℤ) = (4584054357439489 : ℚ) / 9223372036854775808 := by norm_num
  rw [e1] at h
  rw [h]
  norm_num
theorem acc_10 : accum w36217 1 ((8913439028354561 : ℚ) / 9223372036854775808) = (4584054357439489 : ℚ) / 4611686018427387904 := by unfold w36217; decide +kernel
theorem acc_11 : accum w36217 34 ((4584054357439489 : ℚ) / 4611686018427387904) = (8913439028354561 : ℚ) / 4611686018427387904 := by
  have h := @accum_seg w36217 (-62) 127334843262208 (by norm_num) (by norm_num) (by unfold w36217; decide +kernel) 34 4584054357439489 (by norm_num) (by norm_num)
  have e1 : ((4584054357439489 : ℤ) : ℚ) * 2 ^ (-62 : ℤ) = (4584054357439489 : ℚ) / 4611686018427387904 := by norm_num
  rw [e1] at h
  rw [h]
  norm_num
theorem acc_12 : accum w36217 1 ((8913439028354561 : ℚ) / 4611686018427387904) = (4520386935808385 : ℚ) / 2305843009213693952 := by unfold w36217; decide +kernel
theorem acc_13 : accum w36217 70 ((4520386935808385 : ℚ) / 2305843009213693952) = (8977106449985665 : ℚ) / 2305843009213693952 := by
  have h := @accum_seg w36217 (-61) 63667421631104 (by norm_num) (by norm_num) (by unfold w36217; decide +kernel) 70 4520386935808385 (by norm_num) (by norm_num)
  have e1 : ((4520386935808385 : ℤ) : ℚ) * 2 ^ (-61 : ℤ) = (4520386935808385 : ℚ) / 2305843009213693952 := by norm_num
  rw [e1] at h
  rw [h]
  norm_num
theorem acc_14 : accum w36217 1 ((8977106449985665 : ℚ) / 2305843009213693952) = (4520386935808385 : ℚ) / 1152921504606846976 := by unfold w36217; decide +kernel
theorem acc_15 : accum w36217 140 ((4520386935808385 : ℚ) / 1152921504606846976) = (8977106449985665 : ℚ) / 1152921504606846976 := by
  have h := @accum_seg w36217 (-60) 31833710815552 (by norm_num) (by norm_num) (by unfold w36217; decide +kernel) 140 4520386935808385 (by norm_num) (by norm_num)
  have e1 : ((4520386935808385 : ℤ) : ℚ) * 2 ^ (-60 : ℤ) = (4520386935808385 : ℚ) / 1152921504606846976 := by norm_num
  rw [e1] at h
  rw [h]
  norm_num
theorem acc_16 : accum w36217 1 ((8977106449985665 : ℚ) / 1152921504606846976) = (4504470080400609 : ℚ) / 576460752303423488 := by unfold w36217; decide +kernel
theorem acc_17 : accum w36217 282 ((4504470080400609 : ℚ) / 576460752303423488) = (8993023305393441 : ℚ) / 576460752303423488 := by
  have h := @accum_seg w36217 (-59) 15916855407776 (by norm_num) (by norm_num) (by unfold w36217; decide +kernel) 282 4504470080400609 (by norm_num) (by norm_num)
  have e1 : ((4504470080400609 : ℤ) : ℚ) * 2 ^ (-59 : ℤ) = (4504470080400609 : ℚ) / 576460752303423488 := by norm_num
  rw [e1] at h
  rw [h]
  norm_num
theorem acc_18 : accum w36217 1 ((8993023305393441 : ℚ) / 576460752303423488) = (4504470080400609 : ℚ) / 288230376151711744 := by unfold w36217; decide +kernel
theorem acc_19 : accum w36217 565 ((4504470080400609 : ℚ) / 288230376151711744) = (9000981733097329 : ℚ) / 288230376151711744 := by
  have h := @accum_seg w36217 (-58) 7958427703888 (by norm_num) (by norm_num) (by unfold w36217; decide +kernel) 565 4504470080400609 (by norm_num) (by norm_num)
  have e1 : ((4504470080400609 : ℤ) : ℚ) * 2 ^ (-58 : ℤ) = (4504470080400609 : ℚ) / 288230376151711744 := by norm_num
  rw [e1] at h
  rw [h]
  norm_num
theorem acc_20 : accum w36217 1 ((9000981733097329 : ℚ) / 288230376151711744) = (4504470080400609 : ℚ) / 144115188075855872 := by unfold w36217; decide +kernel
theorem acc_21 : accum w36217 1131 ((4504470080400609 : ℚ) / 144115188075855872) = (9004960946949273 : ℚ) / 144115188075855872 := by
  have h := @accum_seg w36217 (-57) 3979213851944 (by norm_num) (by norm_num) (by unfold w36217; decide +kernel) 1131 4504470080400609 (by norm_num) (by norm_num)
  have e1 : ((4504470080400609 : ℤ) : ℚ) * 2 ^ (-57 : ℤ) = (4504470080400609 : ℚ) / 144115188075855872 := by norm_num
  rw [e1] at h
  rw [h]
  norm_num
theorem acc_22 : accum w36217 1 ((9004960946949273 : ℚ) / 144115188075855872) = (4504470080400609 : ℚ) / 72057594037927936 := by unfold w36217; decide +kernel
theorem acc_23 : accum w36217 2263 ((4504470080400609 : ℚ) / 72057594037927936) = (9006950553875245 : ℚ) / 72057594037927936 := by
  have h := @accum_seg w36217 (-56) 1989606925972 (by norm_num) (by norm_num) (by unfold w36217; decide +kernel) 2263 4504470080400609 (by norm_num) (by norm_num)
  have e1 : ((4504470080400609 : ℤ) : ℚ) * 2 ^ (-56 : ℤ) = (4504470080400609 : ℚ) / 72057594037927936 := by norm_num
  rw [e1] at h
  rw [h]
  norm_num
theorem acc_24 : accum w36217 1 ((9006950553875245 : ℚ) / 72057594037927936) = (4504470080400609 : ℚ) / 36028797018963968 := by unfold w36217; decide +kernel
theorem acc_25 : accum w36217 4526 ((4504470080400609 : ℚ) / 36028797018963968) = (9006950553875245 : ℚ) / 36028797018963968 := by
  have h := @accum_seg w36217 (-55) 994803462986 (by norm_num) (by norm_num) (by unfold w36217; decide +kernel) 4526 4504470080400609 (by norm_num) (by norm_num)
  have e1 : ((4504470080400609 : ℤ) : ℚ) * 2 ^ (-55 : ℤ) = (4504470080400609 : ℚ) / 36028797018963968 := by norm_num
  rw [e1] at h
  rw [h]
  norm_num
theorem acc_26 : accum w36217 1 ((9006950553875245 : ℚ) / 36028797018963968) = (1125993169667279 : ℚ) / 4503599627370496 := by unfold w36217; decide +kernel
theorem acc_27 : accum w36217 9053 ((1125993169667279 : ℚ) / 4503599627370496) = (9006950553875245 : ℚ) / 18014398509481984 := by
  have h := @accum_seg w36217 (-54) 497401731493 (by norm_num) (by norm_num) (by unfold w36217; decide +kernel) 9053 4503972678669116 (by norm_num) (by norm_num)
  have e1 : ((4503972678669116 : ℤ) : ℚ) * 2 ^ (-54 : ℤ) = (1125993169667279 : ℚ) / 4503599627370496 := by norm_num
  rw [e1] at h
  rw [h]
  norm_num
theorem acc_28 : accum w36217 1 ((9006950553875245 : ℚ) / 18014398509481984) = (4503723977803369 : ℚ) / 9007199254740992 := by unfold w36217; decide +kernel
theorem acc_29 : accum w36217 18107 ((4503723977803369 : ℚ) / 9007199254740992) = (4503475276942149 : ℚ) / 4503599627370496 := by
  have h := @accum_seg w36217 (-53) 248700865747 (by norm_num) (by norm_num) (by unfold w36217; decide +kernel) 18107 4503723977803369 (by norm_num) (by norm_num)
  have e1 : ((4503723977803369 : ℤ) : ℚ) * 2 ^ (-53 : ℤ) = (4503723977803369 : ℚ) / 9007199254740992 := by norm_num
  rw [e1] at h
  rw [h]
  norm_num

theorem acc_all : accum w36217 36216 0 = (4503475276942149 : ℚ) / 4503599627370496 := by
  have h0 := acc_0
  have h1 := accum_add w36217 1 1 0
  rw [h0, acc_1] at h1
  have h2 := accum_add w36217 2 1 0
  rw [h1, acc_2] at h2
  have h3 := accum_add w36217 3 1 0
  rw [h2, acc_3] at h3
  have h4 := accum_add w36217 4 1 0
  rw [h3, acc_4] at h4
  have h5 := accum_add w36217 5 3 0
  rw [h4, acc_5] at h5
  have h6 := accum_add w36217 8 1 0
  rw [h5, acc_6] at h6
  have h7 := accum_add w36217 9 8 0
  rw [h6, acc_7] at h7
  have h8 := accum_add w36217 17 1 0
  rw [h7, acc_8] at h8
  have h9 := accum_add w36217 18 17 0
  rw [h8, acc_9] at h9
  have h10 := accum_add w36217 35 1 0
  rw [h9, acc_10] at h10
  have h11 := accum_add w36217 36 34 0
  rw [h10, acc_11] at h11
  have h12 := accum_add w36217 70 1 0
  rw [h11, acc_12] at h12
  have h13 := accum_add w36217 71 70 0
  rw [h12, acc_13] at h13
  have h14 := accum_add w36217 141 1 0
  rw [h13, acc_14] at h14
  have h15 := accum_add w36217 142 140 0
  rw [h14, acc_15] at h15
  have h16 := accum_add w36217 282 1 0
  rw [h15, acc_16] at h16
  have h17 := accum_add w36217 283 282 0
  rw [h16, acc_17] at h17
  have h18 := accum_add w36217 565 1 0
  rw [h17, acc_18] at h18
  have h19 := accum_add w36217 566 565 0
  rw [h18, acc_19] at h19
  have h20 := accum_add w36217 1131 1 0
  rw [h19, acc_20] at h20
  have h21 := accum_add w36217 1132 1131 0
  rw [h20, acc_21] at h21
  have h22 := accum_add w36217 2263 1 0
  rw [h21, acc_22] at h22
  have h23 := accum_add w36217 2264 2263 0
  rw [h22, acc_23] at h23
  have h24 := accum_add w36217 4527 1 0
  rw [h23, acc_24] at h24
  have h25 := accum_add w36217 4528 4526 0
  rw [h24, acc_25] at h25
  have h26 := accum_add w36217 9054 1 0
  rw [h25, acc_26] at h26
  have h27 := accum_add w36217 9055 9053 0
  rw [h26, acc_27] at h27
  have h28 := accum_add w36217 18108 1 0
  rw [h27, acc_28] at h28
  have h29 := accum_add w36217 18109 18107 0
  rw [h28, acc_29] at h29
  exact h29

variable {K : Type}

theorem accum_ge {w : ℚ} (hw : 0 ≤ w) : ∀ (n : Nat) (r : ℚ), IsDouble r → r ≤ accum w n r := by
  intro n
  induction n with
  | zero => intro r _; exact le_refl _
  | succ n ih =>
    intro r hr
    have h1 : r ≤ fadd r w := le_fl hr (by linarith)
    exact le_trans h1 (ih _ (isDouble_fl _))

/-- Sampling equal weights with a draw beyond all but the last one. -/
theorem sampleLoop_uniform {w u : ℚ} (hwd : IsDouble w) (hw : 0 ≤ w) (hu : u < 1) {n : Nat} :
    ∀ (l : List (K × ℚ)) (i : Nat) (run : ℚ), l ≠ [] → (∀ p ∈ l, p.2 = w) → IsDouble run → accum w (l.length - 1) run ≤ u →
      fadd 1 EPS12 < accum w l.length run → sampleLoop 1 EPS12 u n i run l = .tooMuch := by
  intro l
  induction l with
  | nil => intro i run h; exact absurd rfl h
  | cons p l ih =>
    intro i run _ hp hr h1 h2
    obtain ⟨k, v⟩ := p
    obtain rfl : v = w := hp (k, v) (by simp)
    have hdiv : fdiv v 1 = v := fdiv_one hwd
    have hdr : IsDouble (fadd run v) := isDouble_fl _
    cases l with
    | nil =>
      have h3 : fadd 1 EPS12 < fadd run v := h2
      rw [sampleLoop, hdiv]
      simp only [h3, true_or, if_true]
    | cons q l =>
      have h4 : accum v l.length (fadd run v) ≤ u := h1
      have h5 : fadd run v ≤ u := le_trans (accum_ge hw _ _ hdr) h4
      have hthr := threshold_ge
      have hnot : ¬ (fadd 1 EPS12 < fadd run v ∨ (1 ≤ fadd run v ∧ i + 1 < n)) := by
        rintro (h | ⟨h, -⟩)
        · have : (0 : ℚ) < 1 / (2 * 10 ^ 12) := by norm_num
          linarith
        · linarith
      rw [sampleLoop, hdiv]
      simp only [if_neg hnot]
      rw [if_neg (not_lt.2 h5)]
      exact ih (i + 1) (fadd run v) (by simp) (fun p hp' => hp p (by simp [hp'])) hdr h4 h2

end Verif.Fp
