import Verif.Proofs.FpAverage

/-!
# Values of chance nodes in doubles
-/

namespace Verif.Fp

/-- The inequalities behind one step. -/
theorem chance_alg {A E v M x y r a b b0 : ℚ} (hM : 1 ≤ M) (hv : |v| ≤ M) (hE : |E| ≤ M) (hA : |A - E| ≤ 1 / 10 * M) (hCS0 : 0 ≤ x) (hCS : x ≤ 1)
    (hcS0 : 0 ≤ y) (hcS : y ≤ 1) (hsum1 : x + y = 1) (hr0 : 0 ≤ r) (e2 : |b0 - v * y| ≤ unit * (|v| * y) + tiny) (e3 : |b - b0| ≤ unit * |b0| + tiny)
    (e4 : |r - x| ≤ unit * x + tiny) (e5 : |a - A * r| ≤ unit * |A * r| + tiny) (e6 : |fadd a b - (a + b)| ≤ unit * |a + b|) :
    |fadd a b - (E * x + v * y)| ≤ |A - E| + 8 * (unit * M) := by
  have hu := unit_pos
  have hsm := unit_small
  have hM0 : 0 ≤ M := by linarith
  have htu : tiny ≤ unit / 100 := by
    refine le_trans tiny_le ?_
    rw [unit_eq]; norm_num
  have hMt : M * tiny ≤ unit * M / 100 := by
    have := mul_le_mul_of_nonneg_left htu hM0
    linarith
  have hy1 : y ≤ 1 := hcS
  have hx1 : x ≤ 1 := hCS
  have hAM : |A| ≤ 11 / 10 * M := by
    have := abs_sub_abs_le_abs_sub A E
    linarith
  have hvy : |v| * y ≤ M := by
    have := mul_le_mul hv hy1 hcS0 hM0
    linarith
  have hvy0 : 0 ≤ |v| * y := mul_nonneg (abs_nonneg _) hcS0
  have huM : 0 ≤ unit * M := mul_nonneg hu.le hM0
  have htM : tiny ≤ unit * M / 100 := by
    have := mul_le_mul_of_nonneg_right hM tiny_pos.le
    linarith
  have f2 : |b0 - v * y| ≤ 102 / 100 * (unit * M) := by
    have := mul_le_mul_of_nonneg_left hvy hu.le
    linarith
  have hvya : |v * y| ≤ M := by rw [abs_mul, abs_of_nonneg hcS0]; exact hvy
  have hb0 : |b0| ≤ 11 / 10 * M := by
    have := abs_sub_abs_le_abs_sub b0 (v * y)
    have : unit * M ≤ 1 / 1000000 * M := mul_le_mul_of_nonneg_right hsm hM0
    linarith
  have f3 : |b - v * y| ≤ 3 * (unit * M) := by
    have h1 : b - v * y = (b - b0) + (b0 - v * y) := by ring
    rw [h1]
    have h2 := abs_add_le (b - b0) (b0 - v * y)
    have h3 : unit * |b0| ≤ unit * (11 / 10 * M) := mul_le_mul_of_nonneg_left hb0 hu.le
    linarith
  have hr1 : r ≤ 11 / 10 := by
    have := (abs_le.1 e4).2
    have := mul_le_mul_of_nonneg_left hx1 hu.le
    linarith
  have hAr : |A * r| ≤ 122 / 100 * M := by
    rw [abs_mul, abs_of_nonneg hr0]
    have := mul_le_mul hAM hr1 hr0 (by linarith : 0 ≤ 11 / 10 * M)
    linarith
  have f5 : |a - A * r| ≤ 124 / 100 * (unit * M) := by
    have h3 : unit * |A * r| ≤ unit * (122 / 100 * M) := mul_le_mul_of_nonneg_left hAr hu.le
    linarith
  have f4 : |A * (r - x)| ≤ 12 / 10 * (unit * M) := by
    rw [abs_mul]
    have h1 : |r - x| ≤ 102 / 100 * unit := by
      have := mul_le_mul_of_nonneg_left hx1 hu.le
      linarith
    have := mul_le_mul hAM h1 (abs_nonneg _) (by linarith : 0 ≤ 11 / 10 * M)
    linarith
  have f6 : |(A - E) * x| ≤ |A - E| := by
    rw [abs_mul, abs_of_nonneg hCS0]
    have := mul_le_mul_of_nonneg_left hx1 (abs_nonneg (A - E))
    linarith
  have f7 : |a - E * x| ≤ |A - E| + 3 * (unit * M) := by
    have h1 : a - E * x = (a - A * r) + (A * (r - x) + (A - E) * x) := by ring
    rw [h1]
    have h2 := abs_add_le (a - A * r) (A * (r - x) + (A - E) * x)
    have h3 := abs_add_le (A * (r - x)) ((A - E) * x)
    linarith
  have hEv : |E * x + v * y| ≤ M := by
    have h1 := abs_add_le (E * x) (v * y)
    rw [abs_mul, abs_mul, abs_of_nonneg hCS0, abs_of_nonneg hcS0] at h1
    have h2 := mul_le_mul_of_nonneg_right hE hCS0
    have h3 := mul_le_mul_of_nonneg_right hv hcS0
    have h4 : M * x + M * y = M := by rw [← mul_add, hsum1, mul_one]
    linarith
  have h8 : (a + b) - (E * x + v * y) = (a - E * x) + (b - v * y) := by ring
  have h9 : |(a + b) - (E * x + v * y)| ≤ |A - E| + 6 * (unit * M) := by
    rw [h8]
    have := abs_add_le (a - E * x) (b - v * y)
    linarith
  have h10 : |a + b| ≤ 2 * M := by
    have := abs_sub_abs_le_abs_sub (a + b) (E * x + v * y)
    have : unit * M ≤ 1 / 1000000 * M := mul_le_mul_of_nonneg_right hsm hM0
    linarith
  have h11 : fadd a b - (E * x + v * y) = (fadd a b - (a + b)) + ((a + b) - (E * x + v * y)) := by ring
  rw [h11]
  have h12 := abs_add_le (fadd a b - (a + b)) ((a + b) - (E * x + v * y))
  have h13 : unit * |a + b| ≤ unit * (2 * M) := mul_le_mul_of_nonneg_left h10 hu.le
  linarith

/-- Error of taking in one child: `E` is the exact average before. -/
theorem chanceStep_err {C c : Nat} {A E v M : ℚ} (hc : c ≠ 0) (hC : C + c ≤ 2 ^ 50) (hM : 1 ≤ M) (hv : |v| ≤ M) (hE : |E| ≤ M)
    (hA : |A - E| ≤ 1 / 10 * M) :
    (chanceStep (A, (C : ℚ)) (c, v)).2 = ((C + c : Nat) : ℚ) ∧ IsDouble (chanceStep (A, (C : ℚ)) (c, v)).1 ∧
    |(chanceStep (A, (C : ℚ)) (c, v)).1 - (C * E + c * v) / ((C + c : Nat) : ℚ)| ≤ |A - E| + 8 * (unit * M) := by
  have hu := unit_pos
  have hsm := unit_small
  have ht := tiny_pos
  have hcd : fl (c : ℚ) = c := isDouble_nat (le_trans (by omega) (by norm_num : 2 ^ 50 ≤ 2 ^ 53))
  have hCd : fl (C : ℚ) = C := isDouble_nat (le_trans (by omega) (by norm_num : 2 ^ 50 ≤ 2 ^ 53))
  have hSd : fl ((C + c : Nat) : ℚ) = ((C + c : Nat) : ℚ) := isDouble_nat (le_trans (by omega) (by norm_num : 2 ^ 50 ≤ 2 ^ 53))
  have hS : fadd (C : ℚ) c = ((C + c : Nat) : ℚ) := by unfold fadd; rw [← hSd]; push_cast; rfl
  have hsub : fsub ((C + c : Nat) : ℚ) c = C := by unfold fsub; push_cast; rw [add_sub_cancel_right]; exact hCd
  have hunf : chanceStep (A, (C : ℚ)) (c, v) =
      (fadd (fmul A (fdiv C ((C + c : Nat) : ℚ))) (fdiv (fmul c v) ((C + c : Nat) : ℚ)), ((C + c : Nat) : ℚ)) := by
    unfold chanceStep
    simp only [if_neg hc, hcd, hS, hsub]
  rw [hunf]
  refine ⟨rfl, isDouble_fl _, ?_⟩
  simp only
  have hS1 : (1 : ℚ) ≤ ((C + c : Nat) : ℚ) := by exact_mod_cast (by omega : 1 ≤ C + c)
  have hcS : (c : ℚ) / ((C + c : Nat) : ℚ) ≤ 1 := by rw [div_le_one (by linarith)]; push_cast; have : (0:ℚ) ≤ C := by positivity
                                                     linarith
  have hCS : (C : ℚ) / ((C + c : Nat) : ℚ) ≤ 1 := by rw [div_le_one (by linarith)]; push_cast; have : (0:ℚ) ≤ c := by positivity
                                                     linarith
  have hCS0 : (0 : ℚ) ≤ (C : ℚ) / ((C + c : Nat) : ℚ) := by positivity
  have hcS0 : (0 : ℚ) ≤ (c : ℚ) / ((C + c : Nat) : ℚ) := by positivity
  have hsum1 : (C : ℚ) / ((C + c : Nat) : ℚ) + (c : ℚ) / ((C + c : Nat) : ℚ) = 1 := by
    rw [← add_div]; push_cast; rw [div_self]; have : (0:ℚ) < C + c := by push_cast at hS1; linarith
    exact this.ne'
  have hst : ((C * E + c * v) / ((C + c : Nat) : ℚ) : ℚ) = E * ((C : ℚ) / ((C + c : Nat) : ℚ)) + v * ((c : ℚ) / ((C + c : Nat) : ℚ)) := by ring
  rw [hst]
  -- the product with the child's backups
  have e1 := fl_err' ((c : ℚ) * v)
  change |fmul (c : ℚ) v - c * v| ≤ _ at e1
  have hdivS : fmul (c : ℚ) v / ((C + c : Nat) : ℚ) - v * ((c : ℚ) / ((C + c : Nat) : ℚ)) = (fmul (c : ℚ) v - c * v) / ((C + c : Nat) : ℚ) := by ring
  have e2 : |fmul (c : ℚ) v / ((C + c : Nat) : ℚ) - v * ((c : ℚ) / ((C + c : Nat) : ℚ))| ≤ unit * (|v| * ((c : ℚ) / ((C + c : Nat) : ℚ))) + tiny := by
    rw [hdivS, abs_div, abs_of_pos (by linarith : (0 : ℚ) < ((C + c : Nat) : ℚ)), div_le_iff₀ (by linarith)]
    refine le_trans e1 ?_
    rw [abs_mul, abs_of_nonneg (by positivity : (0 : ℚ) ≤ c)]
    have : (unit * (|v| * ((c : ℚ) / ((C + c : Nat) : ℚ))) + tiny) * ((C + c : Nat) : ℚ) = unit * (c * |v|) + tiny * ((C + c : Nat) : ℚ) := by
      field_simp
    rw [this]
    nlinarith
  have e3 := fl_err' (fmul (c : ℚ) v / ((C + c : Nat) : ℚ))
  change |fdiv (fmul (c : ℚ) v) ((C + c : Nat) : ℚ) - _| ≤ _ at e3
  have e4 := fl_err' ((C : ℚ) / ((C + c : Nat) : ℚ))
  change |fdiv (C : ℚ) ((C + c : Nat) : ℚ) - _| ≤ _ at e4
  rw [abs_of_nonneg hCS0] at e4
  have e5 := fl_err' (A * fdiv (C : ℚ) ((C + c : Nat) : ℚ))
  change |fmul A (fdiv (C : ℚ) ((C + c : Nat) : ℚ)) - _| ≤ _ at e5
  have e6 := fadd_err (isDouble_fl (A * fdiv (C : ℚ) ((C + c : Nat) : ℚ))) (isDouble_fl (fmul (c : ℚ) v / ((C + c : Nat) : ℚ)))
  change |fadd (fmul A (fdiv (C : ℚ) ((C + c : Nat) : ℚ))) (fdiv (fmul (c : ℚ) v) ((C + c : Nat) : ℚ)) - (fmul A (fdiv (C : ℚ) ((C + c : Nat) : ℚ)) + fdiv (fmul (c : ℚ) v) ((C + c : Nat) : ℚ))| ≤
    unit * |fmul A (fdiv (C : ℚ) ((C + c : Nat) : ℚ)) + fdiv (fmul (c : ℚ) v) ((C + c : Nat) : ℚ)| at e6
  have hr0 : 0 ≤ fdiv (C : ℚ) ((C + c : Nat) : ℚ) := fl_nonneg hCS0
  generalize fdiv (C : ℚ) ((C + c : Nat) : ℚ) = r at *
  generalize fmul A r = a at *
  generalize fdiv (fmul (c : ℚ) v) ((C + c : Nat) : ℚ) = b at *
  generalize fmul (c : ℚ) v / ((C + c : Nat) : ℚ) = b0 at *
  generalize (C : ℚ) / ((C + c : Nat) : ℚ) = x at *
  generalize (c : ℚ) / ((C + c : Nat) : ℚ) = y at *
  exact chance_alg hM hv hE hA hCS0 hCS hcS0 hcS hsum1 hr0 e2 e3 e4 e5 e6

theorem backups_cons (p : Nat × ℚ) (l : List (Nat × ℚ)) : backups (p :: l) = p.1 + backups l := by simp [backups]
theorem weighted_cons (p : Nat × ℚ) (l : List (Nat × ℚ)) : weighted (p :: l) = (p.1 : ℚ) * p.2 + weighted l := by simp [weighted]

/-- The loop over the children: `E` is the exact average of the children taken in so far, `j` their number. -/
theorem chanceFold_err {M : ℚ} (hM : 1 ≤ M) {N : Nat} (hN : N ≤ 2 ^ 30) :
    ∀ (l : List (Nat × ℚ)) (j C : Nat) (A E : ℚ), (∀ p ∈ l, |p.2| ≤ M) → j + l.length ≤ N → C + backups l ≤ 2 ^ 50 → |E| ≤ M →
      |A - E| ≤ j * (8 * (unit * M)) → (C = 0 → E = 0) → 1 ≤ C + backups l →
      |(l.foldl chanceStep (A, (C : ℚ))).1 - (C * E + weighted l) / ((C + backups l : Nat) : ℚ)| ≤ (j + l.length) * (8 * (unit * M)) := by
  intro l
  have hu := unit_pos
  have huM : 0 ≤ unit * M := mul_nonneg hu.le (by linarith)
  induction l with
  | nil =>
    intro j C A E _ _ _ _ hA _ h1
    simp only [backups, List.map_nil, List.sum_nil, add_zero] at h1 ⊢
    have : (0 : ℚ) < C := by exact_mod_cast h1
    simp only [weighted, List.map_nil, List.sum_nil, add_zero, List.foldl_nil, List.length_nil, Nat.cast_zero]
    rw [mul_div_cancel_left₀ _ this.ne']
    exact hA
  | cons p l ih =>
    intro j C A E hv hj hC hE hA hC0 h1
    obtain ⟨c, v⟩ := p
    simp only [List.length_cons] at hj
    rw [backups_cons] at hC h1
    simp only at hC h1
    have hvv := hv (c, v) (by simp)
    simp only at hvv
    have hjq : (j : ℚ) ≤ 2 ^ 30 := by exact_mod_cast (by omega : j ≤ 2 ^ 30)
    by_cases hc : c = 0
    · subst hc
      have hst : chanceStep (A, (C : ℚ)) (0, v) = (A, (C : ℚ)) := by unfold chanceStep; simp
      simp only [List.foldl_cons, hst]
      have := ih (j + 1) C A E (fun q hq => hv q (by simp [hq])) (by omega) (by omega) hE (by push_cast; linarith) hC0 (by omega)
      rw [weighted_cons, backups_cons]
      simp only [Nat.cast_zero, zero_mul, zero_add, List.length_cons]
      push_cast at this ⊢
      rw [show (j : ℚ) + (l.length + 1) = j + 1 + l.length by ring]
      exact this
    · have hA2 : |A - E| ≤ 1 / 10 * M := by
        refine le_trans hA ?_
        rw [unit_eq]
        have : (j : ℚ) * M ≤ 2 ^ 30 * M := mul_le_mul_of_nonneg_right hjq (by linarith)
        nlinarith
      obtain ⟨s1, s2, s3⟩ := chanceStep_err hc (C := C) (by omega) hM hvv hE hA2
      have hS1 : (1 : ℚ) ≤ ((C + c : Nat) : ℚ) := by exact_mod_cast (by omega : 1 ≤ C + c)
      have hE' : |((C : ℚ) * E + c * v) / ((C + c : Nat) : ℚ)| ≤ M := by
        rw [abs_div, abs_of_pos (by linarith : (0 : ℚ) < ((C + c : Nat) : ℚ)), div_le_iff₀ (by linarith)]
        refine le_trans (abs_add_le _ _) ?_
        rw [abs_mul, abs_mul, abs_of_nonneg (by positivity : (0 : ℚ) ≤ C), abs_of_nonneg (by positivity : (0 : ℚ) ≤ c)]
        push_cast
        have h2 := mul_le_mul_of_nonneg_left hE (by positivity : (0 : ℚ) ≤ C)
        have h3 := mul_le_mul_of_nonneg_left hvv (by positivity : (0 : ℚ) ≤ c)
        linarith
      have hst : chanceStep (A, (C : ℚ)) (c, v) = ((chanceStep (A, (C : ℚ)) (c, v)).1, ((C + c : Nat) : ℚ)) := by rw [← s1]
      simp only [List.foldl_cons]
      rw [hst]
      have := ih (j + 1) (C + c) _ _ (fun q hq => hv q (by simp [hq])) (by omega) (by omega) hE' (le_trans s3 (by push_cast; linarith)) (by omega) (by omega)
      rw [mul_div_cancel₀ _ (by linarith : ((C + c : Nat) : ℚ) ≠ 0)] at this
      rw [weighted_cons, backups_cons]
      simp only [List.length_cons]
      rw [show C + (c + backups l) = C + c + backups l by ring, show (C : ℚ) * E + (c * v + weighted l) = C * E + c * v + weighted l by ring]
      push_cast at this ⊢
      rw [show (j : ℚ) + (l.length + 1) = j + 1 + l.length by ring]
      exact this

theorem foldl_double : ∀ (l : List (Nat × ℚ)) (acc : ℚ × ℚ), IsDouble acc.1 → IsDouble (l.foldl chanceStep acc).1 := by
  intro l
  induction l with
  | nil => intro acc h; exact h
  | cons p l ih =>
    intro acc h
    refine ih _ ?_
    unfold chanceStep
    split
    · exact h
    · exact isDouble_fl _

/-- Error of the value of a chance node. -/
theorem chanceValue_err {M R : ℚ} (hM : 1 ≤ M) (hR : IsDouble R) {l : List (Nat × ℚ)} (hl : l.length ≤ 2 ^ 30) (hv : ∀ p ∈ l, |p.2| ≤ M)
    (hb : backups l ≤ 2 ^ 50) (hb0 : 1 ≤ backups l) :
    |chanceValue R l - (R + weighted l / backups l)| ≤ (8 * l.length + 2) * (unit * M) + unit * |R| := by
  have hu := unit_pos
  have huM : 0 ≤ unit * M := mul_nonneg hu.le (by linarith)
  have h1 := chanceFold_err hM hl l 0 0 0 0 hv (by omega) (by omega) (by simp; linarith) (by simp) (by simp) (by omega)
  simp only [Nat.cast_zero, zero_mul, zero_add] at h1
  have hd := foldl_double l (0, 0) isDouble_zero
  have h2 := fadd_err hd hR
  unfold chanceValue
  have hbp : (0 : ℚ) < backups l := by exact_mod_cast hb0
  have hw : |weighted l / backups l| ≤ M := by
    rw [abs_div, abs_of_pos hbp, div_le_iff₀ hbp]
    have : ∀ l : List (Nat × ℚ), (∀ p ∈ l, |p.2| ≤ M) → |weighted l| ≤ M * backups l := by
      intro l
      induction l with
      | nil => intro _; simp [weighted, backups]
      | cons p l ih =>
        intro hp
        rw [weighted_cons, backups_cons]
        refine le_trans (abs_add_le _ _) ?_
        have h3 := ih fun q hq => hp q (by simp [hq])
        have h4 := mul_le_mul_of_nonneg_left (hp p (by simp)) (by positivity : (0 : ℚ) ≤ p.1)
        rw [abs_mul, abs_of_nonneg (by positivity : (0 : ℚ) ≤ p.1)]
        push_cast
        linarith
    exact this l hv
  generalize (l.foldl chanceStep (0, 0)).1 = A at *
  generalize weighted l / (backups l : ℚ) = E at *
  have hlq : (l.length : ℚ) ≤ 2 ^ 30 := by exact_mod_cast hl
  have hA : |A| ≤ 2 * M := by
    have h3 := abs_sub_abs_le_abs_sub A E
    have : (l.length : ℚ) * (8 * (unit * M)) ≤ M := by
      rw [unit_eq]
      have : (l.length : ℚ) * M ≤ 2 ^ 30 * M := mul_le_mul_of_nonneg_right hlq (by linarith)
      nlinarith
    linarith
  have h4 : fadd A R - (R + E) = (fadd A R - (A + R)) + (A - E) := by ring
  rw [h4]
  have h5 := abs_add_le (fadd A R - (A + R)) (A - E)
  have h6 := abs_add_le A R
  have h7 : unit * |A + R| ≤ unit * (2 * M + |R|) := mul_le_mul_of_nonneg_left (by linarith) hu.le
  linarith

end Verif.Fp
