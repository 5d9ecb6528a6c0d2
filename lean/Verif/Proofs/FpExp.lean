import Verif.Proofs.FpMents
import Verif.Proofs.FpUniform
import Verif.Spec.FpExp
import Mathlib.Analysis.Complex.ExponentialBounds

/-!
# The search policy of MENTS in doubles and in real numbers
-/

namespace Verif.Fp

variable {K : Type}

theorem cast_abs_le {x y : ℚ} (h : |x| ≤ y) : |(x : ℝ)| ≤ y := by exact_mod_cast h

theorem exp_near {x z ζ : ℝ} (h : |z - x| ≤ ζ) (hζ : ζ ≤ 1) : |Real.exp z - Real.exp x| ≤ 2 * ζ * Real.exp x := by
  have h0 : 0 ≤ ζ := le_trans (abs_nonneg _) h
  have e : Real.exp z - Real.exp x = Real.exp x * (Real.exp (z - x) - 1) := by
    rw [mul_sub, ← Real.exp_add]; congr 2 <;> ring
  rw [e, abs_mul, abs_of_pos (Real.exp_pos x)]
  have h1 : |z - x| ≤ 1 := le_trans h hζ
  have h2 := Real.abs_exp_sub_one_le h1
  have h3 : |Real.exp (z - x) - 1| ≤ 2 * ζ := by linarith
  have := mul_le_mul_of_nonneg_left h3 (Real.exp_pos x).le
  linarith

/-- Error of the rounded argument of `exp`. -/
theorem arg_err {q temp m B : ℚ} (hB : 1 ≤ B) (hB2 : B ≤ 10 ^ 6) (hq : |q / temp| ≤ B) (hm : |m| ≤ 2 * B) (hmd : IsDouble m) :
    |fsub (fdiv q temp) m - (q / temp - m)| ≤ 6 * (unit * B) := by
  have hu := unit_pos
  have hsm := unit_small
  have htu : tiny ≤ unit / 100 := by
    refine le_trans tiny_le ?_
    rw [unit_eq]; norm_num
  have e1 := fl_err' (q / temp)
  change |fdiv q temp - q / temp| ≤ _ at e1
  have e2 := fsub_err (isDouble_fl (q / temp)) hmd
  change |fsub (fdiv q temp) m - (fdiv q temp - m)| ≤ unit * |fdiv q temp - m| at e2
  generalize fdiv q temp = a at *
  generalize q / temp = x at *
  have h1 : unit * |x| ≤ unit * B := mul_le_mul_of_nonneg_left hq hu.le
  have huB : unit ≤ unit * B := by nlinarith
  have h2 : |a - x| ≤ 2 * (unit * B) := by linarith
  have h3 : |a - m| ≤ 4 * B := by
    have h4 : a - m = (a - x) + (x - m) := by ring
    rw [h4]
    have h5 := abs_add_le (a - x) (x - m)
    have h6 := abs_sub x m
    have h7 : unit * B ≤ 1 / 1000000 * B := mul_le_mul_of_nonneg_right hsm (by linarith)
    linarith
  have h8 : unit * |a - m| ≤ unit * (4 * B) := mul_le_mul_of_nonneg_left h3 hu.le
  have h9 : fsub a m - (x - m) = (fsub a m - (a - m)) + (a - x) := by ring
  rw [h9]
  have := abs_add_le (fsub a m - (a - m)) (a - x)
  linarith

/-- Error of one weight. -/
theorem weight_err {ex : ℚ → ℚ} {α : ℝ} (hacc : Accurate ex α) (hα0 : 0 ≤ α) {q temp m B : ℚ} (hB : 1 ≤ B) (hB2 : B ≤ 10 ^ 6) (hq : |q / temp| ≤ B)
    (hm : |m| ≤ 2 * B) (hmd : IsDouble m) (hle : fdiv q temp ≤ m) :
    |(ex (fsub (fdiv q temp) m) : ℝ) - Real.exp ((q : ℝ) / temp - m)| ≤ (2 * α + 12 * ((unit : ℝ) * B)) * Real.exp ((q : ℝ) / temp - m) + tiny := by
  have e1 := cast_abs_le (arg_err hB hB2 hq hm hmd)
  push_cast at e1
  have hu : (0 : ℝ) < unit := by exact_mod_cast unit_pos
  have hBr : (1 : ℝ) ≤ B := by exact_mod_cast hB
  have hsmall : 6 * ((unit : ℝ) * B) ≤ 1 / 2 := by
    have : 6 * (unit * B) ≤ 1 / 2 := by rw [unit_eq]; linarith
    have := (Rat.cast_le (K := ℝ)).2 this
    push_cast at this
    exact this
  have e2 := exp_near e1 (by linarith)
  have e3 := hacc (fsub (fdiv q temp) m) (fl_nonpos (by linarith)) (isDouble_fl _)
  generalize Real.exp ((q : ℝ) / temp - m) = X at *
  generalize Real.exp ((fsub (fdiv q temp) m : ℚ) : ℝ) = Z at *
  have hX : 0 ≤ X := by
    by_contra hc
    have h4 : 2 * (6 * ((unit : ℝ) * B)) * X < 0 := mul_neg_of_pos_of_neg (by positivity) (not_le.1 hc)
    have := abs_nonneg (Z - X)
    linarith
  have h4 := abs_le.1 e2
  have hZ : Z ≤ 2 * X := by nlinarith
  have h5 : α * Z ≤ α * (2 * X) := mul_le_mul_of_nonneg_left hZ hα0
  have h6 : (ex (fsub (fdiv q temp) m) : ℝ) - X = ((ex (fsub (fdiv q temp) m) : ℝ) - Z) + (Z - X) := by ring
  rw [h6]
  have := abs_add_le ((ex (fsub (fdiv q temp) m) : ℝ) - Z) (Z - X)
  linarith

theorem sum_err_real {α : Type} {f g : α → ℝ} {a b : ℝ} : ∀ {l : List α}, (∀ p ∈ l, |f p - g p| ≤ a * g p + b) →
    |(l.map f).sum - (l.map g).sum| ≤ a * (l.map g).sum + l.length * b := by
  intro l
  induction l with
  | nil => intro _; simp
  | cons p l ih =>
    intro h
    have h1 := h p (by simp)
    have h2 := ih fun q hq => h q (by simp [hq])
    simp only [List.map_cons, List.sum_cons, List.length_cons]
    have h3 : f p + (l.map f).sum - (g p + (l.map g).sum) = (f p - g p) + ((l.map f).sum - (l.map g).sum) := by ring
    rw [h3]
    refine le_trans (abs_add_le _ _) ?_
    push_cast
    linarith

theorem le_sum_real {α : Type} {g : α → ℝ} : ∀ {l : List α}, (∀ p ∈ l, 0 ≤ g p) → 0 ≤ (l.map g).sum ∧ ∀ p ∈ l, g p ≤ (l.map g).sum := by
  intro l
  induction l with
  | nil => intro _; simp
  | cons p l ih =>
    intro h
    have h1 := h p (by simp)
    obtain ⟨h2, h3⟩ := ih fun q hq => h q (by simp [hq])
    simp only [List.map_cons, List.sum_cons]
    refine ⟨by linarith, fun q hq => ?_⟩
    rcases List.mem_cons.1 hq with rfl | hq
    · linarith
    · have := h3 q hq; linarith

/-- A ratio of close numbers. -/
theorem ratio_err {w e S T ρ t : ℝ} {n : Nat} (hS : 1 ≤ S) (he : 0 ≤ e) (heT : e ≤ T) (hT : 0 < T) (hρ0 : 0 ≤ ρ) (hρ : ρ ≤ 1 / 4) (ht : 0 ≤ t) (hnt : n * t ≤ 1 / 4)
    (hw : |w - e| ≤ ρ * e + t) (hST : |S - T| ≤ ρ * T + n * t) : |w / S - e / T| ≤ 4 * ρ + (n + 1) * t := by
  have hST' := abs_le.1 hST
  have hn : (0 : ℝ) ≤ n := by positivity
  have hTS : T ≤ 2 * S := by nlinarith
  have e1 : w / S - e / T = ((w - e) + e / T * (T - S)) / S := by field_simp; ring
  rw [e1, abs_div, abs_of_pos (by linarith : (0 : ℝ) < S), div_le_iff₀ (by linarith)]
  refine le_trans (abs_add_le _ _) ?_
  have heT1 : e / T ≤ 1 := by rw [div_le_one hT]; exact heT
  have heT0 : 0 ≤ e / T := div_nonneg he hT.le
  rw [abs_mul, abs_of_nonneg heT0, abs_sub_comm T S]
  have h1 : e / T * |S - T| ≤ e / T * (ρ * T + n * t) := mul_le_mul_of_nonneg_left hST heT0
  have h2 : e / T * (ρ * T + n * t) = ρ * e + e / T * (n * t) := by field_simp
  have h3 : e / T * (n * t) ≤ 1 * (n * t) := mul_le_mul_of_nonneg_right heT1 (mul_nonneg hn ht)
  have h4 : ρ * e ≤ ρ * (2 * S) := mul_le_mul_of_nonneg_left (by linarith) hρ0
  have h5 : (n + 1) * t ≤ (n + 1) * t * S := le_mul_of_one_le_right (by positivity) hS
  nlinarith

theorem exactMix_le_one {lam S w : ℚ} {n : Nat} (hn : 1 ≤ n) (hl0 : 0 ≤ lam) (hl1 : lam ≤ 1) (hw : w ≤ S) (hS : 0 < S) : exactMix lam S n w ≤ 1 := by
  unfold exactMix
  have h1 : w / S ≤ 1 := by rw [div_le_one hS]; exact hw
  have h2 : (1 - lam) * (w / S) ≤ (1 - lam) * 1 := mul_le_mul_of_nonneg_left h1 (by linarith)
  have hnq : (1 : ℚ) ≤ n := by exact_mod_cast hn
  have h3 : lam / n ≤ lam := div_le_self hl0 hnq
  linarith

/-- Every probability of the search policy is close to the one in real numbers. -/
theorem policy_err {ex : ℚ → ℚ} (hex : GoodExp ex) {α : ℝ} (hacc : Accurate ex α) (hα0 : 0 ≤ α) (hα : α ≤ 1 / 100) {temp low lam B : ℚ}
    {qs : List (K × ℚ)} (h0 : qs ≠ []) (hlow : ∀ p ∈ qs, low ≤ fdiv p.2 temp) (hn : qs.length ≤ 1000) (hl : IsDouble lam) (hl0 : 0 ≤ lam) (hl1 : lam ≤ 1)
    (hB : 1 ≤ B) (hB2 : B ≤ 10 ^ 6) (hq : ∀ p ∈ qs, |p.2 / temp| ≤ B) :
    ∃ prob : K × ℚ → ℚ, mixture lam (actionWeights ex temp low qs) = qs.map (fun p => (p.1, prob p)) ∧
      ∀ p ∈ qs, |(prob p : ℝ) - softMix lam temp qs p.2| ≤ (3 * qs.length + 9 + 48 * B) * unit + 8 * α := by
  have hg := actionWeights_good hex h0 hlow
  set m := normTerm temp low qs with hm
  obtain ⟨-, hmax, hat⟩ := @normTerm_spec K temp qs low
  have hqn : 1 ≤ qs.length := List.length_pos_of_ne_nil h0
  have hlen : (actionWeights ex temp low qs).length = qs.length := by simp [actionWeights]
  obtain ⟨q0, hq0, em⟩ : ∃ p ∈ qs, normTerm temp low qs = fdiv p.2 temp := by
    rcases hat with h3 | h3
    · obtain ⟨p, hp⟩ := List.exists_mem_of_ne_nil _ h0
      exact ⟨p, hp, le_antisymm (by rw [h3]; exact hlow p hp) (hmax p hp)⟩
    · exact h3
  have hmd : IsDouble m := by rw [hm, em]; exact isDouble_fl _
  have hup := unit_pos
  have hus := unit_small
  have hmB : |m| ≤ 2 * B := by
    rw [hm, em]
    have e1 := fl_err' (q0.2 / temp)
    change |fdiv q0.2 temp - _| ≤ _ at e1
    have h1 := hq q0 hq0
    have h2 : unit * |q0.2 / temp| ≤ 1 / 1000000 * B := mul_le_mul hus h1 (abs_nonneg _) (by norm_num)
    have h3 := abs_sub_abs_le_abs_sub (fdiv q0.2 temp) (q0.2 / temp)
    have h4 : tiny ≤ 1 / 2 := by
      refine le_trans tiny_le ?_
      rw [unit_eq]; norm_num
    linarith
  set wt : K × ℚ → ℚ := fun p => ex (fsub (fdiv p.2 temp) m) with hwt
  set S := mass (actionWeights ex temp low qs) with hS
  refine ⟨fun p => fadd (fmul (wt p) (fdiv (fsub 1 lam) (sumWeights (actionWeights ex temp low qs)))) (fmul lam (fdiv 1 (fl (qs.length : ℚ)))), ?_, ?_⟩
  · unfold mixture mixtureW
    rw [hlen]
    conv_lhs => rw [actionWeights]
    rw [List.map_map]
    rfl
  · intro p hp
    beta_reduce
    have hmem : (p.1, wt p) ∈ actionWeights ex temp low qs := List.mem_map.2 ⟨p, hp, rfl⟩
    have e1 := mixture_err hg (by rw [hlen]; exact hn) hl hl0 hl1 _ hmem
    rw [hlen] at e1
    simp only at e1
    rw [← hS] at e1
    have hS1 : 1 ≤ S := hg.one_le
    have hwS : wt p ≤ S := le_mass hg.nonneg hmem
    have hmix1 := exactMix_le_one hqn hl0 hl1 hwS (by linarith)
    have e2 : |fadd (fmul (wt p) (fdiv (fsub 1 lam) (sumWeights (actionWeights ex temp low qs)))) (fmul lam (fdiv 1 (fl (qs.length : ℚ)))) - exactMix lam S qs.length (wt p)| ≤
        (3 * qs.length + 8) * unit + 8 * tiny := by
      have : (3 * (qs.length : ℚ) + 8) * unit * exactMix lam S qs.length (wt p) ≤ (3 * qs.length + 8) * unit * 1 := mul_le_mul_of_nonneg_left hmix1 (by positivity)
      linarith
    have e2 := cast_abs_le e2
    push_cast at e2
    generalize fadd (fmul (wt p) (fdiv (fsub 1 lam) (sumWeights (actionWeights ex temp low qs)))) (fmul lam (fdiv 1 (fl (qs.length : ℚ)))) = P at *
    -- the real softmax, shifted
    set g : K × ℚ → ℝ := fun p => Real.exp ((p.2 : ℝ) / temp - m) with hgd
    have hgp : ∀ p ∈ qs, 0 ≤ g p := fun p _ => (Real.exp_pos _).le
    obtain ⟨-, hle⟩ := le_sum_real hgp
    have hT : 0 < (qs.map g).sum := lt_of_lt_of_le (Real.exp_pos _) (hle p hp)
    have hshift : Real.exp ((p.2 : ℝ) / temp) / (qs.map fun p => Real.exp ((p.2 : ℝ) / temp)).sum = g p / (qs.map g).sum := by
      have h1 : ∀ p : K × ℚ, Real.exp ((p.2 : ℝ) / temp) = Real.exp (m : ℝ) * g p := by
        intro p; rw [hgd]; simp only; rw [← Real.exp_add]; congr 1; ring
      have h2 : (qs.map fun p => Real.exp ((p.2 : ℝ) / temp)).sum = Real.exp (m : ℝ) * (qs.map g).sum := by
        rw [← List.sum_map_mul_left]
        congr 1
        exact List.map_congr_left fun p _ => h1 p
      rw [h2, h1, mul_div_mul_left _ _ (Real.exp_pos _).ne']
    have hwe : ∀ p ∈ qs, |(wt p : ℝ) - g p| ≤ (2 * α + 12 * ((unit : ℝ) * B)) * g p + (tiny : ℝ) :=
      fun p hp => weight_err hacc hα0 hB hB2 (hq p hp) hmB hmd (hmax p hp)
    have hse := sum_err_real hwe
    have hSr : (S : ℝ) = (qs.map fun p => (wt p : ℝ)).sum := by
      rw [hS]
      unfold mass actionWeights
      rw [List.map_map]
      have : ∀ l : List (K × ℚ), (((l.map (Prod.snd ∘ fun p => (p.1, ex (fsub (fdiv p.2 temp) (normTerm temp low qs))))).sum : ℚ) : ℝ) = (l.map fun p => (wt p : ℝ)).sum := by
        intro l
        induction l with
        | nil => simp
        | cons p l ih => simp only [List.map_cons, List.sum_cons]; rw [Rat.cast_add, ih]; rfl
      exact this qs
    rw [← hSr] at hse
    have hur : (0 : ℝ) < unit := by exact_mod_cast hup
    have htr : (0 : ℝ) < tiny := by exact_mod_cast tiny_pos
    have hBr : (1 : ℝ) ≤ B := by exact_mod_cast hB
    have hlr0 : (0 : ℝ) ≤ lam := by exact_mod_cast hl0
    have hlr1 : (lam : ℝ) ≤ 1 := by exact_mod_cast hl1
    have hsmall : 12 * ((unit : ℝ) * B) ≤ 1 / 10 := by
      have : 12 * (unit * B) ≤ 1 / 10 := by rw [unit_eq]; linarith
      have := (Rat.cast_le (K := ℝ)).2 this
      push_cast at this
      exact this
    have ht8 : ((qs.length : ℝ) + 9) * tiny ≤ unit := by
      have h1 : ((qs.length : ℚ) + 9) * tiny ≤ unit := by
        have hnq : (qs.length : ℚ) ≤ 1000 := by exact_mod_cast hn
        have h2 : ((qs.length : ℚ) + 9) * tiny ≤ 1009 * (unit * unit * unit * unit) := mul_le_mul (by linarith) tiny_le tiny_pos.le (by norm_num)
        refine le_trans h2 ?_
        rw [unit_eq]; norm_num
      exact_mod_cast h1
    have hu1 : (unit : ℝ) ≤ 1 / 4 := by
      have : unit ≤ 1 / 4 := by rw [unit_eq]; norm_num
      have := (Rat.cast_le (K := ℝ)).2 this
      push_cast at this
      exact this
    have hr := ratio_err (w := (wt p : ℝ)) (e := g p) (S := (S : ℝ)) (T := (qs.map g).sum) (ρ := 2 * α + 12 * ((unit : ℝ) * B)) (t := (tiny : ℝ)) (n := qs.length)
      (by exact_mod_cast hS1) (hgp p hp) (hle p hp) hT (by positivity) (by linarith) htr.le (by nlinarith) (hwe p hp) hse
    have hfin : ((exactMix lam S qs.length (wt p) : ℚ) : ℝ) - softMix lam temp qs p.2 = (1 - lam) * ((wt p : ℝ) / S - g p / (qs.map g).sum) := by
      unfold softMix exactMix
      rw [hshift]
      push_cast
      ring
    have hfin2 : |((exactMix lam S qs.length (wt p) : ℚ) : ℝ) - softMix lam temp qs p.2| ≤ 4 * (2 * α + 12 * ((unit : ℝ) * B)) + (qs.length + 1) * tiny := by
      rw [hfin, abs_mul, abs_of_nonneg (by linarith : (0 : ℝ) ≤ 1 - lam)]
      refine le_trans ?_ hr
      exact mul_le_of_le_one_left (abs_nonneg _) (by linarith)
    have := abs_sub_le (P : ℝ) (exactMix lam S qs.length (wt p) : ℚ) (softMix lam temp qs p.2)
    linarith

end Verif.Fp
