import Verif.Proofs.FpTents

/-! # The sparse set next to its boundary -/

set_option linter.unusedSectionVars false

namespace Verif.Fp

variable {K : Type}

/-- Values next to the boundary of the sparse set are next to the threshold `τ`. -/
def Near (δ τ : ℚ) : Nat → ℚ → List (ℚ × K) → Prop
  | _, _, [] => True
  | i, s, (v, _) :: rest => (|1 + (i + 1) * v - (s + v)| ≤ δ → |v - τ| ≤ δ) ∧ Near δ τ (i + 1) (s + v) rest

theorem near_post {δ τ : ℚ} {k : Nat} (hk : 1 ≤ k) : ∀ (l : List (ℚ × K)) (i : Nat) (s : ℚ), k ≤ i → l.Pairwise (fun p q => q.1 ≤ p.1) → (∀ p ∈ l, p.1 ≤ τ) →
    (∀ p ∈ l, 1 + ((i : ℚ) - k) * (p.1 - τ) ≤ s - i * τ) → Near δ τ i s l := by
  intro l
  induction l with
  | nil => intros; trivial
  | cons p l ih =>
    obtain ⟨v, a⟩ := p
    intro i s hi hp hτ hs
    rw [List.pairwise_cons] at hp
    have hv : v ≤ τ := hτ (v, a) (by simp)
    have h1 := hs (v, a) (by simp)
    simp only at h1
    have hk1 : (1 : ℚ) ≤ k := by exact_mod_cast hk
    have hik : (k : ℚ) ≤ i := by exact_mod_cast hi
    refine ⟨fun h => ?_, ih (i + 1) (s + v) (by omega) hp.2 (fun q hq => hτ q (by simp [hq])) fun q hq => ?_⟩
    · have h2 := (abs_le.1 h).1
      have h3 : 1 * (τ - v) ≤ k * (τ - v) := mul_le_mul_of_nonneg_right hk1 (by linarith)
      rw [abs_of_nonpos (by linarith)]
      linarith
    · have h2 : q.1 ≤ v := hp.1 q hq
      push_cast
      have h3 : ((i : ℚ) - k) * (q.1 - τ) ≤ ((i : ℚ) - k) * (v - τ) := mul_le_mul_of_nonneg_left (by linarith) (by linarith)
      linarith

theorem near_pre {δ τ : ℚ} : ∀ (l post : List (ℚ × K)) (i : Nat) (s : ℚ), (∀ p ∈ l, τ < p.1) → s - i * τ + (l.map fun p => p.1 - τ).sum = 1 →
    Near δ τ (i + l.length) (s + (l.map Prod.fst).sum) post → Near δ τ i s (l ++ post) := by
  intro l
  induction l with
  | nil => intro post i s _ _ h; simpa using h
  | cons p l ih =>
    obtain ⟨v, a⟩ := p
    intro post i s hτ hs h
    have hv : τ < v := hτ (v, a) (by simp)
    simp only [List.map_cons, List.sum_cons] at hs
    have h0 : 0 ≤ (l.map fun p => p.1 - τ).sum := List.sum_nonneg (by
      intro x hx
      obtain ⟨p, hp, rfl⟩ := List.mem_map.1 hx
      have := hτ p (by simp [hp])
      linarith)
    refine ⟨fun h => ?_, ih post (i + 1) (s + v) (fun q hq => hτ q (by simp [hq])) (by push_cast; linarith) ?_⟩
    · have h2 := (abs_le.1 h).2
      have h3 : (0 : ℚ) ≤ i * (v - τ) := mul_nonneg (by positivity) (by linarith)
      rw [abs_of_pos (by linarith)]
      linarith
    · simp only [List.length_cons, List.map_cons, List.sum_cons] at h
      rw [show i + 1 + l.length = i + (l.length + 1) by omega, add_assoc]
      exact h

/-- The threshold of a set of values. -/
def tau (vs : List ℚ) : ℚ := (vs.sum - 1) / (vs.length : ℚ)

theorem tau_mul {vs : List ℚ} (h : vs ≠ []) : (vs.length : ℚ) * tau vs = vs.sum - 1 := by
  have : (vs.length : ℚ) ≠ 0 := by exact_mod_cast (List.length_pos_of_ne_nil h).ne'
  unfold tau
  field_simp

theorem support_near {δ : ℚ} {desc : List (ℚ × K)} (hsort : desc.Pairwise fun p q => q.1 ≤ p.1) (h0 : support 0 0 desc ≠ []) :
    Near δ (tau ((support 0 0 desc).map Prod.fst)) 0 0 desc := by
  obtain ⟨post, e1, e2, e3⟩ := support_split desc 0 0 hsort
  have ht := tau_mul (vs := (support 0 0 desc).map Prod.fst) (by simpa using h0)
  rw [List.length_map] at ht
  have hk := List.length_pos_of_ne_nil h0
  set τ := tau ((support 0 0 desc).map Prod.fst) with hτ
  generalize support 0 0 desc = sp at *
  have hkq : (0 : ℚ) < sp.length := by exact_mod_cast hk
  rw [e1]
  simp only [Nat.cast_zero, zero_add] at e2 e3
  refine near_pre sp post 0 0 (fun p hp => ?_) ?_ ?_
  · have := e2 p hp
    by_contra hcon
    have h1 := mul_le_mul_of_nonneg_left (not_lt.1 hcon) hkq.le
    linarith
  · rw [sum_sub_const]
    push_cast
    linarith
  · have hpo : ∀ p ∈ post, p.1 ≤ τ := fun p hp => by
      have := e3 p hp
      by_contra hcon
      have h1 := mul_lt_mul_of_pos_left (not_le.1 hcon) hkq
      linarith
    refine near_post (k := sp.length) hk post (0 + sp.length) _ (by omega) ?_ hpo ?_
    · rw [e1] at hsort
      exact (List.pairwise_append.1 hsort).2.1
    · intro p hp
      rw [zero_add, zero_add, sub_self, zero_mul]
      linarith

/-- The computed sparse set differs from the exact one only in values next to the threshold. -/
theorem sparseLoop_near {B : ℚ} (hB : 1 ≤ B) {n : Nat} (hn : n ≤ 1000) {τ δ : ℚ} (hδ : δ = 8 * n * n * (unit * B)) : ∀ (l : List (ℚ × K)) (i : Nat) (S s : ℚ), i + l.length = n → IsDouble S →
    (∀ p ∈ l, IsDouble p.1 ∧ |p.1| ≤ B) → |s| ≤ i * B → |S - s| ≤ 2 * i * n * (unit * B) → Near δ τ i s l →
    |((sparseLoop l i S).map fun p => p.1 - τ).sum - ((support i s l).map fun p => p.1 - τ).sum| ≤ l.length * δ ∧
    |((sparseLoop l i S).map fun p => (p.1 - τ) ^ 2).sum - ((support i s l).map fun p => (p.1 - τ) ^ 2).sum| ≤ l.length * δ ^ 2 := by
  intro l
  induction l with
  | nil => intro i S s _ _ _ _ _ _; simp [sparseLoop, support]
  | cons p l ih =>
    obtain ⟨v, a⟩ := p
    intro i S s hi hS hl hs h hc
    obtain ⟨hc1, hc2⟩ := hc
    simp only [List.length_cons] at hi
    obtain ⟨hv, hvB⟩ := hl (v, a) (by simp)
    simp only at hv hvB
    obtain ⟨hfi, h1, h2, e4⟩ := margin_err hB hn (by omega) hS hv hvB hs h
    have hrec := ih (i + 1) (fadd S v) (s + v) (by omega) (isDouble_fl _) (fun q hq => hl q (by simp [hq])) h2 h1 hc2
    rw [← hδ] at e4
    push_cast at hrec hfi
    have e5 := abs_le.1 e4
    have hδ0 : 0 ≤ δ := le_trans (abs_nonneg _) e4
    obtain ⟨r1, r2⟩ := hrec
    simp only [sparseLoop, support, hfi, List.length_cons]
    push_cast
    have hq : 0 ≤ δ ^ 2 := sq_nonneg _
    by_cases hT : fadd S v < fadd 1 (fmul ((i : ℚ) + 1) v) <;> by_cases hE : s + v < 1 + ((i : ℚ) + 1) * v
    · rw [if_pos hT, if_pos hE]
      simp only [List.map_cons, List.sum_cons, add_sub_add_left_eq_sub]
      exact ⟨by linarith, by linarith⟩
    · rw [if_pos hT, if_neg hE]
      have hc := hc1 (by rw [abs_of_nonpos (by linarith)]; linarith)
      have hc' : (v - τ) ^ 2 ≤ δ ^ 2 := sq_le_sq' (abs_le.1 hc).1 (abs_le.1 hc).2
      simp only [List.map_cons, List.sum_cons]
      rw [add_sub_assoc, add_sub_assoc]
      refine ⟨le_trans (abs_add_le _ _) (by linarith), le_trans (abs_add_le _ _) ?_⟩
      rw [abs_of_nonneg (sq_nonneg (v - τ))]
      linarith
    · rw [if_neg hT, if_pos hE]
      have hc := hc1 (by rw [abs_of_pos (by linarith)]; linarith)
      have hc' : (v - τ) ^ 2 ≤ δ ^ 2 := sq_le_sq' (abs_le.1 hc).1 (abs_le.1 hc).2
      simp only [List.map_cons, List.sum_cons]
      rw [sub_add_eq_sub_sub_swap, sub_add_eq_sub_sub_swap]
      refine ⟨le_trans (abs_sub _ _) (by linarith), le_trans (abs_sub _ _) ?_⟩
      rw [abs_of_nonneg (sq_nonneg (v - τ))]
      linarith
    · rw [if_neg hT, if_neg hE]
      exact ⟨by linarith, by linarith⟩

/-- The spmax formula as the minimum of a quadratic function. -/
theorem spmaxOf_eq {l : List (ℚ × K)} (h : l ≠ []) (τ : ℚ) :
    spmaxOf (l.map Prod.fst) = 1 / 2 + τ + (l.map fun p => (p.1 - τ) ^ 2).sum / 2 - (l.map Prod.fst).length * (tau (l.map Prod.fst) - τ) ^ 2 / 2 := by
  have hk : (l.length : ℚ) ≠ 0 := by exact_mod_cast (List.length_pos_of_ne_nil h).ne'
  have e1 : ∀ (l : List (ℚ × K)) (c : ℚ), (l.map fun p => p.1 ^ 2 / 2 - c).sum = (l.map fun p => p.1 ^ 2).sum / 2 - l.length * c := by
    intro l c
    induction l with
    | nil => simp
    | cons p l ih => simp only [List.map_cons, List.sum_cons, ih, List.length_cons]; push_cast; ring
  have e2 : ∀ (l : List (ℚ × K)), (l.map fun p => (p.1 - τ) ^ 2).sum = (l.map fun p => p.1 ^ 2).sum - 2 * τ * (l.map Prod.fst).sum + l.length * τ ^ 2 := by
    intro l
    induction l with
    | nil => simp
    | cons p l ih => simp only [List.map_cons, List.sum_cons, ih, List.length_cons]; push_cast; ring
  unfold spmaxOf
  rw [List.map_map, List.length_map]
  simp only [Function.comp_def]
  rw [e1, e2]
  unfold tau
  rw [List.length_map]
  field_simp
  ring

/-- What the errors in the sparse set change. -/
theorem sparse_change {B : ℚ} (hB : 1 ≤ B) {desc : List (ℚ × K)} (hsort : desc.Pairwise fun p q => q.1 ≤ p.1) (hn : desc.length ≤ 1000)
    (hv : ∀ p ∈ desc, IsDouble p.1 ∧ |p.1| ≤ B) (h0 : support 0 0 desc ≠ []) (hT : sparseSet desc ≠ []) :
    |tau ((sparseSet desc).map Prod.fst) - tau ((support 0 0 desc).map Prod.fst)| ≤ desc.length * (8 * desc.length * desc.length * (unit * B)) ∧
    |spmaxOf ((sparseSet desc).map Prod.fst) - spmaxOf ((support 0 0 desc).map Prod.fst)| ≤ desc.length ^ 2 * (8 * desc.length * desc.length * (unit * B)) ^ 2 := by
  set τ := tau ((support 0 0 desc).map Prod.fst) with hτ
  set δ := (8 * desc.length * desc.length * (unit * B) : ℚ) with hδ
  obtain ⟨h1, h2⟩ := sparseLoop_near (τ := τ) (δ := δ) hB hn hδ desc 0 0 0 (by simp) isDouble_zero hv (by simp) (by simp) (by
    exact support_near hsort h0)
  simp only [Nat.cast_zero] at h1 h2
  change |((sparseSet desc).map fun p => p.1 - τ).sum - _| ≤ _ at h1
  change |((sparseSet desc).map fun p => (p.1 - τ) ^ 2).sum - _| ≤ _ at h2
  have s1 := spmaxOf_eq h0 τ
  rw [← hτ, sub_self] at s1
  have s2 := spmaxOf_eq hT τ
  have t1 := tau_mul (vs := (support 0 0 desc).map Prod.fst) (by simpa using h0)
  have t2 := tau_mul (vs := (sparseSet desc).map Prod.fst) (by simpa using hT)
  rw [← hτ] at t1
  rw [sum_sub_const, sum_sub_const] at h1
  set τ' := tau ((sparseSet desc).map Prod.fst) with hτ'
  have hk : 1 ≤ (sparseSet desc).length := List.length_pos_of_ne_nil hT
  have hd : 1 ≤ desc.length := le_trans hk sparse_sub.length_le
  rw [List.length_map] at *
  generalize spmaxOf ((sparseSet desc).map Prod.fst) = X at *
  generalize spmaxOf ((support 0 0 desc).map Prod.fst) = Y at *
  generalize ((sparseSet desc).map fun p => (p.1 - τ) ^ 2).sum = U at *
  generalize ((support 0 0 desc).map fun p => (p.1 - τ) ^ 2).sum = W at *
  generalize ((sparseSet desc).map Prod.fst).sum = P at *
  generalize ((support 0 0 desc).map Prod.fst).sum = Q at *
  generalize (support 0 0 desc).length = l2 at *
  have ht : (1 : ℚ) ≤ (sparseSet desc).length := by exact_mod_cast hk
  generalize ((sparseSet desc).length : ℚ) = t at *
  have hn1 : (1 : ℚ) ≤ desc.length := by exact_mod_cast hd
  generalize (desc.length : ℚ) = n at *
  have hδ0 : 0 ≤ δ := by
    have := le_trans (abs_nonneg _) h1
    by_contra hc
    nlinarith
  have k1 : |t * (τ' - τ)| ≤ n * δ := by
    have : t * (τ' - τ) = P - t * τ - (Q - l2 * τ) := by linarith
    rwa [this]
  have k2 : |τ' - τ| ≤ n * δ := by
    rw [abs_mul, abs_of_pos (by linarith)] at k1
    have := mul_le_mul_of_nonneg_right ht (abs_nonneg (τ' - τ))
    linarith
  refine ⟨k2, ?_⟩
  have k3 : t * (τ' - τ) ^ 2 ≤ (n * δ) ^ 2 := by
    have h3 : |t * (τ' - τ)| * |τ' - τ| ≤ (n * δ) * (n * δ) := mul_le_mul k1 k2 (abs_nonneg _) (by positivity)
    rw [abs_mul, abs_of_pos (by linarith), mul_assoc, ← sq, sq_abs] at h3
    linarith
  have k4 : 0 ≤ t * (τ' - τ) ^ 2 := by positivity
  have k5 : n * δ ^ 2 ≤ (n * δ) ^ 2 := by
    rw [mul_pow n δ 2]
    exact mul_le_mul_of_nonneg_right (le_self_pow₀ hn1 two_ne_zero) (sq_nonneg _)
  have k6 : X - Y = (U - W) / 2 - t * (τ' - τ) ^ 2 / 2 := by rw [s1, s2]; ring
  rw [k6, ← mul_pow]
  have k7 := abs_le.1 h2
  rw [abs_le]
  constructor <;> linarith

theorem sparsemax_tau (vs : List ℚ) (x : ℚ) : sparsemaxOf vs x = max 0 (x - tau vs) := rfl

theorem pos_change (a b x : ℚ) : |max 0 (x - a) - max 0 (x - b)| ≤ |a - b| := by
  have h1 := neg_abs_le (a - b)
  have h2 := le_abs_self (a - b)
  rw [abs_le]
  constructor
  · have : max 0 (x - b) ≤ max 0 (x - a) + |a - b| := max_le (by have := le_max_left 0 (x - a); linarith) (by have := le_max_right 0 (x - a); linarith)
    linarith
  · have : max 0 (x - a) ≤ max 0 (x - b) + |a - b| := max_le (by have := le_max_left 0 (x - b); linarith) (by have := le_max_right 0 (x - b); linarith)
    linarith

theorem sparsemax_change (vs ws : List ℚ) (x : ℚ) : |sparsemaxOf vs x - sparsemaxOf ws x| ≤ |tau vs - tau ws| := by
  rw [sparsemax_tau, sparsemax_tau]
  exact pos_change _ _ _

theorem sparse_ne' {B : ℚ} (hB2 : B ≤ 2 ^ 53 - 2) {desc : List (ℚ × K)} (h0 : desc ≠ []) (hv : ∀ p ∈ desc, IsDouble p.1 ∧ |p.1| ≤ B) : sparseSet desc ≠ [] := by
  cases desc with
  | nil => exact absurd rfl h0
  | cons p l =>
    obtain ⟨v, a⟩ := p
    obtain ⟨h1, h2⟩ := hv (v, a) (by simp)
    exact sparse_ne h1 (le_trans h2 hB2)

end Verif.Fp
