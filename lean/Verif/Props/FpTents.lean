import Verif.Proofs.FpSparse

/-!
# C88: TENTS in floating point

Values are the values of the children divided by the temperature.  `desc` lists them in decreasing order, as the node stores them.
-/

namespace Verif.Props

open Verif.Fp
open Verif.Sampling (Draw)

variable {K : Type}

theorem support_ne {desc : List (ℚ × K)} (h : desc ≠ []) : support 0 0 desc ≠ [] := by
  cases desc with
  | nil => exact absurd rfl h
  | cons p l =>
    obtain ⟨v, a⟩ := p
    unfold support
    rw [if_pos (by push_cast; linarith)]
    simp

/-- The sparse set is the exact one if no value is next to its boundary. -/
theorem c88_sparse_partial {B : ℚ} (hB : 1 ≤ B) {desc : List (ℚ × K)} (hn : desc.length ≤ 1000) (hv : ∀ p ∈ desc, IsDouble p.1 ∧ |p.1| ≤ B)
    (hclear : Clear (8 * desc.length * desc.length * (unit * B)) 0 0 desc) : sparseSet desc = support 0 0 desc :=
  sparseLoop_clear hB hn desc 0 0 0 (by omega) isDouble_zero hv (by simp) (by simp) (by exact_mod_cast hclear)

/-- C88, the value, as far as it holds: with values between `-B` and `B`, none of them within `8 n^2 B 2^-53` of the boundary of the sparse set, the computed value is the
exact spmax up to `90 n^2 B^2 2^-53`. -/
theorem c88_value_partial {sq : ℚ → ℚ} (hsq : GoodSq sq) {B : ℚ} (hB : 1 ≤ B) {desc : List (ℚ × K)} (h0 : desc ≠ []) (hn : desc.length ≤ 1000)
    (hv : ∀ p ∈ desc, IsDouble p.1 ∧ |p.1| ≤ B) (hclear : Clear (8 * desc.length * desc.length * (unit * B)) 0 0 desc) :
    |spmax sq desc - spmaxOf ((support 0 0 desc).map Prod.fst)| ≤ 90 * (desc.length * desc.length) * (unit * (B * B)) := by
  have e := c88_sparse_partial hB hn hv hclear
  have hl : (support 0 0 desc).length ≤ desc.length := support_sub.length_le
  have h := spmax_err hsq hB (desc := desc) (by rw [e]; omega) (by rw [e]; exact support_ne h0) (fun p hp => hv p (by rw [e] at hp; exact support_sub.subset hp))
  rw [e] at h
  refine le_trans h ?_
  have h1 : ((support 0 0 desc).length : ℚ) ≤ desc.length := by exact_mod_cast hl
  have h2 : ((support 0 0 desc).length : ℚ) * (support 0 0 desc).length ≤ desc.length * desc.length := mul_le_mul h1 h1 (by positivity) (by positivity)
  have h3 : 0 ≤ unit * (B * B) := mul_nonneg unit_pos.le (by nlinarith)
  have := mul_le_mul_of_nonneg_right h2 h3
  linarith

/-- C88, the value, wherever the values are: with values between `-B` and `B`, `B` at most `2^53 - 2`, the computed value is the exact spmax up to `91 n^2 B^2 2^-53`.
A value that is wrongly in or out of the sparse set is next to the threshold, where it does not matter.  Missing: more than 1000 actions, and larger values, for which it is
false. -/
theorem c88_value_everywhere_partial {sq : ℚ → ℚ} (hsq : GoodSq sq) {B : ℚ} (hB : 1 ≤ B) (hB2 : B ≤ 2 ^ 53 - 2) {desc : List (ℚ × K)} (h0 : desc ≠ [])
    (hsort : desc.Pairwise fun p q => q.1 ≤ p.1) (hn : desc.length ≤ 1000) (hv : ∀ p ∈ desc, IsDouble p.1 ∧ |p.1| ≤ B) :
    |spmax sq desc - spmaxOf ((support 0 0 desc).map Prod.fst)| ≤ 91 * (desc.length * desc.length) * (unit * (B * B)) := by
  have hT := sparse_ne' hB2 h0 hv
  have hl : (sparseSet desc).length ≤ desc.length := sparse_sub.length_le
  have h1 := spmax_err hsq hB (desc := desc) (by omega) hT (fun p hp => hv p (sparse_sub.subset hp))
  have h2 := (sparse_change hB hsort hn hv (support_ne h0) hT).2
  have h3 := abs_sub_le (spmax sq desc) (spmaxOf ((sparseSet desc).map Prod.fst)) (spmaxOf ((support 0 0 desc).map Prod.fst))
  have hu := unit_pos
  have hk : ((sparseSet desc).length : ℚ) * (sparseSet desc).length ≤ desc.length * desc.length := by exact_mod_cast Nat.mul_le_mul hl hl
  have hn' : (desc.length : ℚ) ≤ 1000 := by exact_mod_cast hn
  have hn0 : (0 : ℚ) ≤ desc.length := by positivity
  generalize ((sparseSet desc).length : ℚ) = k at *
  generalize (desc.length : ℚ) = n at *
  have hX : 0 ≤ unit * (B * B) := by positivity
  have h4 : 90 * (k * k) * (unit * (B * B)) ≤ 90 * (n * n) * (unit * (B * B)) := mul_le_mul_of_nonneg_right (by linarith) hX
  have h5 : n ^ 2 * (8 * n * n * (unit * B)) ^ 2 = (64 * n ^ 4 * unit) * ((n * n) * (unit * (B * B))) := by ring
  have h6 : 64 * n ^ 4 * unit ≤ 1 := by
    have h7 : n ^ 4 ≤ 1000 ^ 4 := pow_le_pow_left₀ hn0 hn' 4
    have h8 : 64 * n ^ 4 * unit ≤ 64 * 1000 ^ 4 * unit := mul_le_mul_of_nonneg_right (by linarith) hu.le
    refine le_trans h8 ?_
    rw [unit_eq]; norm_num
  have h9 : (64 * n ^ 4 * unit) * ((n * n) * (unit * (B * B))) ≤ 1 * ((n * n) * (unit * (B * B))) := mul_le_mul_of_nonneg_right h6 (by positivity)
  linarith

/-- C88, the policy, as far as it holds: under the same conditions, if the stored values are the current ones, the search policy gives each action its sparsemax weight,
mixed with the uniform policy, up to `40 n^2 B 2^-53`. -/
theorem c88_policy_partial {q : K → ℚ} {B : ℚ} (hB : 1 ≤ B) (hB2 : B ≤ 2 ^ 100) {desc : List (ℚ × K)} {actions : List K} (h0 : desc ≠ [])
    (hsort : desc.Pairwise fun p q => q.1 ≤ p.1) (hperm : (desc.map Prod.snd).Perm actions) (hcur : ∀ p ∈ desc, q p.2 = p.1) (hn : desc.length ≤ 1000)
    (hv : ∀ p ∈ desc, IsDouble p.1 ∧ |p.1| ≤ B) (hclear : Clear (8 * desc.length * desc.length * (unit * B)) 0 0 desc)
    (hsmall : desc.length * desc.length * (unit * B) ≤ 1 / 100) {lam : ℚ} (hl : IsDouble lam) (hl0 : 0 ≤ lam) (hl1 : lam ≤ 1) :
    ∃ ws sum, ∃ prob : K → ℚ, tentsWeights q desc actions = some (ws, sum) ∧ mixtureW lam sum ws = actions.map (fun a => (a, prob a)) ∧
      ∀ a ∈ actions, |prob a - ((1 - lam) * sparsemaxOf ((support 0 0 desc).map Prod.fst) (q a) + lam / desc.length)| ≤ 40 * (desc.length * desc.length) * (unit * B) :=
  by
  have e := c88_sparse_partial hB hn hv hclear
  have := policyTents_err (E := 0) hB hB2 (support_ne h0) (by rw [e]; exact support_ne h0) (by rw [e]; simp) hsort hperm hcur hn hv (by simpa using hsmall) hl hl0 hl1
  simpa using this

/-- C88, the policy, wherever the values are: the same up to `56 n^4 B 2^-53`, if this is small. -/
theorem c88_policy_everywhere_partial {q : K → ℚ} {B : ℚ} (hB : 1 ≤ B) {desc : List (ℚ × K)} {actions : List K} (h0 : desc ≠ [])
    (hsort : desc.Pairwise fun p q => q.1 ≤ p.1) (hperm : (desc.map Prod.snd).Perm actions) (hcur : ∀ p ∈ desc, q p.2 = p.1) (hn : desc.length ≤ 1000)
    (hv : ∀ p ∈ desc, IsDouble p.1 ∧ |p.1| ≤ B)
    (hsmall : desc.length ^ 4 * (unit * B) ≤ 1 / 1000) {lam : ℚ} (hl : IsDouble lam) (hl0 : 0 ≤ lam) (hl1 : lam ≤ 1) :
    ∃ ws sum, ∃ prob : K → ℚ, tentsWeights q desc actions = some (ws, sum) ∧ mixtureW lam sum ws = actions.map (fun a => (a, prob a)) ∧
      ∀ a ∈ actions, |prob a - ((1 - lam) * sparsemaxOf ((support 0 0 desc).map Prod.fst) (q a) + lam / desc.length)| ≤ 56 * desc.length ^ 4 * (unit * B) := by
  have hu := unit_pos
  have hn1 : (1 : ℚ) ≤ desc.length := by exact_mod_cast List.length_pos_of_ne_nil h0
  have huB : 0 < unit * B := by positivity
  have h1 : unit * B ≤ 1 / 1000 := by
    have := mul_le_mul_of_nonneg_right (one_le_pow₀ hn1 (n := 4)) huB.le
    linarith
  have hB2 : B ≤ 2 ^ 53 / 1000 := by
    rw [unit_eq] at h1
    linarith
  have hT := sparse_ne' (le_trans hB2 (by norm_num)) h0 hv
  have hc := (sparse_change hB hsort hn hv (support_ne h0) hT).1
  have h2 : (desc.length : ℚ) * desc.length ≤ desc.length ^ 4 := by
    have := pow_le_pow_right₀ hn1 (show 2 ≤ 4 by norm_num)
    linarith
  have h3 := mul_le_mul_of_nonneg_right h2 huB.le
  have h4 : (desc.length : ℚ) * (desc.length * (8 * desc.length * desc.length * (unit * B))) = 8 * (desc.length ^ 4 * (unit * B)) := by ring
  obtain ⟨ws, sum, prob, g1, g2, g3⟩ := policyTents_err (E := desc.length * (8 * desc.length * desc.length * (unit * B))) hB (le_trans hB2 (by norm_num))
    (support_ne h0) hT (fun x => by
      exact le_trans (sparsemax_change _ _ x) hc) hsort hperm hcur hn hv (by rw [h4]; linarith) hl hl0 hl1
  refine ⟨ws, sum, prob, g1, g2, fun a ha => le_trans (g3 a ha) ?_⟩
  rw [h4]
  linarith

/-- The weights that `c88_policy_partial` and `c88_value_partial` compare with sum to one. -/
theorem c88_exact_sum {desc : List (ℚ × K)} (h0 : desc ≠ []) (hsort : desc.Pairwise fun p q => q.1 ≤ p.1) :
    (desc.map fun p => sparsemaxOf ((support 0 0 desc).map Prod.fst) p.1).sum = 1 :=
  sparsemax_sum hsort (support_ne h0)

/-- C88, selecting, as far as it holds: if the largest stored value is at most `2^53 - 2`, with enough exploration an action is selected for every draw below
`1 - (5 n + 9) 2^-53`; and whatever is selected is an action of the node.  Nothing is assumed about the boundary of the sparse set, or about the stored values being
current.  Missing: larger values, no exploration, and draws next to one. -/
theorem c88_select_partial {q : K → ℚ} {M : ℚ} (hM : 1 ≤ M) (hM2 : M ≤ 2 ^ 100) {v : ℚ} {a : K} {rest : List (ℚ × K)} {actions : List K} (hv : IsDouble v) (hv2 : |v| ≤ 2 ^ 53 - 2)
    (hlen : ((v, a) :: rest).length ≤ 1000) (hn : actions.length ≤ 800) (hdesc : ∀ p ∈ (v, a) :: rest, p.2 ∈ actions) (hq : ∀ a ∈ actions, IsDouble (q a) ∧ |q a| ≤ M)
    {lam : ℚ} (hl : IsDouble lam) (hl1 : lam ≤ 1) (hbig : actions.length * (6 * actions.length + 12) * unit ≤ lam)
    {iter : List (K × ℚ) → List (K × ℚ)} (hiter : ∀ l, (iter l).Perm l) {u : ℚ} (hu0 : 0 ≤ u) :
    selectTents lam iter q ((v, a) :: rest) actions u ≠ .tooMuch ∧
    (u < 1 - (5 * actions.length + 9) * unit → ∃ b, selectTents lam iter q ((v, a) :: rest) actions u = .key b ∧ b ∈ actions) ∧
    ∀ b, selectTents lam iter q ((v, a) :: rest) actions u = .key b → b ∈ actions := by
  have hs : (sparseSet ((v, a) :: rest)).Sublist ((v, a) :: rest) := sparse_sub
  obtain ⟨h1, h2, h3⟩ := selectTents_spec hM hM2 (sparse_ne hv hv2) (le_trans hs.length_le hlen) (List.ne_nil_of_mem (hdesc (v, a) (by simp))) hn hdesc (fun p hp => hs.subset hp) hq
    hl hl1 hbig hiter hu0
  refine ⟨h1, fun hu => ?_, h3⟩
  have h2 := h2 hu
  cases hs : selectTents lam iter q ((v, a) :: rest) actions u with
  | tooMuch => exact absurd hs h1
  | tooLittle => exact absurd hs h2
  | key b => exact ⟨b, rfl, h3 b hs⟩

/-- C88 is false for large values: with two actions whose values are at least `2^54` times the temperature the sparse set is empty, so that the value of the node is one
half whatever the values are, and selecting throws for every exploration, iteration order and draw. -/
theorem c88_large_false {v w : ℚ} {a b : K} (hv : IsDouble v) (hw : IsDouble w) (h2 : 2 ^ 54 ≤ w) (h1 : w ≤ v) :
    (∀ sq : ℚ → ℚ, spmax sq [(v, a), (w, b)] = 1 / 2) ∧
    ∀ lam iter q actions u, selectTents lam iter q [(v, a), (w, b)] actions u = .tooLittle := by
  have e := sparse_empty (a := a) (b := b) hv hw h2 h1
  refine ⟨fun sq => ?_, fun lam iter q actions u => ?_⟩
  · unfold spmax
    simp only [e, List.foldl_nil]
  · unfold selectTents tentsWeights
    simp [e]

/-- The same with a single action, although the exact value is the value of that action. -/
theorem c88_large_one_false {v : ℚ} {a : K} (hv : IsDouble v) (h2 : 2 ^ 54 ≤ v) :
    (∀ sq : ℚ → ℚ, spmax sq [(v, a)] = 1 / 2) ∧ spmaxOf ((support 0 0 [(v, a)]).map Prod.fst) = v ∧
    ∀ lam iter q actions u, selectTents lam iter q [(v, a)] actions u = .tooLittle := by
  have e := sparse_empty_one (a := a) hv h2
  refine ⟨fun sq => ?_, ?_, fun lam iter q actions u => ?_⟩
  · unfold spmax
    simp only [e, List.foldl_nil]
  · have : support 0 0 [(v, a)] = [(v, a)] := by
      unfold support
      rw [if_pos (by push_cast; linarith)]
      rfl
    rw [this]
    unfold spmaxOf
    simp
    ring
  · unfold selectTents tentsWeights
    simp [e]

/-- Non-vacuity: rounding the exact square is good. -/
theorem goodSq_fl : GoodSq fun x => fl (x ^ 2) := by
  refine ⟨fun x => isDouble_fl _, fun x => ?_⟩
  have h1 := fl_err' (x ^ 2)
  rw [abs_of_nonneg (sq_nonneg x)] at h1
  have h2 : 0 ≤ unit * x ^ 2 := mul_nonneg unit_pos.le (sq_nonneg x)
  linarith

example : |spmax (fun x => fl (x ^ 2)) [(2, "a"), (fl (17 / 10), "b"), (-3, "c")] - spmaxOf [2, fl (17 / 10)]| ≤ 90 * (3 * 3) * (unit * (3 * 3)) := by
  have h := c88_value_partial goodSq_fl (B := 3) (desc := [(2, "a"), (fl (17 / 10), "b"), (-3, "c")]) (by norm_num) (by simp) (by decide) (by decide +kernel)
    (by simp only [Clear]; rw [unit_eq]; decide +kernel)
  have e : (support 0 0 [(2, "a"), (fl (17 / 10), "b"), (-3, "c")]).map Prod.fst = [2, fl (17 / 10)] := by decide +kernel
  rw [e] at h
  exact_mod_cast h

/-- Two values one temperature apart, up to rounding: the second is on the boundary of the sparse set. -/
example : |spmax (fun x => fl (x ^ 2)) [(fl (11 / 10), "a"), (fl (1 / 10), "b")] -
    spmaxOf ((support 0 0 [(fl (11 / 10), "a"), (fl (1 / 10), "b")]).map Prod.fst)| ≤ 91 * (2 * 2) * (unit * (2 * 2)) := by
  have h := c88_value_everywhere_partial goodSq_fl (B := 2) (desc := [(fl (11 / 10), "a"), (fl (1 / 10), "b")]) (by norm_num) (by norm_num) (by simp) (by decide +kernel)
    (by decide) (by decide +kernel)
  exact_mod_cast h

example : ¬ Clear (8 * 2 * 2 * (unit * 2)) 0 0 [(fl (11 / 10), "a"), (fl (1 / 10), "b")] := by
  simp only [Clear]; rw [unit_eq]; decide +kernel

example : ∃ ws sum, ∃ prob : Fin 3 → ℚ, tentsWeights (![-3, fl (17 / 10), 2]) [(2, 2), (fl (17 / 10), 1), (-3, 0)] [0, 1, 2] = some (ws, sum) ∧
    mixtureW (1 / 2) sum ws = [0, 1, 2].map (fun a => (a, prob a)) ∧ |prob 0 - 1 / 6| ≤ 40 * (3 * 3) * (unit * 3) := by
  obtain ⟨ws, sum, prob, h1, h2, h3⟩ := c88_policy_partial (B := 3) (lam := 1 / 2) (q := ![-3, fl (17 / 10), 2]) (desc := [(2, 2), (fl (17 / 10), 1), (-3, 0)]) (actions := [0, 1, 2]) (by norm_num) (by norm_num) (by simp)
    (by decide +kernel) (by decide) (by decide +kernel) (by decide) (by decide +kernel) (by simp only [Clear]; rw [unit_eq]; decide +kernel) (by rw [unit_eq]; decide +kernel)
    (by decide +kernel) (by norm_num) (by norm_num)
  refine ⟨ws, sum, prob, h1, h2, ?_⟩
  have h4 := h3 0 (by simp)
  have e : (1 - 1 / 2) * sparsemaxOf ((support 0 0 [(2, (2 : Fin 3)), (fl (17 / 10), 1), (-3, 0)]).map Prod.fst) (![-3, fl (17 / 10), 2] (0 : Fin 3)) + (1 / 2) / (3 : ℚ) = 1 / 6 := by decide +kernel
  have e2 : (([(2, (2 : Fin 3)), (fl (17 / 10), 1), (-3, 0)] : List (ℚ × Fin 3)).length : ℚ) = 3 := by norm_num
  rw [e2, e] at h4
  exact h4

example : ∃ b, selectTents (fl (1 / 10)) id (![-3, fl (17 / 10), 2]) [(2, 2), (fl (17 / 10), 1), (-3, 0)] [0, 1, 2] (9 / 10) = .key b ∧ b ∈ ([0, 1, 2] : List (Fin 3)) :=
  (c88_select_partial (M := 3) (by norm_num) (by norm_num) (by decide +kernel) (by rw [abs_of_pos] <;> norm_num) (by decide) (by decide) (by decide +kernel) (by decide +kernel) (isDouble_fl _) (by decide +kernel)
    (by rw [unit_eq]; decide +kernel) (fun _ => .refl _) (by norm_num)).2.1 (by rw [unit_eq]; norm_num)

/-- Large rewards with a small temperature meet the hypotheses of the negative theorems: a value of 20 and a temperature of `10^-15`. -/
example : 2 ^ 54 ≤ fdiv 20 (fl (1 / 10 ^ 15)) := by decide +kernel

end Verif.Props
