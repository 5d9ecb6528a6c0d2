import Verif.Proofs.FpSampling
import Verif.Proofs.FpAverage

/-!
# The search policy of MENTS in doubles
-/

namespace Verif.Fp

open Verif.Sampling (Draw)

variable {K : Type}

/-- Error of a sum of weights. -/
theorem sumFold_err {N : Nat} (hN : N ≤ 2 ^ 50) :
    ∀ (ws : List (K × ℚ)) (j : Nat) (s T : ℚ), (∀ p ∈ ws, IsDouble p.2 ∧ 0 ≤ p.2) → j + ws.length ≤ N → IsDouble s → 0 ≤ s → 0 ≤ T →
      |s - T| ≤ 2 * j * unit * T →
      |ws.foldl (fun s p => fadd s p.2) s - (T + mass ws)| ≤ 2 * (j + ws.length) * unit * (T + mass ws) := by
  intro ws
  have hu := unit_pos
  induction ws with
  | nil => intro j s T _ _ _ _ _ hs; simpa [mass] using hs
  | cons p ws ih =>
    intro j s T hw hj hd hs0 hT hs
    obtain ⟨hpd, hp0⟩ := hw p (by simp)
    simp only [List.length_cons] at hj
    have he := fadd_err hd hpd
    rw [abs_of_nonneg (a := s + p.2) (by linarith)] at he
    have hs2 := abs_le.1 hs
    have hj1 : 2 * (j : ℚ) * unit ≤ 1 := by
      have : (j : ℚ) ≤ 2 ^ 50 := by exact_mod_cast (by omega : j ≤ 2 ^ 50)
      rw [unit_eq]; nlinarith
    have h1 : |fadd s p.2 - (T + p.2)| ≤ 2 * ((j + 1 : Nat) : ℚ) * unit * (T + p.2) := by
      have hsp : fadd s p.2 - (T + p.2) = (fadd s p.2 - (s + p.2)) + (s - T) := by ring
      rw [hsp]
      refine le_trans (abs_add_le _ _) ?_
      push_cast
      have h2 : s + p.2 ≤ 2 * (T + p.2) := by nlinarith
      have h3 : unit * (s + p.2) ≤ unit * (2 * (T + p.2)) := mul_le_mul_of_nonneg_left h2 hu.le
      have h4 : 2 * (j : ℚ) * unit * T ≤ 2 * j * unit * (T + p.2) := mul_le_mul_of_nonneg_left (by linarith) (by positivity)
      linarith
    have := ih (j + 1) (fadd s p.2) (T + p.2) (fun q hq => hw q (by simp [hq])) (by omega) (isDouble_fl _) (fl_nonneg (by linarith)) (by linarith) h1
    rw [mass_cons, ← add_assoc]
    simp only [List.foldl_cons, List.length_cons]
    push_cast at this ⊢
    rw [show (j : ℚ) + (ws.length + 1) = j + 1 + ws.length by ring]
    exact this

theorem sumWeights_err {ws : List (K × ℚ)} (hn : ws.length ≤ 2 ^ 50) (hw : ∀ p ∈ ws, IsDouble p.2 ∧ 0 ≤ p.2) :
    |sumWeights ws - mass ws| ≤ 2 * ws.length * unit * mass ws := by
  have := sumFold_err hn ws 0 0 0 hw (by omega) isDouble_zero (le_refl _) (le_refl _) (by simp)
  simpa [sumWeights] using this

/-- The factor of the weights. -/
theorem factor_err {n : Nat} (h0 : 1 ≤ n) (hn : n ≤ 1000) {s S lam : ℚ} (hS : 0 < S) (hs : |s - S| ≤ 2 * n * unit * S)
    (hl : IsDouble lam) (hl0 : 0 ≤ lam) (hl1 : lam ≤ 1) :
    0 ≤ fdiv (fsub 1 lam) s ∧ |fdiv (fsub 1 lam) s - (1 - lam) / S| ≤ (3 * n + 4) * unit * ((1 - lam) / S) + tiny := by
  have hu := unit_pos
  have hsm := unit_small
  have ht := tiny_pos
  have hnq : (1 : ℚ) ≤ n := by exact_mod_cast h0
  have hnq2 : (n : ℚ) ≤ 1000 := by exact_mod_cast hn
  have hnu : 2 * (n : ℚ) * unit ≤ 1 / 20 := by rw [unit_eq]; linarith
  have hs' := abs_le.1 hs
  have hs1 : 19 / 20 * S ≤ s := by nlinarith
  have hsp : 0 < s := by linarith
  set l := 1 - lam with hld
  have hl' : 0 ≤ l := by linarith
  have hl'1 : l ≤ 1 := by linarith
  have e1 := fsub_err isDouble_one hl
  rw [← hld, abs_of_nonneg hl'] at e1
  have hf0 : 0 ≤ fsub 1 lam := fl_nonneg hl'
  generalize fsub 1 lam = f at *
  have e1' := abs_le.1 e1
  -- the factor
  have hfS : f / s ≤ l / S * (106 / 100) := by
    rw [div_mul_eq_mul_div, div_le_div_iff₀ hsp (by linarith)]
    have h1 : f ≤ l * (1 + 1 / 1000000) := by nlinarith
    have h2 : f * S ≤ l * (1 + 1 / 1000000) * S := mul_le_mul_of_nonneg_right h1 (by linarith)
    have h3 : l * (106 / 100) * (19 / 20 * S) ≤ l * (106 / 100) * s := mul_le_mul_of_nonneg_left hs1 (by positivity)
    have h4 : 0 ≤ l * S := mul_nonneg hl' (by linarith)
    nlinarith
  have hlS0 : 0 ≤ l / S := div_nonneg hl' (by linarith)
  have hfs0 : 0 ≤ f / s := div_nonneg hf0 hsp.le
  have e2 : |f / s - l / S| ≤ (2 * n + 1) * (106 / 100) * unit * (l / S) := by
    have hsp2 : f / s - l / S = (f - l) / s + l * (S - s) / (s * S) := by field_simp; ring
    rw [hsp2]
    refine le_trans (abs_add_le _ _) ?_
    have hi : 1 / s ≤ 106 / 100 * (1 / S) := by
      rw [← mul_div_assoc, mul_one, div_le_div_iff₀ hsp (by linarith)]
      linarith
    have h1 : |(f - l) / s| ≤ unit * l * (106 / 100 * (1 / S)) := by
      rw [abs_div, abs_of_pos hsp, div_eq_mul_one_div]
      exact mul_le_mul e1 hi (by positivity) (by positivity)
    have h2 : |l * (S - s) / (s * S)| ≤ l * (2 * n * unit) * (106 / 100 * (1 / S)) := by
      rw [abs_div, abs_mul, abs_of_nonneg hl', abs_of_pos (mul_pos hsp (by linarith : (0:ℚ) < S)), abs_sub_comm]
      have h3 : l * |s - S| / (s * S) ≤ l * (2 * n * unit * S) / (s * S) := by
        rw [div_le_div_iff_of_pos_right (mul_pos hsp (by linarith))]
        exact mul_le_mul_of_nonneg_left hs hl'
      refine le_trans h3 ?_
      have h4 : l * (2 * n * unit * S) / (s * S) = l * (2 * n * unit) * (1 / s) := by field_simp
      rw [h4]
      exact mul_le_mul_of_nonneg_left hi (by positivity)
    have h5 : (2 * n + 1) * (106 / 100) * unit * (l / S) = unit * l * (106 / 100 * (1 / S)) + l * (2 * n * unit) * (106 / 100 * (1 / S)) := by
      rw [div_eq_mul_one_div l S]; ring
    linarith
  have e3 := fl_err' (f / s)
  rw [abs_of_nonneg hfs0] at e3
  change |fdiv f s - f / s| ≤ _ at e3
  have hc0 : 0 ≤ fdiv f s := fl_nonneg hfs0
  generalize fdiv f s = c at *
  generalize hq : f / s = q at *
  generalize hL : l / S = L at *
  refine ⟨hc0, ?_⟩
  · have h1 : c - L = (c - q) + (q - L) := by ring
    rw [h1]
    refine le_trans (abs_add_le _ _) ?_
    have h2 : unit * q ≤ unit * (L * (106 / 100)) := mul_le_mul_of_nonneg_left hfS hu.le
    have h3 : 0 ≤ unit * L := mul_nonneg hu.le hlS0
    nlinarith

theorem prod_err {n : Nat} (h0 : 1 ≤ n) (hn : n ≤ 1000) {c L w W : ℚ} (hc0 : 0 ≤ c) (hL : 0 ≤ L) (hw0 : 0 ≤ w) (hW : 1 ≤ W) (hw1 : w ≤ W)
    (e4 : |c - L| ≤ (3 * n + 4) * unit * L + tiny) : |fmul w c - w * L| ≤ (3 * n + 6) * unit * (w * L) + 3 * (W * tiny) := by
  have hu := unit_pos
  have hsm := unit_small
  have ht := tiny_pos
  have hnq2 : (n : ℚ) ≤ 1000 := by exact_mod_cast hn
  have e4' := abs_le.1 e4
  have hnu3 : (3 * (n : ℚ) + 4) * unit ≤ 1 / 100 := by rw [unit_eq]; linarith
  have hc2 : c ≤ 2 * L + tiny := by nlinarith
  have e5 := fl_err' (w * c)
  change |fmul w c - w * c| ≤ _ at e5
  rw [abs_of_nonneg (mul_nonneg hw0 hc0)] at e5
  have h1 : fmul w c - w * L = (fmul w c - w * c) + w * (c - L) := by ring
  rw [h1]
  refine le_trans (abs_add_le _ _) ?_
  rw [abs_mul, abs_of_nonneg hw0]
  have h2 : w * |c - L| ≤ w * ((3 * n + 4) * unit * L + tiny) := mul_le_mul_of_nonneg_left e4 hw0
  have h3 : w * c ≤ w * (2 * L + tiny) := mul_le_mul_of_nonneg_left hc2 hw0
  have h4 : unit * (w * c) ≤ unit * (w * (2 * L + tiny)) := mul_le_mul_of_nonneg_left h3 hu.le
  have h5 : w * tiny ≤ W * tiny := mul_le_mul_of_nonneg_right hw1 ht.le
  have h5' : tiny ≤ W * tiny := le_mul_of_one_le_left ht.le hW
  have h6 : unit * (w * tiny) ≤ W * tiny := by
    have : unit * (w * tiny) ≤ unit * (W * tiny) := mul_le_mul_of_nonneg_left h5 hu.le
    have : unit * (W * tiny) ≤ 1 * (W * tiny) := mul_le_mul_of_nonneg_right (by linarith) (by linarith)
    linarith
  have h7 : w * ((3 * n + 4) * unit * L + tiny) = (3 * n + 4) * unit * (w * L) + w * tiny := by ring
  have h8 : unit * (w * (2 * L + tiny)) = 2 * unit * (w * L) + unit * (w * tiny) := by ring
  have h9 : (3 * (n : ℚ) + 6) * unit * (w * L) = (3 * n + 4) * unit * (w * L) + 2 * unit * (w * L) := by ring
  linarith

theorem unif_err {n : Nat} (h0 : 1 ≤ n) (hn : n ≤ 1000) {lam : ℚ} (hl0 : 0 ≤ lam) (hl1 : lam ≤ 1) :
    0 ≤ fmul lam (fdiv 1 (fl (n : ℚ))) ∧ |fmul lam (fdiv 1 (fl (n : ℚ))) - lam * (1 / n)| ≤ 3 * unit * (lam * (1 / n)) + 2 * tiny := by
  have hu := unit_pos
  have ht := tiny_pos
  obtain ⟨i1, i2, i3⟩ := inv_err h0 (le_trans hn (by norm_num))
  generalize fdiv 1 (fl (n : ℚ)) = U at *
  refine ⟨fl_nonneg (mul_nonneg hl0 i2), ?_⟩
  have e7 := fl_err' (lam * U)
  change |fmul lam U - lam * U| ≤ _ at e7
  rw [abs_of_nonneg (mul_nonneg hl0 i2)] at e7
  have h1 : fmul lam U - lam * (1 / n) = (fmul lam U - lam * U) + lam * (U - 1 / n) := by ring
  rw [h1]
  refine le_trans (abs_add_le _ _) ?_
  rw [abs_mul, abs_of_nonneg hl0]
  have h2 : lam * |U - 1 / n| ≤ lam * (unit * (1 / n) + tiny) := mul_le_mul_of_nonneg_left i1 hl0
  have h3 : unit * (lam * U) ≤ unit * (lam * (2 * (1 / n))) := mul_le_mul_of_nonneg_left (mul_le_mul_of_nonneg_left i3 hl0) hu.le
  have h5 : lam * tiny ≤ tiny := mul_le_of_le_one_left ht.le hl1
  have h6 : lam * (unit * (1 / n) + tiny) = unit * (lam * (1 / n)) + lam * tiny := by ring
  have h7 : unit * (lam * (2 * (1 / n))) = 2 * (unit * (lam * (1 / n))) := by ring
  have h8 : 3 * unit * (lam * (1 / n)) = 2 * (unit * (lam * (1 / n))) + unit * (lam * (1 / n)) := by ring
  linarith

theorem join_err {n : Nat} (h0 : 1 ≤ n) (hn : n ≤ 1000) {a b x y t : ℚ} (ht : 0 ≤ t) (ha : IsDouble a) (hb : IsDouble b) (ha0 : 0 ≤ a) (hb0 : 0 ≤ b) (hx : 0 ≤ x) (hy : 0 ≤ y)
    (e6 : |a - x| ≤ (3 * n + 6) * unit * x + 3 * t) (e8 : |b - y| ≤ 3 * unit * y + 2 * t) :
    |fadd a b - (x + y)| ≤ (3 * n + 8) * unit * (x + y) + 8 * t := by
  have hu := unit_pos
  have hsm := unit_small
  have hnq : (1 : ℚ) ≤ n := by exact_mod_cast h0
  have hnq2 : (n : ℚ) ≤ 1000 := by exact_mod_cast hn
  have e9 := fadd_err ha hb
  rw [abs_of_nonneg (add_nonneg ha0 hb0)] at e9
  have e6' := (abs_le.1 e6).2
  have e8' := (abs_le.1 e8).2
  have hnu4 : (3 * (n : ℚ) + 6) * unit ≤ 1 / 100 := by rw [unit_eq]; linarith
  have hq1 : (3 * (n : ℚ) + 6) * unit * x ≤ 1 / 100 * x := mul_le_mul_of_nonneg_right hnu4 hx
  have hq2 : 3 * unit * y ≤ 1 / 100 * y := mul_le_mul_of_nonneg_right (by linarith) hy
  have h2 : a + b ≤ 2 * (x + y) + 5 * t := by linarith
  have h3 : unit * (a + b) ≤ unit * (2 * (x + y) + 5 * t) := mul_le_mul_of_nonneg_left h2 hu.le
  have h4 : fadd a b - (x + y) = (fadd a b - (a + b)) + ((a - x) + (b - y)) := by ring
  rw [h4]
  have h5 := abs_add_le (fadd a b - (a + b)) ((a - x) + (b - y))
  have h6 := abs_add_le (a - x) (b - y)
  have hny : 0 ≤ (n : ℚ) * (unit * y) := by positivity
  have huy : 0 ≤ unit * y := mul_nonneg hu.le hy
  have h7 : 3 * unit * y ≤ (3 * n + 6) * unit * y := by
    have : (3 * (n : ℚ) + 6) * unit * y = 3 * (n * (unit * y)) + 6 * (unit * y) := by ring
    linarith
  have h8 : unit * (5 * t) ≤ 3 * t := by
    have : unit * t ≤ 1 / 1000000 * t := mul_le_mul_of_nonneg_right hsm ht
    linarith
  have h9 : unit * (2 * (x + y) + 5 * t) = 2 * unit * (x + y) + unit * (5 * t) := by ring
  have h10 : (3 * (n : ℚ) + 8) * unit * (x + y) = (3 * n + 6) * unit * x + (3 * n + 6) * unit * y + 2 * unit * (x + y) := by ring
  linarith

/-- Error of one probability of the search policy. -/
theorem prob_err {n : Nat} (h0 : 1 ≤ n) (hn : n ≤ 1000) {s S w W lam : ℚ} (hS : 0 < S) (hs : |s - S| ≤ 2 * n * unit * S) (hw0 : 0 ≤ w) (hW : 1 ≤ W) (hw1 : w ≤ W)
    (hl : IsDouble lam) (hl0 : 0 ≤ lam) (hl1 : lam ≤ 1) :
    |fadd (fmul w (fdiv (fsub 1 lam) s)) (fmul lam (fdiv 1 (fl (n : ℚ)))) - exactMix lam S n w| ≤ (3 * n + 8) * unit * exactMix lam S n w + 8 * (W * tiny) := by
  obtain ⟨hc, e1⟩ := factor_err h0 hn hS hs hl hl0 hl1
  have hL : 0 ≤ (1 - lam) / S := div_nonneg (by linarith) hS.le
  have e2 := prod_err h0 hn hc hL hw0 hW hw1 e1
  obtain ⟨hb, e3⟩ := unif_err h0 hn hl0 hl1
  have hn0 : (0 : ℚ) ≤ 1 / n := by positivity
  have hex : exactMix lam S n w = w * ((1 - lam) / S) + lam * (1 / n) := by unfold exactMix; ring
  rw [hex]
  have ht := tiny_pos
  have hWt : tiny ≤ W * tiny := le_mul_of_one_le_left ht.le hW
  exact join_err h0 hn (le_trans ht.le hWt) (isDouble_fl _) (isDouble_fl _) (fl_nonneg (mul_nonneg hw0 hc)) hb (mul_nonneg hw0 hL) (mul_nonneg hl0 hn0) e2 (le_trans e3 (by linarith))

/-! ## The distribution -/

theorem sum_err {α : Type} {f g : α → ℚ} {a b : ℚ} : ∀ {l : List α}, (∀ p ∈ l, |f p - g p| ≤ a * g p + b) →
    |(l.map f).sum - (l.map g).sum| ≤ a * (l.map g).sum + l.length * b := by
  intro l
  induction l with
  | nil => intro _; simp
  | cons p l ih =>
    intro h
    have h1 := h p (by simp)
    have h2 := ih fun q hq => h q (by simp [hq])
    simp only [List.map_cons, List.sum_cons, List.length_cons]
    have h3 : f p + (l.map f).sum - (g p + (l.map g).sum) = (f p - g p) + ((l.map f).sum - (l.map g).sum) := by ring
    rw [h3]
    refine le_trans (abs_add_le _ _) ?_
    push_cast
    linarith

theorem exactMix_sum {lam S n : ℚ} : ∀ (ws : List (K × ℚ)), (ws.map fun p => exactMix lam S n p.2).sum = (1 - lam) * (mass ws / S) + ws.length * (lam / n) := by
  intro ws
  induction ws with
  | nil => simp [mass]
  | cons p ws ih =>
    simp only [List.map_cons, List.sum_cons, List.length_cons, ih, mass_cons]
    unfold exactMix
    push_cast
    ring

/-- Weights as `compute_action_weights` makes them: doubles between zero and one, and one of them one. -/
structure GoodWeights (ws : List (K × ℚ)) : Prop where
  dbl : ∀ p ∈ ws, IsDouble p.2
  nonneg : ∀ p ∈ ws, 0 ≤ p.2
  le_one : ∀ p ∈ ws, p.2 ≤ 1
  one : ∃ p ∈ ws, p.2 = 1

theorem GoodWeights.one_le {ws : List (K × ℚ)} (h : GoodWeights ws) : 1 ≤ mass ws := by
  obtain ⟨p, hp, e⟩ := h.one
  have := le_mass h.nonneg hp
  linarith

theorem GoodWeights.length {ws : List (K × ℚ)} (h : GoodWeights ws) : 1 ≤ ws.length := by
  obtain ⟨p, hp, -⟩ := h.one
  exact List.length_pos_of_mem hp

/-- Weights and their computed sum: enough for the search policy to be a distribution up to rounding. -/
structure PosWeights (W s : ℚ) (ws : List (K × ℚ)) : Prop where
  one_le : 1 ≤ W
  small : W * tiny ≤ unit * unit
  nonneg : ∀ p ∈ ws, 0 ≤ p.2
  le : ∀ p ∈ ws, p.2 ≤ W
  pos : 0 < mass ws
  sum : |s - mass ws| ≤ 2 * ws.length * unit * mass ws

theorem PosWeights.length {W s : ℚ} {ws : List (K × ℚ)} (h : PosWeights W s ws) : 1 ≤ ws.length := by
  cases ws with
  | nil => have := h.pos; simp [mass] at this
  | cons p ws => simp

theorem tiny_le_unit : tiny ≤ unit * unit := by
  refine le_trans tiny_le ?_
  rw [unit_eq]; norm_num

theorem GoodWeights.toPos {ws : List (K × ℚ)} (h : GoodWeights ws) (hn : ws.length ≤ 2 ^ 50) : PosWeights 1 (sumWeights ws) ws :=
  ⟨le_refl _, by rw [one_mul]; exact tiny_le_unit, h.nonneg, h.le_one, by have := h.one_le; linarith,
    sumWeights_err hn fun q hq => ⟨h.dbl q hq, h.nonneg q hq⟩⟩

theorem mixtureW_err {W s : ℚ} {ws : List (K × ℚ)} (h : PosWeights W s ws) (hn : ws.length ≤ 1000) {lam : ℚ} (hl : IsDouble lam) (hl0 : 0 ≤ lam) (hl1 : lam ≤ 1) :
    ∀ p ∈ ws, |fadd (fmul p.2 (fdiv (fsub 1 lam) s)) (fmul lam (fdiv 1 (fl (ws.length : ℚ)))) - exactMix lam (mass ws) ws.length p.2| ≤
      (3 * ws.length + 8) * unit * exactMix lam (mass ws) ws.length p.2 + 8 * (W * tiny) := by
  intro p hp
  exact prob_err h.length hn h.pos h.sum (h.nonneg p hp) h.one_le (h.le p hp) hl hl0 hl1

theorem mixture_err {ws : List (K × ℚ)} (h : GoodWeights ws) (hn : ws.length ≤ 1000) {lam : ℚ} (hl : IsDouble lam) (hl0 : 0 ≤ lam) (hl1 : lam ≤ 1) :
    ∀ p ∈ ws, |fadd (fmul p.2 (fdiv (fsub 1 lam) (sumWeights ws))) (fmul lam (fdiv 1 (fl (ws.length : ℚ)))) - exactMix lam (mass ws) ws.length p.2| ≤
      (3 * ws.length + 8) * unit * exactMix lam (mass ws) ws.length p.2 + 8 * tiny := by
  intro p hp
  have := mixtureW_err (h.toPos (le_trans hn (by norm_num))) hn hl hl0 hl1 p hp
  rwa [one_mul] at this

theorem tiny_8 {n : Nat} (h : n ≤ 1000) {t : ℚ} (ht : t ≤ unit * unit) : (n : ℚ) * (8 * t) ≤ unit := by
  have h1 : (n : ℚ) ≤ 1000 := by exact_mod_cast h
  have hn0 : (0 : ℚ) ≤ n := by positivity
  have h2 : (n : ℚ) * t ≤ n * (unit * unit) := mul_le_mul_of_nonneg_left ht hn0
  have h3 : (n : ℚ) * (unit * unit) ≤ 1000 * (unit * unit) := mul_le_mul_of_nonneg_right h1 (mul_nonneg unit_pos.le unit_pos.le)
  have h4 : 1000 * (unit * unit) ≤ unit / 8 := by rw [unit_eq]; norm_num
  linarith

theorem mixtureW_mass {W s : ℚ} {ws : List (K × ℚ)} (h : PosWeights W s ws) (hn : ws.length ≤ 1000) {lam : ℚ} (hl : IsDouble lam) (hl0 : 0 ≤ lam) (hl1 : lam ≤ 1) :
    |mass (mixtureW lam s ws) - 1| ≤ (3 * ws.length + 9) * unit := by
  have h1 := sum_err (mixtureW_err h hn hl hl0 hl1)
  have hS := h.pos
  have hlen : (1 : ℚ) ≤ ws.length := by exact_mod_cast h.length
  rw [exactMix_sum, div_self hS.ne', mul_div_cancel₀ _ (by linarith)] at h1
  have h2 : mass (mixtureW lam s ws) = (ws.map fun p => fadd (fmul p.2 (fdiv (fsub 1 lam) s)) (fmul lam (fdiv 1 (fl (ws.length : ℚ))))).sum := by
    unfold mass mixtureW
    simp only [List.map_map]
    rfl
  rw [h2]
  have h3 : (1 - lam) * 1 + lam = 1 := by ring
  rw [h3] at h1
  have := tiny_8 hn h.small
  refine le_trans h1 ?_
  linarith

/-- With enough exploration no probability is small. -/
theorem mixtureW_big {W s : ℚ} {ws : List (K × ℚ)} (h : PosWeights W s ws) (hn : ws.length ≤ 1000) {lam : ℚ} (hl : IsDouble lam) (hl1 : lam ≤ 1)
    (hbig : ws.length * (6 * ws.length + 12) * unit ≤ lam) : ∀ p ∈ mixtureW lam s ws, IsDouble p.2 ∧ (5 * ws.length + 9) * unit < p.2 := by
  intro p hp
  have hu := unit_pos
  have hlen : (1 : ℚ) ≤ ws.length := by exact_mod_cast h.length
  have hlen2 : (ws.length : ℚ) ≤ 1000 := by exact_mod_cast hn
  have hl0 : 0 ≤ lam := le_trans (by positivity) hbig
  obtain ⟨q, hq, rfl⟩ := List.mem_map.1 hp
  refine ⟨isDouble_fl _, ?_⟩
  have e := (abs_le.1 (mixtureW_err h hn hl hl0 hl1 q hq)).1
  simp only
  have h1 : (6 * ws.length + 12) * unit ≤ exactMix lam (mass ws) ws.length q.2 := by
    unfold exactMix
    have h2 : (6 * ws.length + 12) * unit ≤ lam / ws.length := by
      rw [le_div_iff₀ (by linarith)]
      linarith
    have h3 : 0 ≤ (1 - lam) * (q.2 / mass ws) := mul_nonneg (by linarith) (div_nonneg (h.nonneg q hq) h.pos.le)
    linarith
  generalize exactMix lam (mass ws) ws.length q.2 = e0 at *
  have h2 : (3 * (ws.length : ℚ) + 8) * unit ≤ 1 / 1000 := by rw [unit_eq]; linarith
  have h3 : 8 * (W * tiny) ≤ unit := by
    have := tiny_8 (n := 1) (by norm_num) h.small
    simpa using this
  have h4 : (3 * (ws.length : ℚ) + 8) * unit * e0 ≤ 1 / 1000 * e0 := mul_le_mul_of_nonneg_right h2 (le_trans (by positivity) h1)
  nlinarith

theorem mass_perm {l l' : List (K × ℚ)} (h : l.Perm l') : mass l = mass l' := (h.map Prod.snd).sum_eq

theorem eps16_le : EPS16 ≤ unit := by unfold unit; decide +kernel

/-- With enough exploration no action is removed. -/
theorem mixtureW_keep {W s : ℚ} {ws : List (K × ℚ)} (h : PosWeights W s ws) (hn : ws.length ≤ 1000) {lam : ℚ} (hl : IsDouble lam) (hl1 : lam ≤ 1)
    (hbig : ws.length * (6 * ws.length + 12) * unit ≤ lam) : ((mixtureW lam s ws).filter fun p => ¬ p.2 < EPS16) = mixtureW lam s ws := by
  rw [List.filter_eq_self]
  intro p hp
  have := (mixtureW_big h hn hl hl1 hbig p hp).2
  have h1 := eps16_le
  have hu := unit_pos
  have h2 : unit ≤ (5 * ws.length + 9) * unit := by
    have : (0 : ℚ) ≤ ws.length * unit := by positivity
    linarith
  exact decide_eq_true (not_lt.2 (by linarith))

/-- Sampling from the search policy with enough exploration. -/
theorem sampleMixture_spec {W s : ℚ} {ws : List (K × ℚ)} (h : PosWeights W s ws) (hn : ws.length ≤ 800) {lam : ℚ} (hl : IsDouble lam) (hl1 : lam ≤ 1)
    (hbig : ws.length * (6 * ws.length + 12) * unit ≤ lam)
    {iter : List (K × ℚ) → List (K × ℚ)} (hiter : ∀ l, (iter l).Perm l) {u : ℚ} (hu0 : 0 ≤ u) :
    sampleFrom (iter ((mixtureW lam s ws).filter fun p => ¬ p.2 < EPS16)) true u ≠ .tooMuch ∧
    (u < 1 - (5 * ws.length + 9) * unit → sampleFrom (iter ((mixtureW lam s ws).filter fun p => ¬ p.2 < EPS16)) true u ≠ .tooLittle) ∧
    ∀ k, sampleFrom (iter ((mixtureW lam s ws).filter fun p => ¬ p.2 < EPS16)) true u = .key k → ∃ pre w post,
      iter (mixtureW lam s ws) = pre ++ (k, w) :: post ∧
      mass pre - 2 * ws.length * unit ≤ u ∧ u < mass pre + w + 2 * ws.length * unit := by
  have hn' : ws.length ≤ 1000 := by omega
  have hu := unit_pos
  have hl0 : 0 ≤ lam := le_trans (by positivity) hbig
  have hlenm : (mixtureW lam s ws).length = ws.length := by simp [mixtureW]
  have hm := mixtureW_mass h hn' hl hl0 hl1
  have hb := mixtureW_big h hn' hl hl1 hbig
  have hne : ws ≠ [] := List.ne_nil_of_length_pos h.length
  have hp := hiter (mixtureW lam s ws)
  rw [mixtureW_keep h hn' hl hl1 hbig]
  generalize hd : mixtureW lam s ws = d at *
  generalize hd' : iter d = d' at *
  rw [← mass_perm hp] at hm
  have hlend : d'.length = ws.length := by rw [hp.length_eq, hlenm]
  have hq800 : (ws.length : ℚ) ≤ 800 := by exact_mod_cast hn
  have hspec := @sampleLoop_spec K ((3 * ws.length + 9) * unit) u ws.length (by positivity)
    (by rw [unit_eq]; linarith) d' 0 0 0 isDouble_zero (le_refl _) (le_refl _)
    (by simp) (by omega)
    (by
      intro p hp'
      obtain ⟨h1, h2⟩ := hb p (hp.mem_iff.1 hp')
      exact ⟨h1, by linarith⟩)
    (by have := (abs_le.1 hm).2; linarith)
  have he : sampleFrom d' true u = sampleLoop 1 EPS12 u ws.length 0 0 d' := by
    unfold sampleFrom
    rw [hlend]
    rfl
  rw [he]
  obtain ⟨h1, h2, h3⟩ := hspec
  refine ⟨h1, fun hlt h => ?_, fun k hk => ?_⟩
  · rcases h2 h with h4 | h4
    · rw [h4] at hlend
      simp only [List.length_nil] at hlend
      exact hne (List.length_eq_zero_iff.1 hlend.symm)
    · have := (abs_le.1 hm).1
      linarith
  · obtain ⟨pre, w, post, e, h4, h5⟩ := h3 k hk
    refine ⟨pre, w, post, e, ?_, by linarith⟩
    rcases h4 with rfl | h4
    · rw [mass_nil]
      have : 0 ≤ 2 * (ws.length : ℚ) * unit := by positivity
      linarith
    · linarith

/-! ## The weights -/

theorem normTerm_spec {temp : ℚ} : ∀ (qs : List (K × ℚ)) (low : ℚ), low ≤ normTerm temp low qs ∧ (∀ p ∈ qs, fdiv p.2 temp ≤ normTerm temp low qs) ∧
    (normTerm temp low qs = low ∨ ∃ p ∈ qs, normTerm temp low qs = fdiv p.2 temp) := by
  intro qs
  induction qs with
  | nil => intro low; simp [normTerm]
  | cons p qs ih =>
    intro low
    have e : normTerm temp low (p :: qs) = normTerm temp (if low < fdiv p.2 temp then fdiv p.2 temp else low) qs := rfl
    rw [e]
    obtain ⟨h1, h2, h3⟩ := ih (if low < fdiv p.2 temp then fdiv p.2 temp else low)
    generalize normTerm temp (if low < fdiv p.2 temp then fdiv p.2 temp else low) qs = r at *
    split at h1
    · rename_i hlt
      rw [if_pos hlt] at h3
      refine ⟨by linarith, fun q hq => ?_, .inr ?_⟩
      · rcases List.mem_cons.1 hq with rfl | hq
        · exact h1
        · exact h2 q hq
      · rcases h3 with h3 | ⟨q, hq, h3⟩
        · exact ⟨p, by simp, h3⟩
        · exact ⟨q, by simp [hq], h3⟩
    · rename_i hge
      rw [if_neg hge] at h3
      refine ⟨h1, fun q hq => ?_, ?_⟩
      · rcases List.mem_cons.1 hq with rfl | hq
        · have := not_lt.1 hge; linarith
        · exact h2 q hq
      · rcases h3 with h3 | ⟨q, hq, h3⟩
        · exact .inl h3
        · exact .inr ⟨q, by simp [hq], h3⟩

theorem fl_nonpos {x : ℚ} (h : x ≤ 0) : fl x ≤ 0 := fl_le isDouble_zero h

theorem actionWeights_good {ex : ℚ → ℚ} (hex : GoodExp ex) {temp low : ℚ} {qs : List (K × ℚ)} (h0 : qs ≠ []) (hlow : ∀ p ∈ qs, low ≤ fdiv p.2 temp) :
    GoodWeights (actionWeights ex temp low qs) := by
  obtain ⟨-, h2, h3⟩ := @normTerm_spec K temp qs low
  refine ⟨?_, ?_, ?_, ?_⟩
  · intro p hp
    obtain ⟨q, hq, rfl⟩ := List.mem_map.1 hp
    exact hex.dbl _
  · intro p hp
    obtain ⟨q, hq, rfl⟩ := List.mem_map.1 hp
    exact hex.nonneg _
  · intro p hp
    obtain ⟨q, hq, rfl⟩ := List.mem_map.1 hp
    exact hex.le_one _ (fl_nonpos (by have := h2 q hq; linarith))
  · obtain ⟨q, hq, e⟩ : ∃ p ∈ qs, normTerm temp low qs = fdiv p.2 temp := by
      rcases h3 with h3 | h3
      · cases qs with
        | nil => exact absurd rfl h0
        | cons p qs =>
          refine ⟨p, by simp, le_antisymm ?_ (h2 p (by simp))⟩
          rw [h3]
          exact hlow p (by simp)
      · exact h3
    refine ⟨_, List.mem_map.2 ⟨q, hq, rfl⟩, ?_⟩
    simp only
    rw [e]
    unfold fsub
    rw [sub_self, fl_zero, hex.zero]

/-- Selecting an action with enough exploration. -/
theorem selectMents_spec {ex : ℚ → ℚ} (hex : GoodExp ex) {temp low lam : ℚ} {qs : List (K × ℚ)} (h0 : qs ≠ []) (hlow : ∀ p ∈ qs, low ≤ fdiv p.2 temp)
    (hn : qs.length ≤ 800) (hl : IsDouble lam) (hl1 : lam ≤ 1) (hbig : qs.length * (6 * qs.length + 12) * unit ≤ lam)
    {iter : List (K × ℚ) → List (K × ℚ)} (hiter : ∀ l, (iter l).Perm l) {u : ℚ} (hu0 : 0 ≤ u) :
    selectMents ex temp low lam iter qs u ≠ .tooMuch ∧
    (u < 1 - (5 * qs.length + 9) * unit → selectMents ex temp low lam iter qs u ≠ .tooLittle) ∧
    ∀ k, selectMents ex temp low lam iter qs u = .key k → ∃ pre w post,
      iter (mixture lam (actionWeights ex temp low qs)) = pre ++ (k, w) :: post ∧
      mass pre - 2 * qs.length * unit ≤ u ∧ u < mass pre + w + 2 * qs.length * unit := by
  have hlen : (actionWeights ex temp low qs).length = qs.length := by simp [actionWeights]
  have := sampleMixture_spec ((actionWeights_good hex h0 hlow).toPos (by rw [hlen]; exact le_trans hn (by norm_num))) (by rw [hlen]; exact hn) hl hl1 (by rw [hlen]; exact hbig) hiter hu0
  rw [hlen] at this
  exact this

end Verif.Fp
