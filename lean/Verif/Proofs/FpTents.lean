import Verif.Model.FpTents
import Verif.Proofs.FpMents
import Verif.Proofs.FpUniform
import Mathlib.Tactic.GCongr

/-!
# TENTS in doubles
-/

namespace Verif.Fp

variable {K : Type}

/-! ## Large values -/

theorem fl_add_one_large {x : ℚ} (hd : IsDouble x) (hx : 2 ^ 54 ≤ x) : fl (1 + x) = x := by
  have h0 : x ≠ 0 := by intro h; rw [h] at hx; norm_num at hx
  have hx0 : 0 < x := lt_of_lt_of_le (by norm_num) hx
  have hex : 54 ≤ expo x := le_expo h0 (by rw [abs_of_pos hx0]; exact_mod_cast hx)
  obtain ⟨h1, h2⟩ := fl_form h0
  rw [show fl x = x from hd, max_eq_left (by omega)] at h1
  obtain ⟨e1, e2⟩ := expo_spec h0
  rw [abs_of_pos hx0] at e1 e2
  set e := expo x - 52 with he
  set m := roundEven (x / ulp x) with hm
  have hp : (0 : ℚ) < 2 ^ e := by positivity
  have h4 : (4 : ℚ) ≤ 2 ^ e := by
    have : (2 : ℚ) ^ (2 : ℤ) ≤ 2 ^ e := zpow_le_zpow_right₀ (by norm_num) (by omega)
    norm_num at this
    exact this
  have b1 : (2 : ℚ) ^ (52 : ℤ) * 2 ^ e ≤ x := by rw [← zpow_add₀ (by norm_num)]; rw [he]; simpa using e1
  have b2 : x < (2 : ℚ) ^ (53 : ℤ) * 2 ^ e := by
    rw [← zpow_add₀ (by norm_num)]
    have : (53 : ℤ) + e = expo x + 1 := by omega
    rw [this]; exact e2
  have hm2 : m < 2 ^ 53 := by
    rw [h1] at b2
    have : (m : ℚ) < 2 ^ (53 : ℤ) := lt_of_mul_lt_mul_right b2 hp.le
    exact_mod_cast this
  have b3 : 1 + x < (2 : ℚ) ^ (53 : ℤ) * 2 ^ e := by
    have : (m : ℚ) + 1 ≤ 2 ^ (53 : ℤ) := by exact_mod_cast hm2
    have h5 := mul_le_mul_of_nonneg_right this hp.le
    have h6 : (m : ℚ) * 2 ^ e + 2 ^ e ≤ 2 ^ (53 : ℤ) * 2 ^ e := by linarith
    rw [← h1] at h6
    linarith
  have := fl_near (m := m) (e := e) (x := 1 + x) (by linarith) b3 (by omega) (by
    rw [← h1]
    have : 1 + x - x = 1 := by ring
    rw [this, abs_one]
    linarith)
  rw [this, ← h1]

theorem isDouble_two_mul {x : ℚ} (hd : IsDouble x) : IsDouble (2 * x) := by
  by_cases h0 : x = 0
  · subst h0; rw [mul_zero]; exact isDouble_zero
  obtain ⟨h1, h2⟩ := fl_form h0
  rw [show fl x = x from hd] at h1
  have e : 2 * x = (roundEven (x / ulp x) : ℚ) * 2 ^ (max (expo x - 52) (-1074) + 1) := by
    rw [zpow_add₀ (by norm_num), zpow_one, ← mul_assoc, ← h1]
    ring
  rw [e]
  exact fl_exact h2 (by omega)

/-- With two actions of huge value the sparse set is empty. -/
theorem sparse_empty {v w : ℚ} {a b : K} (hv : IsDouble v) (hw : IsDouble w) (h2 : 2 ^ 54 ≤ w) (h1 : w ≤ v) : sparseSet [(v, a), (w, b)] = [] := by
  have hi1 : fadd 0 1 = 1 := by decide +kernel
  have hi2 : fadd 1 1 = 2 := by decide +kernel
  have e1 : fmul 1 v = v := by unfold fmul; rw [one_mul]; exact hv
  have e2 : fmul 2 w = 2 * w := isDouble_two_mul hw
  have e3 : fadd 1 v = v := fl_add_one_large hv (by linarith)
  have e4 : fadd 1 (2 * w) = 2 * w := fl_add_one_large (isDouble_two_mul hw) (by linarith)
  have e5 : 2 * w ≤ fadd v w := le_fl (isDouble_two_mul hw) (by linarith)
  unfold sparseSet
  simp only [sparseLoop, hi1, hi2, zero_fadd hv, e1, e2, e3, e4]
  rw [if_neg (lt_irrefl _), if_neg (not_lt.2 e5)]

theorem sparse_empty_one {v : ℚ} {a : K} (hv : IsDouble v) (h2 : 2 ^ 54 ≤ v) : sparseSet [(v, a)] = [] := by
  have hi1 : fadd 0 1 = 1 := by decide +kernel
  have e1 : fmul 1 v = v := by unfold fmul; rw [one_mul]; exact hv
  have e3 : fadd 1 v = v := fl_add_one_large hv h2
  unfold sparseSet
  simp only [sparseLoop, hi1, zero_fadd hv, e1, e3]
  rw [if_neg (lt_irrefl _)]

/-- With a value that is not too large the sparse set is not empty. -/
theorem sparse_ne {v : ℚ} {a : K} {rest : List (ℚ × K)} (hv : IsDouble v) (h : |v| ≤ 2 ^ 53 - 2) : sparseSet ((v, a) :: rest) ≠ [] := by
  have hi1 : fadd 0 1 = 1 := by decide +kernel
  have e1 : fmul 1 v = v := by unfold fmul; rw [one_mul]; exact hv
  have e := fadd_err isDouble_one hv
  have h1 : |1 + v| ≤ 2 ^ 53 - 1 := by
    have := abs_add_le 1 v
    rw [abs_one] at this
    linarith
  have h2 : unit * |1 + v| ≤ unit * (2 ^ 53 - 1) := mul_le_mul_of_nonneg_left h1 unit_pos.le
  have h3 : unit * (2 ^ 53 - 1) < 1 := by rw [unit_eq]; norm_num
  have h4 := (abs_le.1 e).1
  unfold sparseSet
  simp only [sparseLoop, hi1, zero_fadd hv, e1]
  rw [if_pos (by linarith)]
  simp

/-! ## Sums -/

theorem fadd_le {x y c d : ℚ} (hx : |x| ≤ c) (hy : |y| ≤ d) (hxd : IsDouble x) (hyd : IsDouble y) : |fadd x y| ≤ (c + d) * (1 + unit) := by
  have e := fadd_err hxd hyd
  have h1 := abs_add_le x y
  have h2 := abs_sub_abs_le_abs_sub (fadd x y) (x + y)
  have h3 : unit * |x + y| ≤ unit * (c + d) := mul_le_mul_of_nonneg_left (by linarith) unit_pos.le
  linarith

/-- A sum of `k` doubles between `-M` and `M`, step by step. -/
theorem sum_step {S s v B : ℚ} {k n : Nat} (hk : k + 1 ≤ n) (hn : n ≤ 2 ^ 50) (hB : 0 ≤ B) (hS : IsDouble S) (hv : IsDouble v) (hvB : |v| ≤ B)
    (hs : |s| ≤ k * B) (h : |S - s| ≤ 2 * k * n * (unit * B)) :
    |fadd S v - (s + v)| ≤ 2 * (k + 1 : Nat) * n * (unit * B) ∧ |s + v| ≤ (k + 1 : Nat) * B := by
  have hu := unit_pos
  have hnq : (n : ℚ) ≤ 2 ^ 50 := by exact_mod_cast hn
  have hkq : (k : ℚ) + 1 ≤ n := by exact_mod_cast hk
  have hk0 : (0 : ℚ) ≤ k := by positivity
  have e := fadd_err hS hv
  have h1 := abs_add_le s v
  have h2 : |S + v| ≤ (k + 1) * B + 2 * k * n * (unit * B) := by
    have : S + v = (S - s) + (s + v) := by ring
    rw [this]
    refine le_trans (abs_add_le _ _) ?_
    linarith
  have h3 : unit * |S + v| ≤ unit * ((k + 1) * B + 2 * k * n * (unit * B)) := mul_le_mul_of_nonneg_left h2 hu.le
  have h4 : 2 * (k : ℚ) * unit ≤ 1 := by
    have : 2 * (k : ℚ) * unit ≤ 2 * 2 ^ 50 * unit := mul_le_mul_of_nonneg_right (by linarith) hu.le
    refine le_trans this ?_
    rw [unit_eq]; norm_num
  have h5 : 2 * (k : ℚ) * unit * (n * (unit * B)) ≤ 1 * (n * (unit * B)) := mul_le_mul_of_nonneg_right h4 (by positivity)
  have h6 : ((k : ℚ) + 1) * (unit * B) ≤ n * (unit * B) := mul_le_mul_of_nonneg_right hkq (by positivity)
  constructor
  · have h7 : fadd S v - (s + v) = (fadd S v - (S + v)) + (S - s) := by ring
    rw [h7]
    refine le_trans (abs_add_le _ _) ?_
    push_cast
    linarith
  · push_cast
    linarith

/-- A sum of doubles between `-B` and `B`. -/
theorem sum_fold {α : Type} (f : α → ℚ) {B : ℚ} {n : Nat} (hn : n ≤ 2 ^ 50) (hB : 0 ≤ B) : ∀ (l : List α) (k : Nat) (S s : ℚ), k + l.length = n → IsDouble S →
    (∀ x ∈ l, IsDouble (f x) ∧ |f x| ≤ B) → |s| ≤ k * B → |S - s| ≤ 2 * k * n * (unit * B) →
    IsDouble (l.foldl (fun s x => fadd s (f x)) S) ∧ |l.foldl (fun s x => fadd s (f x)) S - (s + (l.map f).sum)| ≤ 2 * n * n * (unit * B) ∧ |s + (l.map f).sum| ≤ n * B := by
  intro l
  induction l with
  | nil =>
    intro k S s hk hS _ hs h
    simp only [List.length_nil, add_zero] at hk
    subst hk
    simpa using ⟨hS, h, hs⟩
  | cons x l ih =>
    intro k S s hk hS hf hs h
    simp only [List.length_cons] at hk
    obtain ⟨hx, hxB⟩ := hf x (by simp)
    obtain ⟨h1, h2⟩ := sum_step (n := n) (by omega) hn hB hS hx hxB hs h
    have := ih (k + 1) (fadd S (f x)) (s + f x) (by omega) (isDouble_fl _) (fun y hy => hf y (by simp [hy])) h2 h1
    simp only [List.foldl_cons, List.map_cons, List.sum_cons]
    rw [add_assoc] at this
    exact this

theorem sum_fold0 {α : Type} (f : α → ℚ) {B : ℚ} (hB : 0 ≤ B) {l : List α} (hn : l.length ≤ 2 ^ 50) (hf : ∀ x ∈ l, IsDouble (f x) ∧ |f x| ≤ B) :
    IsDouble (l.foldl (fun s x => fadd s (f x)) 0) ∧ |l.foldl (fun s x => fadd s (f x)) 0 - (l.map f).sum| ≤ 2 * l.length * l.length * (unit * B) ∧ |(l.map f).sum| ≤ l.length * B := by
  have := sum_fold f hn hB l 0 0 0 (by simp) isDouble_zero hf (by simp) (by simp)
  simpa using this

/-! ## The sparse set -/

/-- The computed test of the sparse set is off by little. -/
theorem margin_err {B : ℚ} (hB : 1 ≤ B) {n : Nat} (hn : n ≤ 1000) {i : Nat} {S s v : ℚ} (hi : i + 1 ≤ n) (hS : IsDouble S) (hv : IsDouble v) (hvB : |v| ≤ B)
    (hs : |s| ≤ i * B) (h : |S - s| ≤ 2 * i * n * (unit * B)) :
    fadd (i : ℚ) 1 = ((i + 1 : Nat) : ℚ) ∧ |fadd S v - (s + v)| ≤ 2 * (i + 1 : Nat) * n * (unit * B) ∧ |s + v| ≤ (i + 1 : Nat) * B ∧
    |(fadd 1 (fmul ((i : ℚ) + 1) v) - fadd S v) - (1 + ((i : ℚ) + 1) * v - (s + v))| ≤ 8 * n * n * (unit * B) := by
  have hn50 : n ≤ 2 ^ 50 := le_trans hn (by norm_num)
  have hu := unit_pos
  have ht := tiny_pos
  have hnq : (n : ℚ) ≤ 1000 := by exact_mod_cast hn
  have hn1 : (1 : ℚ) ≤ n := by exact_mod_cast (by omega : 1 ≤ n)
  obtain ⟨h1, h2⟩ := sum_step (n := n) (by omega) hn50 (by linarith) hS hv hvB hs h
  have hfi : fadd (i : ℚ) 1 = ((i + 1 : Nat) : ℚ) := by
    unfold fadd
    have : IsDouble ((i + 1 : Nat) : ℚ) := isDouble_nat (by omega)
    push_cast at this ⊢
    exact this
  refine ⟨hfi, h1, h2, ?_⟩
  have hin : ((i + 1 : Nat) : ℚ) ≤ n := by exact_mod_cast (by omega : i + 1 ≤ n)
  have hi0 : (0 : ℚ) ≤ ((i + 1 : Nat) : ℚ) := by positivity
  have hx : |((i + 1 : Nat) : ℚ) * v| ≤ n * B := by
    rw [abs_mul, abs_of_nonneg hi0]
    exact mul_le_mul hin hvB (abs_nonneg _) (by linarith)
  have e1 := fl_err' (((i + 1 : Nat) : ℚ) * v)
  change |fmul ((i + 1 : Nat) : ℚ) v - _| ≤ _ at e1
  have hnB : 1 ≤ n * B := by nlinarith
  have htu : tiny ≤ unit * (n * B) / 100 := by
    have h3 : tiny ≤ unit / 100 := by
      refine le_trans tiny_le ?_
      rw [unit_eq]; norm_num
    have h4 : unit * 1 ≤ unit * (n * B) := mul_le_mul_of_nonneg_left hnB hu.le
    linarith
  have hux := mul_le_mul_of_nonneg_left hx hu.le
  have e2 := fadd_err isDouble_one (isDouble_fl (((i + 1 : Nat) : ℚ) * v))
  change |fadd 1 (fmul ((i + 1 : Nat) : ℚ) v) - (1 + fmul ((i + 1 : Nat) : ℚ) v)| ≤ unit * |1 + fmul ((i + 1 : Nat) : ℚ) v| at e2
  set F := fmul ((i + 1 : Nat) : ℚ) v with hF
  set G := fadd 1 F with hG
  have hus := unit_small
  have hF1 : |1 + F| ≤ 3 * (n * B) := by
    have h3 := abs_add_le 1 F
    rw [abs_one] at h3
    have h4 := abs_sub_abs_le_abs_sub F (((i + 1 : Nat) : ℚ) * v)
    have h5 : unit * (n * B) ≤ 1 / 1000000 * (n * B) := mul_le_mul_of_nonneg_right hus (by linarith)
    linarith
  have hu3 := mul_le_mul_of_nonneg_left hF1 hu.le
  have e3 : |G - (1 + ((i + 1 : Nat) : ℚ) * v)| ≤ 5 * (unit * (n * B)) := by
    have h3 : G - (1 + ((i + 1 : Nat) : ℚ) * v) = (G - (1 + F)) + (F - ((i + 1 : Nat) : ℚ) * v) := by ring
    rw [h3]
    refine le_trans (abs_add_le _ _) ?_
    linarith
  have e4 : |(G - fadd S v) - (1 + ((i + 1 : Nat) : ℚ) * v - (s + v))| ≤ 8 * n * n * (unit * B) := by
    have h3 : (G - fadd S v) - (1 + ((i + 1 : Nat) : ℚ) * v - (s + v)) = (G - (1 + ((i + 1 : Nat) : ℚ) * v)) - (fadd S v - (s + v)) := by ring
    rw [h3]
    refine le_trans (abs_sub _ _) ?_
    have hnn : unit * (n * B) ≤ n * n * (unit * B) := by
      have : (1 : ℚ) * (n * (unit * B)) ≤ n * (n * (unit * B)) := mul_le_mul_of_nonneg_right hn1 (by positivity)
      linarith
    have h5 : ((i + 1 : Nat) : ℚ) * (n * (unit * B)) ≤ n * (n * (unit * B)) := mul_le_mul_of_nonneg_right hin (by positivity)
    linarith
  have hG' : G = fadd 1 (fmul ((i : ℚ) + 1) v) := by rw [hG, hF]; push_cast; rfl
  push_cast at e4
  rwa [hG'] at e4

theorem sparseLoop_clear {B : ℚ} (hB : 1 ≤ B) {n : Nat} (hn : n ≤ 1000) : ∀ (l : List (ℚ × K)) (i : Nat) (S s : ℚ), i + l.length = n → IsDouble S →
    (∀ p ∈ l, IsDouble p.1 ∧ |p.1| ≤ B) → |s| ≤ i * B → |S - s| ≤ 2 * i * n * (unit * B) → Clear (8 * n * n * (unit * B)) i s l →
    sparseLoop l i S = support i s l := by
  intro l
  induction l with
  | nil => intro i S s _ _ _ _ _ _; rfl
  | cons p l ih =>
    obtain ⟨v, a⟩ := p
    intro i S s hi hS hl hs h hc
    obtain ⟨hc1, hc2⟩ := hc
    simp only [List.length_cons] at hi
    obtain ⟨hv, hvB⟩ := hl (v, a) (by simp)
    simp only at hv hvB
    obtain ⟨hfi, h1, h2, e4⟩ := margin_err hB hn (by omega) hS hv hvB hs h
    have hrec := ih (i + 1) (fadd S v) (s + v) (by omega) (isDouble_fl _) (fun q hq => hl q (by simp [hq])) h2 h1 hc2
    push_cast at hc1 hrec hfi
    have e5 := abs_le.1 e4
    have hiff : (fadd S v < fadd 1 (fmul ((i : ℚ) + 1) v)) ↔ (s + v < 1 + ((i : ℚ) + 1) * v) := by
      constructor
      · intro hlt
        by_contra hcon
        rw [abs_of_nonpos (by linarith)] at hc1
        linarith
      · intro hlt
        rw [abs_of_pos (by linarith)] at hc1
        linarith
    simp only [sparseLoop, support, hfi]
    by_cases ht : s + v < 1 + ((i : ℚ) + 1) * v
    · rw [if_pos (hiff.2 ht), if_pos ht, hrec]
    · rw [if_neg (fun h => ht (hiff.1 h)), if_neg ht, hrec]

theorem support_sub {i : Nat} {s : ℚ} {l : List (ℚ × K)} : (support i s l).Sublist l := by
  induction l generalizing i s with
  | nil => exact List.Sublist.refl _
  | cons p l ih =>
    obtain ⟨v, a⟩ := p
    unfold support
    split
    · exact ih.cons_cons _
    · exact ih.cons _

/-! ## spmax -/

/-- The common facts about sizes: at most 1000 actions, values between `-B` and `B`. -/
structure Small (k : Nat) (B : ℚ) : Prop where
  k1 : 1 ≤ (k : ℚ)
  k2 : (k : ℚ) ≤ 1000
  b1 : 1 ≤ B

theorem Small.ku {k : Nat} {B : ℚ} (h : Small k B) : (k : ℚ) * unit ≤ 1 / 10000 := by
  have := mul_le_mul_of_nonneg_right h.k2 unit_pos.le
  refine le_trans this ?_
  rw [unit_eq]; norm_num

theorem tiny_le_100 : tiny ≤ unit / 100 := by
  refine le_trans tiny_le ?_
  rw [unit_eq]; norm_num

/-- The sum minus one. -/
theorem minus_one_err {k : Nat} {B : ℚ} (h : Small k B) {S σ : ℚ} (hS : IsDouble S) (hσ : |σ| ≤ k * B) (e : |S - σ| ≤ 2 * k * k * (unit * B)) :
    |fsub S 1 - (σ - 1)| ≤ 5 * (k * k * (unit * B)) ∧ |σ - 1| ≤ 2 * (k * B) ∧ |fsub S 1| ≤ 3 * (k * B) := by
  obtain ⟨k1, k2, b1⟩ := h
  have hku := Small.ku ⟨k1, k2, b1⟩
  have hu := unit_pos
  have hkB : 1 ≤ k * B := by nlinarith
  have e1 := fsub_err hS isDouble_one
  have h1 := abs_sub σ 1
  rw [abs_one] at h1
  have q1 : k * unit * (k * B) ≤ 1 / 10000 * (k * B) := mul_le_mul_of_nonneg_right hku (by linarith)
  have h2 : |S - 1| ≤ 3 * (k * B) := by
    have : S - 1 = (S - σ) + (σ - 1) := by ring
    rw [this]
    refine le_trans (abs_add_le _ _) ?_
    linarith
  have h3 : unit * |S - 1| ≤ unit * (3 * (k * B)) := mul_le_mul_of_nonneg_left h2 hu.le
  have h4 : 1 * (unit * (k * B)) ≤ k * (unit * (k * B)) := mul_le_mul_of_nonneg_right k1 (by positivity)
  have h5 : |fsub S 1 - (σ - 1)| ≤ 5 * (k * k * (unit * B)) := by
    have : fsub S 1 - (σ - 1) = (fsub S 1 - (S - 1)) + (S - σ) := by ring
    rw [this]
    refine le_trans (abs_add_le _ _) ?_
    linarith
  refine ⟨h5, by linarith, ?_⟩
  have := abs_sub_abs_le_abs_sub (fsub S 1) (σ - 1)
  linarith

theorem square_err {sq : ℚ → ℚ} (hsq : GoodSq sq) {k : Nat} {B : ℚ} (h : Small k B) {X x : ℚ} (hX : |X| ≤ 3 * (k * B)) (hx : |x| ≤ 2 * (k * B)) (e : |X - x| ≤ 5 * (k * k * (unit * B))) :
    |fmul (1 / 2) (sq X) - x ^ 2 / 2| ≤ 25 * (k * k * k * (unit * (B * B))) ∧ |fmul (1 / 2) (sq X)| ≤ 3 * (k * k * (B * B)) := by
  have hku := h.ku
  obtain ⟨k1, k2, b1⟩ := h
  have hu := unit_pos
  have ht := tiny_le_100
  have hkB : 1 ≤ k * B := by nlinarith
  have hX2 : X ^ 2 ≤ 9 * (k * k * (B * B)) := by
    have h1 : |X| * |X| ≤ (3 * (k * B)) * (3 * (k * B)) := mul_le_mul hX hX (abs_nonneg _) (by linarith)
    rw [abs_mul_abs_self] at h1
    linarith
  have hx2 : x ^ 2 ≤ 4 * (k * k * (B * B)) := by
    have h1 : |x| * |x| ≤ (2 * (k * B)) * (2 * (k * B)) := mul_le_mul hx hx (abs_nonneg _) (by linarith)
    rw [abs_mul_abs_self] at h1
    linarith
  have hd : |X ^ 2 - x ^ 2| ≤ 25 * (k * k * k * (unit * (B * B))) := by
    have h1 : X ^ 2 - x ^ 2 = (X - x) * (X + x) := by ring
    rw [h1, abs_mul]
    have h2 : |X + x| ≤ 5 * (k * B) := le_trans (abs_add_le _ _) (by linarith)
    have h3 := mul_le_mul e h2 (abs_nonneg _) (by positivity)
    refine le_trans h3 (le_of_eq (by ring))
  have e1 := hsq.err X
  generalize sq X = Y at *
  have w0 : 0 ≤ unit * (B * B) := by positivity
  have w1 : k * k * (unit * (B * B)) ≤ k * k * k * (unit * (B * B)) := by
    have h1 : 1 * (k * k * (unit * (B * B))) ≤ k * (k * k * (unit * (B * B))) := mul_le_mul_of_nonneg_right k1 (by positivity)
    linarith
  have hBB : 1 ≤ B * B := by nlinarith
  have w2 : unit ≤ k * k * (unit * (B * B)) := by
    have h1 : 1 ≤ (k * B) * (k * B) := by nlinarith
    have h2 := mul_le_mul_of_nonneg_left h1 hu.le
    linarith
  have w3 : k * k * k * (unit * (B * B)) ≤ 1 / 10000 * (k * k * (B * B)) := by
    have h1 : k * unit * (k * k * (B * B)) ≤ 1 / 10000 * (k * k * (B * B)) := mul_le_mul_of_nonneg_right hku (by positivity)
    linarith
  have h2 : 2 * unit * X ^ 2 ≤ 2 * unit * (9 * (k * k * (B * B))) := mul_le_mul_of_nonneg_left hX2 (by linarith)
  have h3 : |Y - x ^ 2| ≤ 44 * (k * k * k * (unit * (B * B))) := by
    have h1 : Y - x ^ 2 = (Y - X ^ 2) + (X ^ 2 - x ^ 2) := by ring
    rw [h1]
    refine le_trans (abs_add_le _ _) ?_
    linarith
  have hx20 : 0 ≤ x ^ 2 := sq_nonneg x
  have hY : |Y| ≤ 5 * (k * k * (B * B)) := by
    have h1 := abs_sub_abs_le_abs_sub Y (x ^ 2)
    rw [abs_of_nonneg hx20] at h1
    have : 0 ≤ k * k * (B * B) := by positivity
    linarith
  have e2 := fl_err' (1 / 2 * Y)
  change |fmul (1 / 2) Y - 1 / 2 * Y| ≤ _ at e2
  have h4 : |1 / 2 * Y| = |Y| / 2 := by rw [abs_mul, abs_of_pos (by norm_num : (0 : ℚ) < 1 / 2)]; ring
  rw [h4] at e2
  have h5 : unit * (|Y| / 2) ≤ unit * (5 * (k * k * (B * B)) / 2) := mul_le_mul_of_nonneg_left (by linarith) hu.le
  have h6 : |fmul (1 / 2) Y - x ^ 2 / 2| ≤ 25 * (k * k * k * (unit * (B * B))) := by
    have h1 : fmul (1 / 2) Y - x ^ 2 / 2 = (fmul (1 / 2) Y - 1 / 2 * Y) + 1 / 2 * (Y - x ^ 2) := by ring
    rw [h1]
    refine le_trans (abs_add_le _ _) ?_
    rw [abs_mul, abs_of_pos (by norm_num : (0 : ℚ) < 1 / 2)]
    linarith
  refine ⟨h6, ?_⟩
  have h1 := abs_sub_abs_le_abs_sub (fmul (1 / 2) Y) (x ^ 2 / 2)
  rw [abs_of_nonneg (by linarith : 0 ≤ x ^ 2 / 2)] at h1
  have : 0 ≤ k * k * (B * B) := by positivity
  linarith

theorem quot_err {sq : ℚ → ℚ} (hsq : GoodSq sq) {k : Nat} {B : ℚ} (h : Small k B) {A a : ℚ} (hA : |A| ≤ 3 * (k * k * (B * B))) (e : |A - a| ≤ 25 * (k * k * k * (unit * (B * B)))) :
    |fdiv A (sq (k : ℚ)) - a / (k : ℚ) ^ 2| ≤ 50 * (k * (unit * (B * B))) := by
  have hku := h.ku
  obtain ⟨k1, k2, b1⟩ := h
  have hu := unit_pos
  have hus := unit_small
  have ht := tiny_le_100
  have hd := hsq.err (k : ℚ)
  generalize sq (k : ℚ) = D at *
  have hk2 : 1 ≤ (k : ℚ) ^ 2 := by nlinarith
  have hk2p : 0 < (k : ℚ) ^ 2 := by linarith
  have hd1 : |D - (k : ℚ) ^ 2| ≤ 3 * unit * (k : ℚ) ^ 2 := by nlinarith
  have hd2 := abs_le.1 hd1
  have hD : (k : ℚ) ^ 2 / 2 ≤ D := by nlinarith
  have hDp : 0 < D := by linarith
  have hq : A / D - a / (k : ℚ) ^ 2 = (A - a) / (k : ℚ) ^ 2 + A * ((k : ℚ) ^ 2 - D) / (D * (k : ℚ) ^ 2) := by field_simp; ring
  have f1 : |(A - a) / (k : ℚ) ^ 2| ≤ 25 * (k * (unit * (B * B))) := by
    rw [abs_div, abs_of_pos hk2p, div_le_iff₀ hk2p]
    refine le_trans e (le_of_eq (by ring))
  have f2 : |A * ((k : ℚ) ^ 2 - D) / (D * (k : ℚ) ^ 2)| ≤ 18 * (unit * (B * B)) := by
    rw [abs_div, abs_of_pos (mul_pos hDp hk2p), div_le_iff₀ (mul_pos hDp hk2p), abs_mul, abs_sub_comm]
    have h1 := mul_le_mul hA hd1 (abs_nonneg _) (by positivity)
    refine le_trans h1 ?_
    have h2 : 18 * (unit * (B * B)) * ((k : ℚ) ^ 2 / 2 * (k : ℚ) ^ 2) ≤ 18 * (unit * (B * B)) * (D * (k : ℚ) ^ 2) :=
      mul_le_mul_of_nonneg_left (mul_le_mul_of_nonneg_right hD hk2p.le) (by positivity)
    refine le_trans (le_of_eq (by ring)) h2
  have f3 : |A / D| ≤ 6 * (B * B) := by
    rw [abs_div, abs_of_pos hDp, div_le_iff₀ hDp]
    refine le_trans hA ?_
    have h2 : 6 * (B * B) * ((k : ℚ) ^ 2 / 2) ≤ 6 * (B * B) * D := mul_le_mul_of_nonneg_left hD (by positivity)
    refine le_trans (le_of_eq (by ring)) h2
  have e2 := fl_err' (A / D)
  change |fdiv A D - A / D| ≤ _ at e2
  have h3 : unit * |A / D| ≤ unit * (6 * (B * B)) := mul_le_mul_of_nonneg_left f3 hu.le
  have w0 : 0 ≤ unit * (B * B) := by positivity
  have w1 : 1 * (unit * (B * B)) ≤ k * (unit * (B * B)) := mul_le_mul_of_nonneg_right k1 w0
  have hBB : 1 ≤ B * B := by nlinarith
  have w2 : unit * 1 ≤ unit * (B * B) := mul_le_mul_of_nonneg_left hBB hu.le
  have h4 : fdiv A D - a / (k : ℚ) ^ 2 = (fdiv A D - A / D) + (A / D - a / (k : ℚ) ^ 2) := by ring
  rw [h4]
  refine le_trans (abs_add_le _ _) ?_
  have h5 : |A / D - a / (k : ℚ) ^ 2| ≤ 25 * (k * (unit * (B * B))) + 18 * (unit * (B * B)) := by
    rw [hq]
    refine le_trans (abs_add_le _ _) ?_
    linarith
  linarith

theorem term_err' {sq : ℚ → ℚ} (hsq : GoodSq sq) {k : Nat} {B : ℚ} (h : Small k B) {v c C : ℚ} (hv : |v| ≤ B) (hC : IsDouble C) (hc0 : 0 ≤ c) (hc : c ≤ 2 * (B * B))
    (e : |C - c| ≤ 50 * (k * (unit * (B * B)))) :
    |fsub (fdiv (sq v) 2) C - (v ^ 2 / 2 - c)| ≤ 57 * (k * (unit * (B * B))) ∧ |fsub (fdiv (sq v) 2) C| ≤ 4 * (B * B) := by
  have hku := h.ku
  obtain ⟨k1, k2, b1⟩ := h
  have hu := unit_pos
  have hus := unit_small
  have ht := tiny_le_100
  have hBB : 1 ≤ B * B := by nlinarith
  have w0 : 0 ≤ unit * (B * B) := by positivity
  have w1 : 1 * (unit * (B * B)) ≤ k * (unit * (B * B)) := mul_le_mul_of_nonneg_right k1 w0
  have w2 : unit * 1 ≤ unit * (B * B) := mul_le_mul_of_nonneg_left hBB hu.le
  have w3 : k * (unit * (B * B)) ≤ 1 / 10000 * (B * B) := by
    have := mul_le_mul_of_nonneg_right hku (by linarith : 0 ≤ B * B)
    linarith
  have hv2 : v ^ 2 ≤ B * B := by
    have h1 : |v| * |v| ≤ B * B := mul_le_mul hv hv (abs_nonneg _) (by linarith)
    rw [abs_mul_abs_self] at h1
    linarith
  have hv20 : 0 ≤ v ^ 2 := sq_nonneg v
  have e1 := hsq.err v
  generalize sq v = Y at *
  have h1 : 2 * unit * v ^ 2 ≤ 2 * unit * (B * B) := mul_le_mul_of_nonneg_left hv2 (by linarith)
  have hY : |Y| ≤ 2 * (B * B) := by
    have h2 := abs_sub_abs_le_abs_sub Y (v ^ 2)
    rw [abs_of_nonneg hv20] at h2
    linarith
  have e2 := fl_err' (Y / 2)
  change |fdiv Y 2 - Y / 2| ≤ _ at e2
  have h3 : |Y / 2| = |Y| / 2 := by rw [abs_div]; norm_num
  rw [h3] at e2
  have h4 : unit * (|Y| / 2) ≤ unit * (B * B) := mul_le_mul_of_nonneg_left (by linarith) hu.le
  have e3 : |fdiv Y 2 - v ^ 2 / 2| ≤ 3 * (unit * (B * B)) := by
    have h5 : fdiv Y 2 - v ^ 2 / 2 = (fdiv Y 2 - Y / 2) + 1 / 2 * (Y - v ^ 2) := by ring
    rw [h5]
    refine le_trans (abs_add_le _ _) ?_
    rw [abs_mul, abs_of_pos (by norm_num : (0 : ℚ) < 1 / 2)]
    linarith
  have hp : |fdiv Y 2| ≤ B * B := by
    have h2 := abs_sub_abs_le_abs_sub (fdiv Y 2) (v ^ 2 / 2)
    rw [abs_of_nonneg (by linarith : 0 ≤ v ^ 2 / 2)] at h2
    linarith
  have hCa : |C| ≤ 3 * (B * B) - 1 / 2 * (B * B) := by
    have h2 := abs_sub_abs_le_abs_sub C c
    rw [abs_of_nonneg hc0] at h2
    linarith
  have e4 := fsub_err (isDouble_fl (Y / 2)) hC
  change |fsub (fdiv Y 2) C - (fdiv Y 2 - C)| ≤ unit * |fdiv Y 2 - C| at e4
  have h5 := abs_sub (fdiv Y 2) C
  have h6 : unit * |fdiv Y 2 - C| ≤ unit * (4 * (B * B) - 1 / 2 * (B * B)) := mul_le_mul_of_nonneg_left (by linarith) hu.le
  constructor
  · have h7 : fsub (fdiv Y 2) C - (v ^ 2 / 2 - c) = (fsub (fdiv Y 2) C - (fdiv Y 2 - C)) + ((fdiv Y 2 - v ^ 2 / 2) - (C - c)) := by ring
    rw [h7]
    refine le_trans (abs_add_le _ _) ?_
    have h8 := abs_sub (fdiv Y 2 - v ^ 2 / 2) (C - c)
    linarith
  · have h7 := abs_sub_abs_le_abs_sub (fsub (fdiv Y 2) C) (fdiv Y 2 - C)
    linarith

theorem sum_close {α : Type} {f g : α → ℚ} {ε : ℚ} : ∀ {l : List α}, (∀ x ∈ l, |f x - g x| ≤ ε) → |(l.map f).sum - (l.map g).sum| ≤ l.length * ε := by
  intro l
  induction l with
  | nil => intro _; simp
  | cons x l ih =>
    intro h
    have h1 := h x (by simp)
    have h2 := ih fun y hy => h y (by simp [hy])
    simp only [List.map_cons, List.sum_cons, List.length_cons]
    have h3 : f x + (l.map f).sum - (g x + (l.map g).sum) = (f x - g x) + ((l.map f).sum - (l.map g).sum) := by ring
    rw [h3]
    refine le_trans (abs_add_le _ _) ?_
    push_cast
    linarith

/-- The value computed from a sparse set. -/
theorem spmax_err {sq : ℚ → ℚ} (hsq : GoodSq sq) {B : ℚ} (hB : 1 ≤ B) {desc : List (ℚ × K)} (hlen : (sparseSet desc).length ≤ 1000) (h0 : sparseSet desc ≠ [])
    (hv : ∀ p ∈ sparseSet desc, IsDouble p.1 ∧ |p.1| ≤ B) :
    |spmax sq desc - spmaxOf ((sparseSet desc).map Prod.fst)| ≤ 90 * ((sparseSet desc).length * (sparseSet desc).length) * (unit * (B * B)) := by
  unfold spmax spmaxOf
  simp only
  generalize sparseSet desc = sp at *
  have hk : 1 ≤ sp.length := List.length_pos_of_ne_nil h0
  set k := sp.length with hkd
  have hs : Small k B := ⟨by exact_mod_cast hk, by exact_mod_cast hlen, hB⟩
  have hk50 : k ≤ 2 ^ 50 := le_trans hlen (by norm_num)
  obtain ⟨s1, s2, s3⟩ := sum_fold0 (Prod.fst : ℚ × K → ℚ) (by linarith : (0 : ℚ) ≤ B) (l := sp) (by rw [← hkd]; exact hk50) hv
  rw [← hkd] at s2 s3
  have hfk : fl (k : ℚ) = k := isDouble_nat (le_trans hlen (by norm_num))
  rw [hfk, List.length_map, ← hkd]
  set S := sp.foldl (fun s p => fadd s p.1) 0 with hS
  set σ := (sp.map Prod.fst).sum with hσ
  obtain ⟨m1, m2, m3⟩ := minus_one_err hs s1 s3 s2
  obtain ⟨a1, a2⟩ := square_err hsq hs m3 m2 m1
  have c1 := quot_err hsq hs a2 a1
  have hkp : (0 : ℚ) < k := by have := hs.k1; linarith
  have hce : (σ - 1) ^ 2 / 2 / (k : ℚ) ^ 2 = (σ - 1) ^ 2 / (2 * (k : ℚ) ^ 2) := by rw [div_div]
  rw [hce] at c1
  set C := fdiv (fmul (1 / 2) (sq (fsub S 1))) (sq (k : ℚ)) with hC
  set c := (σ - 1) ^ 2 / (2 * (k : ℚ) ^ 2) with hc
  have hCd : IsDouble C := isDouble_fl _
  have hc0 : 0 ≤ c := by positivity
  have hcB : c ≤ 2 * (B * B) := by
    rw [hc, div_le_iff₀ (by positivity)]
    have h1 : |σ - 1| * |σ - 1| ≤ (2 * (k * B)) * (2 * (k * B)) := mul_le_mul m2 m2 (abs_nonneg _) (by positivity)
    rw [abs_mul_abs_self] at h1
    linarith
  have hz : ∀ p ∈ sp, |fsub (fdiv (sq p.1) 2) C - (p.1 ^ 2 / 2 - c)| ≤ 57 * (k * (unit * (B * B))) ∧ |fsub (fdiv (sq p.1) 2) C| ≤ 4 * (B * B) :=
    fun p hp => term_err' hsq hs (hv p hp).2 hCd hc0 hcB c1
  have hBB : 1 ≤ B * B := by nlinarith
  obtain ⟨-, f2, -⟩ := sum_fold (fun p : ℚ × K => fsub (fdiv (sq p.1) 2) C) (B := 4 * (B * B)) (n := 1 + k) (by omega) (by linarith) sp 1 (1 / 2) (1 / 2) (by rw [← hkd])
    (by decide +kernel) (fun p hp => ⟨isDouble_fl _, (hz p hp).2⟩) (by rw [abs_of_pos (by norm_num)]; push_cast; linarith) (by rw [sub_self, abs_zero]; have := unit_pos; positivity)
  have f3 := sum_close (l := sp) fun p hp => (hz p hp).1
  rw [← hkd] at f3
  rw [List.map_map]
  have he : (sp.map ((fun v => v ^ 2 / 2 - c) ∘ Prod.fst)).sum = (sp.map fun p => p.1 ^ 2 / 2 - c).sum := rfl
  rw [he]
  generalize sp.foldl (fun s p => fadd s (fsub (fdiv (sq p.1) 2) C)) (1 / 2) = F at *
  generalize (sp.map fun p => fsub (fdiv (sq p.1) 2) C).sum = Z at *
  generalize (sp.map fun p => p.1 ^ 2 / 2 - c).sum = G at *
  have h1 : F - (1 / 2 + G) = (F - (1 / 2 + Z)) + (Z - G) := by ring
  rw [h1]
  refine le_trans (abs_add_le _ _) ?_
  push_cast at f2
  have w0 : 0 ≤ unit * (B * B) := mul_nonneg unit_pos.le (by linarith)
  have h2 : (1 + (k : ℚ)) * (1 + k) ≤ 4 * (k * k) := by have := hs.k1; nlinarith
  have h3 := mul_le_mul_of_nonneg_right h2 w0
  have h4 : 0 ≤ k * k * (unit * (B * B)) := by positivity
  linarith

/-! ## Weights -/

theorem pos_part {x y ε : ℚ} (h : |x - y| ≤ ε) : |(if x < 0 then 0 else x) - max 0 y| ≤ ε := by
  have h1 := abs_le.1 h
  rcases le_total 0 y with hy | hy
  · rw [max_eq_right hy]
    split_ifs
    · rw [abs_le]; constructor <;> linarith
    · exact h
  · rw [max_eq_left hy]
    split_ifs
    · rw [sub_self, abs_zero]; linarith
    · rw [abs_le]; constructor <;> linarith

/-- Error of the weights before the fallback to the uniform policy. -/
theorem tentsWeight_err {k : Nat} {B : ℚ} (h : Small k B) {S σ v : ℚ} (hS : IsDouble S) (hσ : |σ| ≤ k * B) (e : |S - σ| ≤ 2 * k * k * (unit * B)) (hv : IsDouble v) (hvB : |v| ≤ B) :
    |fsub v (fdiv (fsub S 1) (k : ℚ)) - (v - (σ - 1) / k)| ≤ 14 * (k * (unit * B)) := by
  obtain ⟨m1, m2, m3⟩ := minus_one_err h hS hσ e
  have hku := h.ku
  obtain ⟨k1, k2, b1⟩ := h
  have hu := unit_pos
  have ht := tiny_le_100
  have hkp : (0 : ℚ) < k := by linarith
  generalize fsub S 1 = X at *
  have e1 := fl_err' (X / k)
  change |fdiv X k - X / k| ≤ _ at e1
  have h1 : |X / k| ≤ 3 * B := by
    rw [abs_div, abs_of_pos hkp, div_le_iff₀ hkp]
    linarith
  have h2 := mul_le_mul_of_nonneg_left h1 hu.le
  have h3 : |X / k - (σ - 1) / k| ≤ 5 * (k * (unit * B)) := by
    rw [← sub_div, abs_div, abs_of_pos hkp, div_le_iff₀ hkp]
    refine le_trans m1 (le_of_eq (by ring))
  have w0 : 0 ≤ unit * B := by positivity
  have w1 : 1 * (unit * B) ≤ k * (unit * B) := mul_le_mul_of_nonneg_right k1 w0
  have w2 : unit * 1 ≤ unit * B := mul_le_mul_of_nonneg_left b1 hu.le
  have w3 : k * (unit * B) ≤ 1 / 10000 * B := by
    have := mul_le_mul_of_nonneg_right hku (by linarith : 0 ≤ B)
    linarith
  have e2 := fsub_err hv (isDouble_fl (X / k))
  change |fsub v (fdiv X k) - (v - fdiv X k)| ≤ unit * |v - fdiv X k| at e2
  have h4 := abs_sub v (fdiv X k)
  have h5 := abs_sub_abs_le_abs_sub (fdiv X k) (X / k)
  have h6 : unit * |v - fdiv X k| ≤ unit * (5 * B) := mul_le_mul_of_nonneg_left (by linarith) hu.le
  have h7 : fsub v (fdiv X k) - (v - (σ - 1) / k) = (fsub v (fdiv X k) - (v - fdiv X k)) + (-(fdiv X k - X / k) + -(X / k - (σ - 1) / k)) := by ring
  rw [h7]
  refine le_trans (abs_add_le _ _) ?_
  have h8 := abs_add_le (-(fdiv X k - X / k)) (-(X / k - (σ - 1) / k))
  rw [abs_neg, abs_neg] at h8
  linarith

/-! ## The exact sparse set -/

theorem support_nil : ∀ (l : List (ℚ × K)) (i : Nat) (s v : ℚ), l.Pairwise (fun p q => q.1 ≤ p.1) → (∀ p ∈ l, p.1 ≤ v) → 1 + i * v ≤ s → support i s l = [] := by
  intro l
  induction l with
  | nil => intro i s v _ _ _; rfl
  | cons p l ih =>
    obtain ⟨w, a⟩ := p
    intro i s v hp hl h
    rw [List.pairwise_cons] at hp
    have hw : w ≤ v := hl (w, a) (by simp)
    have h1 : (i : ℚ) * w ≤ i * v := mul_le_mul_of_nonneg_left hw (by positivity)
    unfold support
    rw [if_neg (by linarith)]
    exact ih (i + 1) (s + w) w hp.2 (fun q hq => hp.1 q hq) (by push_cast; linarith)

theorem support_split : ∀ (l : List (ℚ × K)) (i : Nat) (s : ℚ), l.Pairwise (fun p q => q.1 ≤ p.1) → ∃ post, l = support i s l ++ post ∧
    (∀ p ∈ support i s l, s + ((support i s l).map Prod.fst).sum < 1 + (i + (support i s l).length) * p.1) ∧
    ∀ p ∈ post, 1 + (i + (support i s l).length) * p.1 ≤ s + ((support i s l).map Prod.fst).sum := by
  intro l
  induction l with
  | nil => intro i s _; exact ⟨[], rfl, by simp [support], by simp⟩
  | cons p l ih =>
    obtain ⟨v, a⟩ := p
    intro i s hp
    have hp' := hp
    rw [List.pairwise_cons] at hp
    by_cases hc : s + v < 1 + (i + 1) * v
    · obtain ⟨post, e1, e2, e3⟩ := ih (i + 1) (s + v) hp.2
      have hs : support i s ((v, a) :: l) = (v, a) :: support (i + 1) (s + v) l := by rw [support, if_pos hc]
      rw [hs]
      have hsub : ∀ p ∈ support (i + 1) (s + v) l, p.1 ≤ v := fun p h => hp.1 p (support_sub.subset h)
      generalize support (i + 1) (s + v) l = sp at *
      refine ⟨post, by rw [List.cons_append, ← e1], ?_, ?_⟩
      · intro p h
        simp only [List.map_cons, List.sum_cons, List.length_cons]
        push_cast at e2 ⊢
        rcases List.mem_cons.1 h with rfl | h
        · cases sp with
          | nil => simpa [add_comm] using hc
          | cons r sp =>
            have h1 := e2 r (by simp)
            have h2 := hsub r (by simp)
            have h3 : ((i : ℚ) + 1 + ((r :: sp).length : ℚ)) * r.1 ≤ (i + 1 + ((r :: sp).length : ℚ)) * v := mul_le_mul_of_nonneg_left h2 (by positivity)
            linarith
        · have := e2 p h
          linarith
      · intro p h
        simp only [List.map_cons, List.sum_cons, List.length_cons]
        have := e3 p h
        push_cast at this ⊢
        linarith
    · have hs : support i s ((v, a) :: l) = [] := by
        rw [support, if_neg hc]
        exact support_nil l (i + 1) (s + v) v hp.2 (fun q hq => hp.1 q hq) (by push_cast; linarith)
      rw [hs]
      refine ⟨_, rfl, by simp, fun p h => ?_⟩
      simp only [List.length_nil, List.map_nil, List.sum_nil]
      have h1 : p.1 ≤ v := by
        rcases List.mem_cons.1 h with rfl | h
        · exact le_refl _
        · exact hp.1 p h
      have h2 : (i : ℚ) * p.1 ≤ i * v := mul_le_mul_of_nonneg_left h1 (by positivity)
      push_cast
      linarith

theorem sum_sub_const (l : List (ℚ × K)) (c : ℚ) : (l.map fun p => p.1 - c).sum = (l.map Prod.fst).sum - l.length * c := by
  induction l with
  | nil => simp
  | cons p l ih => simp only [List.map_cons, List.sum_cons, ih, List.length_cons]; push_cast; ring

/-- The exact weights sum to one. -/
theorem sparsemax_sum {desc : List (ℚ × K)} (hp : desc.Pairwise fun p q => q.1 ≤ p.1) (h0 : support 0 0 desc ≠ []) :
    (desc.map fun p => sparsemaxOf ((support 0 0 desc).map Prod.fst) p.1).sum = 1 := by
  obtain ⟨post, e1, e2, e3⟩ := support_split desc 0 0 hp
  have hk : (0 : ℚ) < (support 0 0 desc).length := by exact_mod_cast List.length_pos_of_ne_nil h0
  unfold sparsemaxOf
  rw [List.length_map]
  generalize support 0 0 desc = sp at *
  generalize hσ : (sp.map Prod.fst).sum = σ at *
  have e4 : sp.map (fun p => max 0 (p.1 - (σ - 1) / (sp.length : ℚ))) = sp.map fun p => p.1 - (σ - 1) / (sp.length : ℚ) := by
    refine List.map_congr_left fun p h => max_eq_right ?_
    have := e2 p h
    push_cast at this
    rw [sub_nonneg, div_le_iff₀ hk]
    linarith
  have e5 : post.map (fun p => max 0 (p.1 - (σ - 1) / (sp.length : ℚ))) = post.map fun _ => 0 := by
    refine List.map_congr_left fun p h => max_eq_left ?_
    have := e3 p h
    push_cast at this
    rw [sub_nonpos, le_div_iff₀ hk]
    linarith
  rw [e1, List.map_append, List.sum_append, e4, e5, sum_sub_const, hσ]
  have e6 : (post.map fun _ => (0 : ℚ)).sum = 0 := by induction post <;> simp
  rw [e6]
  field_simp
  ring

/-! ## The policy -/

theorem mass_map {α : Type} (l : List α) (f : α → K × ℚ) : mass (l.map f) = (l.map fun x => (f x).2).sum := by
  simp [mass, List.map_map, Function.comp_def]

/-- The weights before the fallback to the uniform policy: bounds. -/
theorem tents_common {q : K → ℚ} {M : ℚ} (hM : 1 ≤ M) {sp : List (ℚ × K)} (h0 : sp ≠ []) (hlen : sp.length ≤ 1000) (hq : ∀ p ∈ sp, IsDouble (q p.2) ∧ |q p.2| ≤ M) {a : K}
    (ha : IsDouble (q a)) (haM : |q a| ≤ M) :
    |(if fsub (q a) (fdiv (fsub (sp.foldl (fun s p => fadd s (q p.2)) 0) 1) (fl (sp.length : ℚ))) < 0 then 0
      else fsub (q a) (fdiv (fsub (sp.foldl (fun s p => fadd s (q p.2)) 0) 1) (fl (sp.length : ℚ)))) - sparsemaxOf (sp.map fun p => q p.2) (q a)| ≤ 14 * (sp.length * (unit * M)) ∧
    sparsemaxOf (sp.map fun p => q p.2) (q a) ≤ 3 * M := by
  have hk : 1 ≤ sp.length := List.length_pos_of_ne_nil h0
  have hs : Small sp.length M := ⟨by exact_mod_cast hk, by exact_mod_cast hlen, hM⟩
  obtain ⟨s1, s2, s3⟩ := sum_fold0 (fun p : ℚ × K => q p.2) (by linarith : (0 : ℚ) ≤ M) (l := sp) (le_trans hlen (by norm_num)) hq
  have hfk : fl (sp.length : ℚ) = sp.length := isDouble_nat (le_trans hlen (by norm_num))
  rw [hfk]
  have h1 := tentsWeight_err hs s1 s3 s2 ha haM
  unfold sparsemaxOf
  rw [List.length_map]
  refine ⟨pos_part h1, max_le (by linarith) ?_⟩
  obtain ⟨-, m2, -⟩ := minus_one_err hs s1 s3 s2
  have hkp : (0 : ℚ) < sp.length := by exact_mod_cast hk
  have h2 : -(2 * M) ≤ ((sp.map fun p => q p.2).sum - 1) / (sp.length : ℚ) := by
    rw [le_div_iff₀ hkp]
    have := (abs_le.1 m2).1
    linarith
  have h3 := (abs_le.1 haM).2
  linarith

theorem tents_W {M : ℚ} (hM2 : M ≤ 2 ^ 100) : 4 * M * tiny ≤ unit * unit := by
  have h1 : 4 * M * tiny ≤ 4 * 2 ^ 100 * tiny := mul_le_mul_of_nonneg_right (by linarith) tiny_pos.le
  refine le_trans h1 ?_
  have h2 : (4 : ℚ) * 2 ^ 100 * tiny ≤ 4 * 2 ^ 100 * 2 ^ (-250 : ℤ) := by
    refine mul_le_mul_of_nonneg_left ?_ (by norm_num)
    unfold tiny
    exact zpow_le_zpow_right₀ (by norm_num) (by norm_num)
  refine le_trans h2 ?_
  rw [unit_eq]
  norm_num

theorem mass_replicate {α : Type} (l : List α) (f : α → K) (c : ℚ) : mass (l.map fun a => (f a, c)) = l.length * c := by
  rw [mass_map]
  induction l with
  | nil => simp
  | cons a l ih => simp only [List.map_cons, List.sum_cons, ih, List.length_cons]; push_cast; ring

/-- Whatever TENTS returns as weights can be sampled from. -/
theorem tentsWeights_pos {q : K → ℚ} {M : ℚ} (hM : 1 ≤ M) (hM2 : M ≤ 2 ^ 100) {desc : List (ℚ × K)} {actions : List K} (hsp : sparseSet desc ≠ []) (hlen : (sparseSet desc).length ≤ 1000)
    (h0 : actions ≠ []) (hn : actions.length ≤ 1000) (hdesc : ∀ p ∈ desc, p.2 ∈ actions) (hsub : ∀ p ∈ sparseSet desc, p ∈ desc) (hq : ∀ a ∈ actions, IsDouble (q a) ∧ |q a| ≤ M) :
    ∃ ws sum, tentsWeights q desc actions = some (ws, sum) ∧ PosWeights (4 * M) sum ws ∧ ws.map Prod.fst = actions := by
  have hu := unit_pos
  have hsm := unit_small
  have hlen1 : 1 ≤ actions.length := List.length_pos_of_ne_nil h0
  unfold tentsWeights
  simp only
  rw [if_neg (by simpa using hsp)]
  have hc : ∀ a ∈ actions, _ := fun a ha => tents_common hM hsp hlen (fun p hp => hq p.2 (hdesc p (hsub p hp))) (hq a ha).1 (hq a ha).2
  have hku : ((sparseSet desc).length : ℚ) * unit ≤ 1 / 10000 := Small.ku (B := M) ⟨by exact_mod_cast List.length_pos_of_ne_nil hsp, by exact_mod_cast hlen, hM⟩
  split_ifs with hs
  · refine ⟨_, _, rfl, ⟨by linarith, tents_W hM2, ?_, ?_, ?_, ?_⟩, by rw [List.map_map]; exact List.map_id' actions⟩
    all_goals
      have hfk : fl (actions.length : ℚ) = actions.length := isDouble_nat (le_trans hn (by norm_num))
      rw [hfk]
      have hkp : (1 : ℚ) ≤ actions.length := by exact_mod_cast hlen1
      have hkp1 : (actions.length : ℚ) ≤ 1000 := by exact_mod_cast hn
      have e1 := fl_err' (1 / (actions.length : ℚ))
      change |fdiv 1 (actions.length : ℚ) - _| ≤ _ at e1
      have hq1 : 1 / (actions.length : ℚ) ≤ 1 := by rw [div_le_one (by linarith)]; exact hkp
      have hq0 : 0 < 1 / (actions.length : ℚ) := by positivity
      rw [abs_of_pos hq0] at e1
      have hmul : (actions.length : ℚ) * (1 / actions.length) = 1 := by field_simp
    · intro p hp
      obtain ⟨a, -, rfl⟩ := List.mem_map.1 hp
      exact fl_nonneg hq0.le
    · intro p hp
      obtain ⟨a, -, rfl⟩ := List.mem_map.1 hp
      have : fdiv 1 (actions.length : ℚ) ≤ 1 := fl_le isDouble_one hq1
      simp only
      linarith
    · rw [mass_replicate]
      have h1 := (abs_le.1 e1).1
      have ht := tiny_le_100
      generalize fdiv 1 (actions.length : ℚ) = c at *
      generalize (actions.length : ℚ) = n at *
      have h2 : n * (1 / n - (unit * (1 / n) + tiny)) ≤ n * c := mul_le_mul_of_nonneg_left (by linarith) (by linarith)
      have h3 : n * tiny ≤ 1000 * (unit / 100) := mul_le_mul hkp1 ht tiny_pos.le (by norm_num)
      have h4 : n * (1 / n - (unit * (1 / n) + tiny)) = n * (1 / n) - unit * (n * (1 / n)) - n * tiny := by ring
      rw [h4, hmul] at h2
      linarith
    · rw [mass_replicate, List.length_map]
      have ht : tiny ≤ unit / 10000000 := by refine le_trans tiny_le ?_; rw [unit_eq]; norm_num
      generalize fdiv 1 (actions.length : ℚ) = c at *
      generalize (actions.length : ℚ) = n at *
      have h2 : |n * c - 1| ≤ unit + n * tiny := by
        have h3 : n * c - 1 = n * (c - 1 / n) := by rw [mul_sub, hmul]
        rw [h3, abs_mul, abs_of_pos (by linarith : 0 < n)]
        have := mul_le_mul_of_nonneg_left e1 (by linarith : 0 ≤ n)
        have h4 : n * (unit * (1 / n) + tiny) = unit * (n * (1 / n)) + n * tiny := by ring
        rw [h4, hmul] at this
        linarith
      have h3 : n * tiny ≤ 1000 * (unit / 10000000) := mul_le_mul hkp1 ht tiny_pos.le (by norm_num)
      rw [abs_sub_comm]
      have h4 := (abs_le.1 h2).1
      have h5 : 9 / 10 ≤ n * c := by linarith
      have h6 : 1 * (9 / 10) ≤ n * (n * c) := mul_le_mul hkp h5 (by norm_num) (by linarith)
      have h7 := mul_le_mul_of_nonneg_left h6 hu.le
      linarith
  · have hd : ∀ p ∈ actions.map (fun a => (a, if fsub (q a) (fdiv (fsub ((sparseSet desc).foldl (fun s p => fadd s (q p.2)) 0) 1) (fl ((sparseSet desc).length : ℚ))) < 0 then 0
        else fsub (q a) (fdiv (fsub ((sparseSet desc).foldl (fun s p => fadd s (q p.2)) 0) 1) (fl ((sparseSet desc).length : ℚ))))), IsDouble p.2 ∧ 0 ≤ p.2 ∧ p.2 ≤ 4 * M := by
      intro p hp
      obtain ⟨a, ha, rfl⟩ := List.mem_map.1 hp
      have h1 := hc a ha
      simp only
      refine ⟨?_, ?_, ?_⟩
      · split_ifs
        · exact isDouble_zero
        · exact isDouble_fl _
      · split_ifs with h
        · exact le_refl _
        · exact not_lt.1 h
      · have h2 := (abs_le.1 h1.1).2
        have h3 : ((sparseSet desc).length : ℚ) * unit * M ≤ 1 / 10000 * M := mul_le_mul_of_nonneg_right hku (by linarith)
        linarith [h1.2]
    refine ⟨_, _, rfl, ⟨by linarith, tents_W hM2, fun p hp => (hd p hp).2.1, fun p hp => (hd p hp).2.2, ?_, ?_⟩, by rw [List.map_map]; exact List.map_id' actions⟩
    · have h1 := sumWeights_err (by rw [List.length_map]; exact le_trans hn (by norm_num)) fun p hp => ⟨(hd p hp).1, (hd p hp).2.1⟩
      refine not_le.1 fun hle => hs ?_
      generalize actions.map (fun a => (a, if fsub (q a) (fdiv (fsub ((sparseSet desc).foldl (fun s p => fadd s (q p.2)) 0) 1) (fl ((sparseSet desc).length : ℚ))) < 0 then 0
        else fsub (q a) (fdiv (fsub ((sparseSet desc).foldl (fun s p => fadd s (q p.2)) 0) 1) (fl ((sparseSet desc).length : ℚ))))) = ws at *
      have h2 : 2 * (ws.length : ℚ) * unit * mass ws ≤ 0 := mul_nonpos_of_nonneg_of_nonpos (by positivity) hle
      have h3 := (abs_le.1 h1).2
      have h4 : (0 : ℚ) < EPS16 := by decide +kernel
      linarith
    · refine sumWeights_err ?_ fun p hp => ⟨(hd p hp).1, (hd p hp).2.1⟩
      rw [List.length_map]
      exact le_trans hn (by norm_num)

/-- Selecting an action. -/
theorem selectTents_spec {q : K → ℚ} {M : ℚ} (hM : 1 ≤ M) (hM2 : M ≤ 2 ^ 100) {desc : List (ℚ × K)} {actions : List K} (hsp : sparseSet desc ≠ []) (hlen : (sparseSet desc).length ≤ 1000)
    (h0 : actions ≠ []) (hn : actions.length ≤ 800) (hdesc : ∀ p ∈ desc, p.2 ∈ actions) (hsub : ∀ p ∈ sparseSet desc, p ∈ desc) (hq : ∀ a ∈ actions, IsDouble (q a) ∧ |q a| ≤ M)
    {lam : ℚ} (hl : IsDouble lam) (hl1 : lam ≤ 1) (hbig : actions.length * (6 * actions.length + 12) * unit ≤ lam)
    {iter : List (K × ℚ) → List (K × ℚ)} (hiter : ∀ l, (iter l).Perm l) {u : ℚ} (hu0 : 0 ≤ u) :
    selectTents lam iter q desc actions u ≠ .tooMuch ∧
    (u < 1 - (5 * actions.length + 9) * unit → selectTents lam iter q desc actions u ≠ .tooLittle) ∧
    ∀ a, selectTents lam iter q desc actions u = .key a → a ∈ actions := by
  obtain ⟨ws, sum, e, hw, hk⟩ := tentsWeights_pos hM hM2 hsp hlen h0 (by omega) hdesc hsub hq
  have hl : ws.length = actions.length := by rw [← hk, List.length_map]
  rw [← hl] at hn hbig ⊢
  unfold selectTents
  rw [e]
  obtain ⟨h1, h2, h3⟩ := sampleMixture_spec hw hn ‹_› hl1 hbig hiter hu0
  refine ⟨h1, h2, fun a ha => ?_⟩
  obtain ⟨pre, w, post, e, -⟩ := h3 a ha
  have hm : (a, w) ∈ mixtureW lam sum ws := (hiter _).mem_iff.1 (by rw [e]; simp)
  unfold mixtureW at hm
  simp only [List.mem_map, Prod.mk.injEq] at hm
  obtain ⟨p, hp, e, -⟩ := hm
  rw [← hk, ← e]
  exact List.mem_map.2 ⟨p, hp, rfl⟩

theorem sparse_sub {l : List (ℚ × K)} {i s : ℚ} : (sparseLoop l i s).Sublist l := by
  induction l generalizing i s with
  | nil => exact List.Sublist.refl _
  | cons p l ih =>
    obtain ⟨v, a⟩ := p
    unfold sparseLoop
    simp only
    split
    · exact ih.cons_cons _
    · exact ih.cons _

/-- The weights and the policy, if the computed sparse set gives nearly the exact threshold. -/
theorem policyTents_err {q : K → ℚ} {B : ℚ} (hB : 1 ≤ B) (hB2 : B ≤ 2 ^ 100) {desc : List (ℚ × K)} {actions : List K} {E : ℚ} (h0 : support 0 0 desc ≠ []) (hT : sparseSet desc ≠ [])
    (hE : ∀ x, |sparsemaxOf ((sparseSet desc).map Prod.fst) x - sparsemaxOf ((support 0 0 desc).map Prod.fst) x| ≤ E)
    (hsort : desc.Pairwise fun p q => q.1 ≤ p.1) (hperm : (desc.map Prod.snd).Perm actions) (hcur : ∀ p ∈ desc, q p.2 = p.1) (hn : desc.length ≤ 1000)
    (hv : ∀ p ∈ desc, IsDouble p.1 ∧ |p.1| ≤ B) (hsmall : desc.length * desc.length * (unit * B) + desc.length * E ≤ 1 / 100) {lam : ℚ} (hl : IsDouble lam) (hl0 : 0 ≤ lam) (hl1 : lam ≤ 1) :
    ∃ ws sum, ∃ prob : K → ℚ, tentsWeights q desc actions = some (ws, sum) ∧ mixtureW lam sum ws = actions.map (fun a => (a, prob a)) ∧
      ∀ a ∈ actions, |prob a - ((1 - lam) * sparsemaxOf ((support 0 0 desc).map Prod.fst) (q a) + lam / desc.length)| ≤ 40 * (desc.length * desc.length) * (unit * B) + 2 * (desc.length * E) := by
  have hu := unit_pos
  have hlen : actions.length = desc.length := by rw [← hperm.length_eq, List.length_map]
  have hsub : ∀ p ∈ sparseSet desc, p ∈ desc := fun p hp => sparse_sub.subset hp
  have hd0 : desc ≠ [] := by rintro rfl; exact h0 rfl
  have hact0 : actions ≠ [] := by
    intro h
    rw [h] at hlen
    exact hd0 (List.eq_nil_of_length_eq_zero hlen.symm)
  have hq : ∀ a ∈ actions, IsDouble (q a) ∧ |q a| ≤ B := by
    intro a ha
    obtain ⟨p, hp, rfl⟩ := List.mem_map.1 (hperm.mem_iff.2 ha)
    rw [hcur p hp]
    exact hv p hp
  have hmem : ∀ p ∈ desc, p.2 ∈ actions := fun p hp => hperm.mem_iff.1 (List.mem_map.2 ⟨p, hp, rfl⟩)
  have hcurs : (sparseSet desc).map (fun p => q p.2) = (sparseSet desc).map Prod.fst := List.map_congr_left fun p hp => hcur p (hsub p hp)
  have hlens : (sparseSet desc).length ≤ desc.length := sparse_sub.length_le
  have hc := fun a (ha : a ∈ actions) => tents_common hB hT (le_trans hlens hn) (fun p hp => hq p.2 (hmem p (hsub p hp))) (hq a ha).1 (hq a ha).2
  obtain ⟨ws, sum, e, hw, hk⟩ := tentsWeights_pos hB hB2 hT (le_trans hlens hn) hact0 (by rw [hlen]; exact hn) hmem hsub hq
  have e' := e
  unfold tentsWeights at e
  simp only at e
  rw [if_neg (by simpa using hT)] at e
  -- the weights before the fallback
  generalize hwt : (fun a => (if fsub (q a) (fdiv (fsub ((sparseSet desc).foldl (fun s p => fadd s (q p.2)) 0) 1) (fl ((sparseSet desc).length : ℚ))) < 0 then 0
        else fsub (q a) (fdiv (fsub ((sparseSet desc).foldl (fun s p => fadd s (q p.2)) 0) 1) (fl ((sparseSet desc).length : ℚ))))) = wt at *
  have hwt' : ∀ a, (if fsub (q a) (fdiv (fsub ((sparseSet desc).foldl (fun s p => fadd s (q p.2)) 0) 1) (fl ((sparseSet desc).length : ℚ))) < 0 then 0
        else fsub (q a) (fdiv (fsub ((sparseSet desc).foldl (fun s p => fadd s (q p.2)) 0) 1) (fl ((sparseSet desc).length : ℚ)))) = wt a := fun a => by rw [← hwt]
  simp only [hwt', hcurs] at e hc
  generalize hsm : sparsemaxOf ((support 0 0 desc).map Prod.fst) = sm at *
  have hsum : (actions.map fun a => sm (q a)).sum = 1 := by
    have h1 := sparsemax_sum hsort h0
    rw [hsm] at h1
    have h2 : (desc.map fun p => sm p.1) = (desc.map Prod.snd).map fun a => sm (q a) := by
      rw [List.map_map]
      exact List.map_congr_left fun p hp => by simp only [Function.comp]; rw [hcur p hp]
    rw [h2] at h1
    rw [← h1]
    exact ((hperm.map _).sum_eq).symm
  set n : ℚ := (desc.length : ℚ) with hnd
  have hn1 : 1 ≤ n := by rw [hnd]; exact_mod_cast List.length_pos_of_ne_nil hd0
  have hks : ((sparseSet desc).length : ℚ) ≤ n := by rw [hnd]; exact_mod_cast hlens
  have huB : 0 < unit * B := by positivity
  have hc2 : ∀ a ∈ actions, |wt a - sm (q a)| ≤ 14 * (n * (unit * B)) + E := fun a ha => by
    have h1 := abs_sub_le (wt a) (sparsemaxOf ((sparseSet desc).map Prod.fst) (q a)) (sm (q a))
    have h2 := (hc a ha).1
    have h3 := hE (q a)
    have := mul_le_mul_of_nonneg_right hks huB.le
    linarith
  have hE0 : 0 ≤ E := le_trans (abs_nonneg _) (hE 0)
  have hnE : 0 ≤ n * E := by positivity
  have hnE2 : E ≤ n * E := by nlinarith
  have hms := sum_close hc2
  rw [hsum, hlen, ← hnd] at hms
  have hmass : mass (actions.map fun a => (a, wt a)) = (actions.map wt).sum := by rw [mass_map]
  have hmm := abs_le.1 hms
  have hnn : n * (14 * (n * (unit * B)) + E) = 14 * (n * n * (unit * B)) + n * E := by ring
  rw [hnn] at hms hmm
  have hpos : ∀ p ∈ actions.map (fun a => (a, wt a)), IsDouble p.2 ∧ 0 ≤ p.2 := by
    intro p hp
    obtain ⟨a, -, rfl⟩ := List.mem_map.1 hp
    simp only
    rw [← hwt' a]
    constructor
    · split_ifs
      · exact isDouble_zero
      · exact isDouble_fl _
    · split_ifs with h
      · exact le_refl _
      · exact not_lt.1 h
  have hbig : ¬ sumWeights (actions.map fun a => (a, wt a)) < EPS16 := by
    have h1 := sumWeights_err (by rw [List.length_map, hlen]; exact le_trans hn (by norm_num)) hpos
    rw [hmass, List.length_map, hlen, ← hnd] at h1
    have h2 := (abs_le.1 h1).1
    have h3 : n * unit ≤ 1 / 10000 := Small.ku (k := desc.length) (B := B) ⟨hn1, by exact_mod_cast hn, hB⟩
    have h4 : 2 * n * unit * (actions.map wt).sum ≤ 1 / 5000 * (actions.map wt).sum := mul_le_mul_of_nonneg_right (by linarith) (by linarith)
    have h5 : EPS16 ≤ 1 / 2 := by decide +kernel
    linarith
  rw [if_neg hbig, Option.some.injEq, Prod.mk.injEq] at e
  obtain ⟨e1, e2⟩ := e
  have hwl : ws.length = desc.length := by rw [← e1, List.length_map, hlen]
  refine ⟨ws, sum, fun a => fadd (fmul (wt a) (fdiv (fsub 1 lam) sum)) (fmul lam (fdiv 1 (fl (ws.length : ℚ)))), e', ?_, fun a ha => ?_⟩
  · unfold mixtureW
    rw [← e1, List.map_map, List.length_map]
    rfl
  · have h1 := mixtureW_err hw (by omega) hl hl0 hl1 (a, wt a) (by rw [← e1]; exact List.mem_map.2 ⟨a, ha, rfl⟩)
    simp only at h1
    have h2 := hw.le (a, wt a) (by rw [← e1]; exact List.mem_map.2 ⟨a, ha, rfl⟩)
    have hwa : 0 ≤ wt a := hw.nonneg (a, wt a) (by rw [← e1]; exact List.mem_map.2 ⟨a, ha, rfl⟩)
    have hms' : mass ws = (actions.map wt).sum := by rw [← e1, hmass]
    rw [hms', hwl, ← hnd] at h1
    rw [hwl]
    beta_reduce
    have hsmall' := hw.small
    have hca := hc2 a ha
    have hsle : wt a ≤ (actions.map wt).sum := by
      rw [← hms']
      exact le_mass hw.nonneg (p := (a, wt a)) (by rw [← e1]; exact List.mem_map.2 ⟨a, ha, rfl⟩)
    generalize (actions.map wt).sum = S at *
    generalize fadd (fmul (wt a) (fdiv (fsub 1 lam) sum)) (fmul lam (fdiv 1 (fl (desc.length : ℚ)))) = P at *
    unfold exactMix at h1
    generalize sm (q a) = m at *
    generalize wt a = w at *
    have hS : 0 < S := by linarith
    have hr1 : w / S ≤ 1 := by rw [div_le_one hS]; exact hsle
    have hr0 : 0 ≤ w / S := div_nonneg hwa hS.le
    have hrw : w / S * S = w := div_mul_cancel₀ w hS.ne'
    generalize w / S = r at *
    have hl2 : lam / n ≤ lam := div_le_self hl0 hn1
    have hl3 : 0 ≤ lam / n := div_nonneg hl0 (by linarith)
    generalize lam / n = ln at *
    have g1 : (1 - lam) * r ≤ (1 - lam) * 1 := mul_le_mul_of_nonneg_left hr1 (by linarith)
    have g2 : (3 * n + 8) * unit * ((1 - lam) * r + ln) ≤ (3 * n + 8) * unit * 1 := mul_le_mul_of_nonneg_left (by linarith) (by positivity)
    have g3 : |r - m| ≤ 14 * (n * (unit * B)) + E + (14 * (n * n * (unit * B)) + n * E) := by
      have h3 : r - m = (w - m) + r * (1 - S) := by rw [← hrw]; ring
      rw [h3]
      refine le_trans (abs_add_le _ _) ?_
      rw [abs_mul, abs_of_nonneg hr0, abs_sub_comm 1 S]
      have h4 : r * |S - 1| ≤ 1 * |S - 1| := mul_le_mul_of_nonneg_right hr1 (abs_nonneg _)
      linarith
    have g4 : |(1 - lam) * (r - m)| ≤ |r - m| := by
      rw [abs_mul, abs_of_nonneg (by linarith : 0 ≤ 1 - lam)]
      have := mul_le_mul_of_nonneg_right (by linarith : 1 - lam ≤ 1) (abs_nonneg (r - m))
      linarith
    have g5 : P - ((1 - lam) * m + ln) = (P - ((1 - lam) * r + ln)) + (1 - lam) * (r - m) := by ring
    rw [g5]
    refine le_trans (abs_add_le _ _) ?_
    have g6 : n * (unit * B) ≤ n * n * (unit * B) := by
      have := mul_le_mul_of_nonneg_right hn1 (by positivity : 0 ≤ n * (unit * B))
      linarith
    have g7 : n * unit ≤ n * n * (unit * B) := by
      have h3 := mul_le_mul_of_nonneg_left hB (by positivity : 0 ≤ n * unit)
      linarith
    have g8 : unit ≤ n * unit := by
      have := mul_le_mul_of_nonneg_right hn1 hu.le
      linarith
    have g9 : unit * unit ≤ unit / 100 := by rw [unit_eq]; norm_num
    have g10 : 0 ≤ n * n * (unit * B) := by positivity
    linarith

end Verif.Fp
