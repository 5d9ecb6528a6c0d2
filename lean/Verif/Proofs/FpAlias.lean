import Verif.Model.FpAlias
import Verif.Proofs.Alias
import Verif.Proofs.FpMents

/-!
# The alias table in doubles
-/

namespace Verif.Fp

open Verif.Alias (Entry PInv total share excess firsts classify)

variable {K : Type} [DecidableEq K]

/-- The rounded subtraction. -/
theorem pair_sub {el es T : ℚ} (hl : IsDouble el) (hs : IsDouble es) (h1 : 1 < el) (hT : el ≤ T) (h0 : 0 ≤ es) (h2 : es < 1) :
    0 ≤ fsub el (fsub 1 es) ∧ fsub el (fsub 1 es) ≤ el ∧ |fsub el (fsub 1 es) - (el - (1 - es))| ≤ unit * (T + 1) := by
  have hu := unit_pos
  have e1 := fsub_err isDouble_one hs
  have f0 : 0 ≤ fsub 1 es := fl_nonneg (by linarith)
  have f1 : fsub 1 es ≤ 1 := fl_le isDouble_one (by linarith)
  have e2 := fsub_err hl (isDouble_fl (1 - es))
  change |fsub el (fsub 1 es) - (el - fsub 1 es)| ≤ unit * |el - fsub 1 es| at e2
  have g : |1 - es| ≤ 1 := by rw [abs_le]; constructor <;> linarith
  have g1 := mul_le_mul_of_nonneg_left g hu.le
  have g' : |el - fsub 1 es| ≤ T := by rw [abs_le]; constructor <;> linarith
  have g2 := mul_le_mul_of_nonneg_left g' hu.le
  refine ⟨fl_nonneg (by linarith), fl_le hl (by linarith), ?_⟩
  have : fsub el (fsub 1 es) - (el - (1 - es)) = (fsub el (fsub 1 es) - (el - fsub 1 es)) + -(fsub 1 es - (1 - es)) := by ring
  rw [this]
  refine le_trans (abs_add_le _ _) ?_
  rw [abs_neg]
  linarith

/-- The threshold is a double up to `T`, the keys are among `ks`, and keys in `Z` have not been given mass, except by setting the threshold to one. -/
def GoodEntry (T : ℚ) (ks : List K) (Z : K → Prop) (e : Entry K ℚ) : Prop :=
  IsDouble e.threshold ∧ e.threshold ≤ T ∧ e.first ∈ ks ∧ e.second ∈ ks ∧ (Z e.first → e.threshold = 0 ∨ e.threshold = 1) ∧ (Z e.second → e.second = e.first)

/-- All entries are good. -/
def Bounded (T : ℚ) (ks : List K) (Z : K → Prop) (t : List (Entry K ℚ)) : Prop := ∀ e ∈ t, GoodEntry T ks Z e

theorem Bounded.set {T : ℚ} {ks : List K} {Z : K → Prop} {t : List (Entry K ℚ)} (h : Bounded T ks Z t) {i : Nat} {e : Entry K ℚ} (he : GoodEntry T ks Z e) :
    Bounded T ks Z (t.set i e) := by
  intro e' he'
  rcases List.mem_or_eq_of_mem_set he' with h1 | rfl
  · exact h e' h1
  · exact he

/-- What the pairing loop does. -/
theorem pairLoop_spec {T : ℚ} (hT : 1 ≤ T) {ks : List K} {Z : K → Prop} (t : List (Entry K ℚ)) (large small : List Nat) : ∀ (target : K → ℚ) (bal : ℚ), PInv target bal t large small → Bounded T ks Z t →
    ∃ t' L S target' bal', pairLoop t large small = some (t', L, S) ∧ (L = [] ∨ S = []) ∧ PInv target' bal' t' L S ∧ Bounded T ks Z t' ∧ t'.length = t.length ∧
      (∀ k, |target' k - target k| ≤ (large.length + small.length : ℕ) * (unit * (T + 1))) ∧ |bal' - bal| ≤ (large.length + small.length : ℕ) * (unit * (T + 1)) := by
  have hδ : 0 ≤ unit * (T + 1) := mul_nonneg unit_pos.le (by linarith)
  have key : ∀ {t : List (Entry K ℚ)} {l s : Nat} {large small large' small' : List Nat} {el es : Entry K ℚ} {target : K → ℚ} {bal : ℚ}, t[l]? = some el → t[s]? = some es →
      PInv target bal t (l :: large) (s :: small) → Bounded T ks Z t →
      ((1 < fsub el.threshold (fsub 1 es.threshold) ∧ large' = l :: large ∧ small' = small) ∨
      (fsub el.threshold (fsub 1 es.threshold) < 1 ∧ large' = large ∧ small' = l :: small) ∨
      (fsub el.threshold (fsub 1 es.threshold) = 1 ∧ large' = large ∧ small' = small)) →
      (∀ target bal, PInv target bal ((t.set s { es with second := el.first }).set l { el with threshold := fsub el.threshold (fsub 1 es.threshold) }) large' small' →
        Bounded T ks Z ((t.set s { es with second := el.first }).set l { el with threshold := fsub el.threshold (fsub 1 es.threshold) }) →
        ∃ t' L S target' bal', pairLoop ((t.set s { es with second := el.first }).set l { el with threshold := fsub el.threshold (fsub 1 es.threshold) }) large' small' = some (t', L, S) ∧
          (L = [] ∨ S = []) ∧ PInv target' bal' t' L S ∧ Bounded T ks Z t' ∧
          t'.length = ((t.set s { es with second := el.first }).set l { el with threshold := fsub el.threshold (fsub 1 es.threshold) }).length ∧
          (∀ k, |target' k - target k| ≤ (large'.length + small'.length : ℕ) * (unit * (T + 1))) ∧ |bal' - bal| ≤ (large'.length + small'.length : ℕ) * (unit * (T + 1))) →
      ∃ t' L S target' bal', pairLoop ((t.set s { es with second := el.first }).set l { el with threshold := fsub el.threshold (fsub 1 es.threshold) }) large' small' = some (t', L, S) ∧
        (L = [] ∨ S = []) ∧ PInv target' bal' t' L S ∧ Bounded T ks Z t' ∧ t'.length = t.length ∧
        (∀ k, |target' k - target k| ≤ ((l :: large).length + (s :: small).length : ℕ) * (unit * (T + 1))) ∧ |bal' - bal| ≤ ((l :: large).length + (s :: small).length : ℕ) * (unit * (T + 1)) := by
    intro t l s large small large' small' el es target bal hl hs hp hb hcase ih
    obtain ⟨el0, hl0, hl1, hl2⟩ := hp.isLarge l (by simp)
    obtain ⟨es0, hs0, hs1, hs2, hs3⟩ := hp.isSmall s (by simp)
    obtain rfl : el0 = el := by rw [hl] at hl0; exact (Option.some.inj hl0).symm
    obtain rfl : es0 = es := by rw [hs] at hs0; exact (Option.some.inj hs0).symm
    obtain ⟨bl1, bl2, bl3, bl4, bl5, bl6⟩ := hb _ (List.mem_of_getElem? hl)
    obtain ⟨bs1, bs2, bs3, bs4, bs5, bs6⟩ := hb _ (List.mem_of_getElem? hs)
    have hlZ : ¬ Z el0.first := fun h => by rcases bl5 h with h | h <;> linarith
    obtain ⟨x0, x1, x2⟩ := pair_sub bl1 bs1 hl1 bl2 hs1 hs2
    have hp' := hp.step' x0 hl hs large' small' hcase
    have hb1 : Bounded T ks Z (t.set s { es0 with second := el0.first }) := hb.set ⟨bs1, bs2, bs3, bl3, bs5, fun h => absurd h hlZ⟩
    have hb' := hb1.set (i := l) (e := { el0 with threshold := fsub el0.threshold (fsub 1 es0.threshold) }) ⟨isDouble_fl _, le_trans x1 bl2, bl3, bl4, fun h => absurd h hlZ, bl6⟩
    obtain ⟨t', L, S, target', bal', g1, g2, g3, g4, g5, g6, g7⟩ := ih _ _ hp' hb'
    have hlen : large'.length + small'.length + 1 ≤ (l :: large).length + (s :: small).length := by
      rcases hcase with ⟨_, rfl, rfl⟩ | ⟨_, rfl, rfl⟩ | ⟨_, rfl, rfl⟩ <;> simp only [List.length_cons] <;> omega
    have hlenq : ((large'.length + small'.length : ℕ) : ℚ) + 1 ≤ ((l :: large).length + (s :: small).length : ℕ) := by exact_mod_cast hlen
    have hm := mul_le_mul_of_nonneg_right hlenq hδ
    refine ⟨t', L, S, target', bal', g1, g2, g3, g4, by rw [g5, List.length_set, List.length_set], fun k => ?_, ?_⟩
    · have h1 := g6 k
      generalize target' k = a at *
      generalize target k = b at *
      have h2 : |if el0.first = k then fsub el0.threshold (fsub 1 es0.threshold) - (el0.threshold - (1 - es0.threshold)) else 0| ≤ unit * (T + 1) := by
        split_ifs
        · exact x2
        · rw [abs_zero]; exact hδ
      generalize (if el0.first = k then fsub el0.threshold (fsub 1 es0.threshold) - (el0.threshold - (1 - es0.threshold)) else 0) = y at *
      have h3 : a - b = (a - (b + y)) + y := by ring
      rw [h3]
      refine le_trans (abs_add_le _ _) ?_
      linarith
    · generalize fsub el0.threshold (fsub 1 es0.threshold) - (el0.threshold - (1 - es0.threshold)) = y at *
      have h3 : bal' - bal = (bal' - (bal + y)) + y := by ring
      rw [h3]
      refine le_trans (abs_add_le _ _) ?_
      linarith
  fun_induction pairLoop t large small with
  | case1 t l large s small el es hl hs t1 el' t2 hc ih =>
    intro target bal hp hb
    exact key hs hl hp hb (Or.inl ⟨hc, rfl, rfl⟩) ih
  | case2 t l large s small el es hl hs t1 el' t2 hc hc' ih =>
    intro target bal hp hb
    exact key hs hl hp hb (Or.inr (Or.inl ⟨hc', rfl, rfl⟩)) ih
  | case3 t l large s small el es hl hs t1 el' t2 hc hc' ih =>
    intro target bal hp hb
    exact key hs hl hp hb (Or.inr (Or.inr ⟨le_antisymm (not_lt.mp hc) (not_lt.mp hc'), rfl, rfl⟩)) ih
  | case4 t l large s small hno =>
    intro target bal hp hb
    obtain ⟨el, hl, _⟩ := hp.isLarge l (by simp)
    obtain ⟨es, hs, _⟩ := hp.isSmall s (by simp)
    exact absurd hs (hno el es hl)
  | case5 t large small hno =>
    intro target bal hp hb
    refine ⟨t, large, small, target, bal, rfl, ?_, hp, hb, rfl, fun k => ?_, ?_⟩
    · cases large with
      | nil => exact Or.inl rfl
      | cons l large =>
        cases small with
        | nil => exact Or.inr rfl
        | cons s small => exact absurd rfl (hno l large s small rfl)
    · rw [sub_self, abs_zero]; positivity
    · rw [sub_self, abs_zero]; positivity

theorem balance_nil (t : List (Entry K ℚ)) : ∀ j, total (excess []) j t = 0 := by
  induction t with
  | nil => intro j; rfl
  | cons e t ih => intro j; simp [total, excess, ih]

/-- The last loops: large entries. -/
theorem setOnes_large {T : ℚ} (hT : 1 ≤ T) {ks : List K} {Z : K → Prop} : ∀ (L : List Nat) (t : List (Entry K ℚ)) (target : K → ℚ) (bal : ℚ), PInv target bal t L [] → Bounded T ks Z t →
    ∃ t' target', setOnes t L = some t' ∧ PInv target' 0 t' [] [] ∧ Bounded T ks Z t' ∧ t'.length = t.length ∧ ∀ k, 0 ≤ target k - target' k ∧ target k - target' k ≤ bal := by
  intro L
  induction L with
  | nil =>
    intro t target bal hp hb
    have : bal = 0 := by rw [← hp.balance]; exact balance_nil t 0
    subst this
    exact ⟨t, target, rfl, hp, hb, rfl, fun k => by simp⟩
  | cons i L ih =>
    intro t target bal hp hb
    obtain ⟨e, he, h1, h2⟩ := hp.isLarge i (by simp)
    have hnd := hp.nodup
    rw [List.append_nil, List.nodup_cons] at hnd
    have hp' := hp.ones (L' := L) (S' := []) (by simp) he h2 (by simpa using hnd.1) (by simpa using hnd.2) (fun j hj => by simp [hj]) (fun j _ => Iff.rfl)
    obtain ⟨b1, b2, b3, b4, b5, b6⟩ := hb e (List.mem_of_getElem? he)
    obtain ⟨t', target', g1, g2, g3, g4, g5⟩ := ih _ _ _ hp' (hb.set ⟨isDouble_one, hT, b3, b4, fun _ => Or.inr rfl, b6⟩)
    refine ⟨t', target', by rw [setOnes, he]; exact g1, g2, g3, by rw [g4, List.length_set], fun k => ?_⟩
    obtain ⟨g6, g7⟩ := g5 k
    have h3 : -(e.threshold - 1) ≤ (if e.first = k then 1 - e.threshold else 0) ∧ (if e.first = k then 1 - e.threshold else 0) ≤ 0 := by
      split_ifs <;> constructor <;> linarith
    constructor <;> linarith

theorem setOnes_small {T : ℚ} (hT : 1 ≤ T) {ks : List K} {Z : K → Prop} : ∀ (S : List Nat) (t : List (Entry K ℚ)) (target : K → ℚ) (bal : ℚ), PInv target bal t [] S → Bounded T ks Z t →
    ∃ t' target', setOnes t S = some t' ∧ PInv target' 0 t' [] [] ∧ Bounded T ks Z t' ∧ t'.length = t.length ∧ ∀ k, 0 ≤ target' k - target k ∧ target' k - target k ≤ - bal := by
  intro S
  induction S with
  | nil =>
    intro t target bal hp hb
    have : bal = 0 := by rw [← hp.balance]; exact balance_nil t 0
    subst this
    exact ⟨t, target, rfl, hp, hb, rfl, fun k => by simp⟩
  | cons i S ih =>
    intro t target bal hp hb
    obtain ⟨e, he, h0, h1, h2⟩ := hp.isSmall i (by simp)
    have hnd := hp.nodup
    rw [List.nil_append, List.nodup_cons] at hnd
    have hp' := hp.ones (L' := []) (S' := S) (by simp) he h2 (by simpa using hnd.1) (by simpa using hnd.2) (fun j _ => Iff.rfl) (fun j hj => by simp [hj])
    obtain ⟨b1, b2, b3, b4, b5, b6⟩ := hb e (List.mem_of_getElem? he)
    obtain ⟨t', target', g1, g2, g3, g4, g5⟩ := ih _ _ _ hp' (hb.set ⟨isDouble_one, hT, b3, b4, fun _ => Or.inr rfl, b6⟩)
    refine ⟨t', target', by rw [setOnes, he]; exact g1, g2, g3, by rw [g4, List.length_set], fun k => ?_⟩
    obtain ⟨g6, g7⟩ := g5 k
    have h3 : 0 ≤ (if e.first = k then 1 - e.threshold else 0) ∧ (if e.first = k then 1 - e.threshold else 0) ≤ 1 - e.threshold := by
      split_ifs <;> constructor <;> linarith
    constructor <;> linarith

/-- What settling a table does. -/
theorem settle_spec {T : ℚ} (hT : 1 ≤ T) {ks : List K} {Z : K → Prop} {t : List (Entry K ℚ)} (hfresh : ∀ e ∈ t, e.second = e.first ∧ 0 ≤ e.threshold) (hb : Bounded T ks Z t) :
    ∃ t' target', settle t = some t' ∧ PInv target' 0 t' [] [] ∧ Bounded T ks Z t' ∧ t'.length = t.length ∧
      ∀ k, |target' k - total (firsts k) 0 t| ≤ |total (fun _ e => e.threshold - 1) 0 t| + 2 * (t.length * (unit * (T + 1))) := by
  have hinv := Verif.Alias.classify_inv t hfresh
  have hδ : 0 ≤ unit * (T + 1) := mul_nonneg unit_pos.le (by linarith)
  have hlen : (classify 0 t [] []).1.length + (classify 0 t [] []).2.length ≤ t.length := by
    have h1 := hinv.nodup
    have h2 : ((classify 0 t [] []).1 ++ (classify 0 t [] []).2).length ≤ (List.range t.length).length := by
      refine (List.subperm_of_subset h1 fun i hi => List.mem_range.2 ?_).length_le
      rcases List.mem_append.1 hi with h | h
      · obtain ⟨e, he, -⟩ := hinv.isLarge i h
        exact (List.getElem?_eq_some_iff.mp he).1
      · obtain ⟨e, he, -⟩ := hinv.isSmall i h
        exact (List.getElem?_eq_some_iff.mp he).1
    rwa [List.length_append, List.length_range] at h2
  obtain ⟨t', L, S, target', bal', g1, g2, g3, g4, g5, g6, g7⟩ := pairLoop_spec hT t _ _ _ _ hinv hb
  have hm : (((classify 0 t [] []).1.length + (classify 0 t [] []).2.length : ℕ) : ℚ) * (unit * (T + 1)) ≤ t.length * (unit * (T + 1)) :=
    mul_le_mul_of_nonneg_right (by exact_mod_cast hlen) hδ
  generalize total (fun _ e => e.threshold - 1) 0 t = B at *
  have hbal : |bal'| ≤ |B| + t.length * (unit * (T + 1)) := by
    have := abs_sub_abs_le_abs_sub bal' B
    linarith
  have fin : ∀ {a b c : ℚ}, |b - c| ≤ t.length * (unit * (T + 1)) → |a - b| ≤ |bal'| → |a - c| ≤ |B| + 2 * (t.length * (unit * (T + 1))) := by
    intro a b c h1 h2
    have h3 : a - c = (a - b) + (b - c) := by ring
    rw [h3]
    refine le_trans (abs_add_le _ _) ?_
    linarith
  unfold settle
  simp only
  rw [g1]
  rcases g2 with rfl | rfl
  · obtain ⟨t'', target'', f1, f2, f3, f4, f5⟩ := setOnes_small hT S t' target' bal' g3 g4
    refine ⟨t'', target'', by simp only [setOnes, Option.bind_some]; exact f1, f2, f3, by rw [f4, g5], fun k => ?_⟩
    obtain ⟨f6, f7⟩ := f5 k
    refine fin (le_trans (g6 k) hm) ?_
    rw [abs_of_nonneg f6]
    exact le_trans f7 (neg_le_abs bal')
  · obtain ⟨t'', target'', f1, f2, f3, f4, f5⟩ := setOnes_large hT L t' target' bal' g3 g4
    refine ⟨t'', target'', by simp only [f1, Option.bind_some, setOnes], f2, f3, by rw [f4, g5], fun k => ?_⟩
    obtain ⟨f6, f7⟩ := f5 k
    refine fin (le_trans (g6 k) hm) ?_
    rw [abs_sub_comm, abs_of_nonneg f6]
    exact le_trans f7 (le_abs_self bal')

/-! ## The fresh thresholds -/

/-- The product of a double and a number is rounded without underflow. -/
theorem fmul_nat_err {w : ℚ} (hw : IsDouble w) (n : Nat) : |fmul w n - w * n| ≤ unit * |w * n| := by
  refine fl_err_rel ?_
  obtain ⟨a, ha⟩ := hw.multiple
  exact ⟨a * n, by rw [ha]; push_cast; ring⟩

theorem fresh_err {n : Nat} (h1 : 1 ≤ n) (hn : n ≤ 10 ^ 6) {w s S : ℚ} (hw : IsDouble w) (hw0 : 0 ≤ w) (hS : 0 < S) (hs : |s - S| ≤ 2 * n * unit * S) :
    0 ≤ fdiv (fmul w n) s ∧ |fdiv (fmul w n) s - w * n / S| ≤ (2 * n + 4) * unit * (w * n / S) + tiny := by
  have hu := unit_pos
  have hnq : (1 : ℚ) ≤ n := by exact_mod_cast h1
  have hnq2 : (n : ℚ) ≤ 10 ^ 6 := by exact_mod_cast hn
  have hnu : n * unit ≤ 1 / 10 ^ 9 := by
    have := mul_le_mul_of_nonneg_right hnq2 hu.le
    refine le_trans this ?_
    rw [unit_eq]; norm_num
  have hus := unit_small
  have hx0 : 0 ≤ w * n := by positivity
  have e1 := fmul_nat_err hw n
  rw [abs_of_nonneg hx0] at e1
  have hy0 : 0 ≤ fmul w n := fl_nonneg hx0
  generalize fmul w n = y at *
  generalize w * (n : ℚ) = x at *
  have hsS : (1 - 2 * n * unit) * S ≤ s := by have := (abs_le.1 hs).1; linarith
  have hs9 : 9 / 10 * S ≤ s := by
    have h2 : 9 / 10 * S ≤ (1 - 2 * n * unit) * S := mul_le_mul_of_nonneg_right (by linarith) hS.le
    linarith
  have hsp : 0 < s := by linarith
  refine ⟨fl_nonneg (div_nonneg hy0 hsp.le), ?_⟩
  have e2 := fl_err' (y / s)
  change |fdiv y s - y / s| ≤ _ at e2
  rw [abs_of_nonneg (div_nonneg hy0 hsp.le)] at e2
  set q := x / S with hq
  have hq0 : 0 ≤ q := div_nonneg hx0 hS.le
  have hxq : x = q * S := by rw [hq]; field_simp
  -- the quotient before rounding
  have e3 : |y / s - q| ≤ (2 * n + 2) * unit * q := by
    have h2 : y / s - q = ((y - x) + q * (S - s)) / s := by rw [hxq]; field_simp; ring
    rw [h2, abs_div, abs_of_pos hsp, div_le_iff₀ hsp]
    refine le_trans (abs_add_le _ _) ?_
    rw [abs_mul, abs_of_nonneg hq0, abs_sub_comm S s]
    have h3 : q * |s - S| ≤ q * (2 * n * unit * S) := mul_le_mul_of_nonneg_left hs hq0
    have h4 : (2 * n + 2) * unit * q * ((1 - 2 * n * unit) * S) ≤ (2 * n + 2) * unit * q * s := mul_le_mul_of_nonneg_left hsS (by positivity)
    refine le_trans ?_ h4
    rw [hxq] at e1
    have h5 : 0 ≤ unit * q * S := by positivity
    have h6 : (2 * n + 2) * (2 * n * unit) ≤ 1 := by
      have : (2 * (n : ℚ) + 2) * (2 * n * unit) = 4 * n * (n * unit) + 4 * (n * unit) := by ring
      rw [this]
      have h7 : (n : ℚ) * (n * unit) ≤ 10 ^ 6 * (1 / 10 ^ 9) := mul_le_mul hnq2 hnu (by positivity) (by norm_num)
      linarith
    have h7 := mul_le_mul_of_nonneg_right h6 h5
    rw [← hxq] at e1
    have h8 : |y - x| ≤ unit * q * S := by rw [hxq] at e1 ⊢; linarith
    linarith
  have h9 := (abs_le.1 e3).2
  have h10 : y / s ≤ 2 * q := by
    have h11 : (2 * n + 2) * unit * q ≤ 1 * q := mul_le_mul_of_nonneg_right (by linarith) hq0
    linarith
  have h11 := mul_le_mul_of_nonneg_left h10 hu.le
  have h12 : fdiv y s - q = (fdiv y s - y / s) + (y / s - q) := by ring
  rw [h12]
  refine le_trans (abs_add_le _ _) ?_
  linarith

theorem total_map {α : Type} (F : Entry K ℚ → ℚ) (f : α → Entry K ℚ) (l : List α) : ∀ j, total (fun _ e => F e) j (l.map f) = (l.map fun x => F (f x)).sum := by
  induction l with
  | nil => intro j; rfl
  | cons x l ih => intro j; simp only [List.map_cons, total, ih, List.sum_cons]

theorem sum_near {f g : K × ℚ → ℚ} {η τ : ℚ} : ∀ {l : List (K × ℚ)}, (∀ x ∈ l, |f x - g x| ≤ η * g x + τ) → |(l.map f).sum - (l.map g).sum| ≤ η * (l.map g).sum + l.length * τ := by
  intro l
  induction l with
  | nil => intro _; simp
  | cons x l ih =>
    intro h
    have h1 := h x (by simp)
    have h2 := ih fun y hy => h y (by simp [hy])
    simp only [List.map_cons, List.sum_cons, List.length_cons]
    have h3 : f x + (l.map f).sum - (g x + (l.map g).sum) = (f x - g x) + ((l.map f).sum - (l.map g).sum) := by ring
    rw [h3]
    refine le_trans (abs_add_le _ _) ?_
    push_cast
    linarith

/-- The table built from a distribution. -/
theorem construct_spec {d : List (K × ℚ)} (hn : d.length ≤ 10 ^ 6) (hw : ∀ p ∈ d, IsDouble p.2 ∧ 0 ≤ p.2) (hpos : 0 < mass d) :
    ∃ t' target', construct d = some t' ∧ PInv target' 0 t' [] [] ∧ Bounded (2 * d.length) (d.map Prod.fst) (fun k => ∀ p ∈ d, p.1 = k → p.2 = 0) t' ∧ t'.length = d.length ∧
      ∀ k, |target' k - (d.map fun p => if p.1 = k then p.2 * d.length / mass d else 0).sum| ≤ d.length * ((8 * d.length + 11) * unit) := by
  have hu := unit_pos
  have hd0 : 1 ≤ d.length := by
    cases d with
    | nil => simp [mass] at hpos
    | cons p d => simp
  have hsum := sumWeights_err (le_trans hn (by norm_num)) hw
  have hfk : fl (d.length : ℚ) = d.length := isDouble_nat (le_trans hn (by norm_num))
  have he : ∀ p ∈ d, _ := fun p hp => fresh_err hd0 hn (hw p hp).1 (hw p hp).2 hpos hsum
  have hnq : (1 : ℚ) ≤ d.length := by exact_mod_cast hd0
  have hnq2 : (d.length : ℚ) ≤ 10 ^ 6 := by exact_mod_cast hn
  have hnu : d.length * unit ≤ 1 / 10 ^ 9 := by
    have := mul_le_mul_of_nonneg_right hnq2 hu.le
    refine le_trans this ?_
    rw [unit_eq]; norm_num
  have hple : ∀ p ∈ d, p.2 * d.length / mass d ≤ d.length := fun p hp => by
    rw [div_le_iff₀ hpos]
    have := le_mass (fun q hq => (hw q hq).2) hp
    have := mul_le_mul_of_nonneg_right this (by linarith : (0 : ℚ) ≤ d.length)
    linarith
  have hp0 : ∀ p ∈ d, 0 ≤ p.2 * d.length / mass d := fun p hp => div_nonneg (mul_nonneg (hw p hp).2 (by linarith)) hpos.le
  have htiny : tiny ≤ unit / 1000 := by refine le_trans tiny_le ?_; rw [unit_eq]; norm_num
  have hsm := unit_small
  have hT : ∀ p ∈ d, fdiv (fmul p.2 d.length) (sumWeights d) ≤ 2 * d.length := fun p hp => by
    have h1 := (abs_le.1 (he p hp).2).2
    have h2 := hple p hp
    have h3 : (2 * (d.length : ℚ) + 4) * unit * (p.2 * d.length / mass d) ≤ (1 / 100) * (p.2 * d.length / mass d) := mul_le_mul_of_nonneg_right (by linarith) (hp0 p hp)
    have h4 := hp0 p hp
    linarith
  have hmass : (d.map fun p => p.2 * d.length / mass d).sum = d.length := by
    have h1 : ∀ (c : ℚ) (l : List (K × ℚ)), (l.map fun p => p.2 * c / mass d).sum = mass l * c / mass d := by
      intro c l
      induction l with
      | nil => simp [mass]
      | cons p l ih =>
        have h2 : mass (p :: l) = p.2 + mass l := by simp [mass]
        rw [List.map_cons, List.sum_cons, ih, h2]
        ring
    rw [h1]
    field_simp
  unfold construct freshEntries
  simp only [hfk]
  obtain ⟨t', target', g1, g2, g3, g4, g5⟩ := settle_spec (T := 2 * (d.length : ℚ)) (by linarith) (ks := d.map Prod.fst) (Z := fun k => ∀ p ∈ d, p.1 = k → p.2 = 0)
    (t := d.map fun p => ⟨fdiv (fmul p.2 (d.length : ℚ)) (sumWeights d), p.1, p.1⟩)
    (fun e h => by obtain ⟨p, hp, rfl⟩ := List.mem_map.1 h; exact ⟨rfl, (he p hp).1⟩)
    (fun e h => by obtain ⟨p, hp, rfl⟩ := List.mem_map.1 h; exact ⟨isDouble_fl _, hT p hp, List.mem_map.2 ⟨p, hp, rfl⟩, List.mem_map.2 ⟨p, hp, rfl⟩, fun h => Or.inl (by simp only; rw [h p hp rfl]; simp [fmul, fdiv, fl_zero]), fun _ => rfl⟩)
  refine ⟨t', target', g1, g2, g3, by rw [g4, List.length_map], fun k => ?_⟩
  have g6 := g5 k
  rw [List.length_map, total_map (fun e => e.threshold - 1)] at g6
  have e1 : total (firsts k) 0 (d.map fun p => (⟨fdiv (fmul p.2 (d.length : ℚ)) (sumWeights d), p.1, p.1⟩ : Entry K ℚ)) =
      (d.map fun p => if p.1 = k then fdiv (fmul p.2 (d.length : ℚ)) (sumWeights d) else 0).sum := by
    have := total_map (fun e : Entry K ℚ => if e.first = k then e.threshold else 0) (fun p : K × ℚ => (⟨fdiv (fmul p.2 (d.length : ℚ)) (sumWeights d), p.1, p.1⟩ : Entry K ℚ)) d 0
    exact this
  rw [e1] at g6
  have n1 := sum_near (l := d) (f := fun p => if p.1 = k then fdiv (fmul p.2 (d.length : ℚ)) (sumWeights d) else 0) (g := fun p => if p.1 = k then p.2 * d.length / mass d else 0)
    (η := (2 * d.length + 4) * unit) (τ := tiny) (fun p hp => by
      beta_reduce
      split_ifs
      · exact (he p hp).2
      · simp [tiny_pos.le])
  have n2 : (d.map fun p => if p.1 = k then p.2 * d.length / mass d else 0).sum ≤ d.length := by
    refine le_trans (List.sum_le_sum fun p hp => ?_) hmass.le
    split_ifs
    · exact le_refl _
    · exact hp0 p hp
  have n3 := sum_near (l := d) (f := fun p => fdiv (fmul p.2 (d.length : ℚ)) (sumWeights d)) (g := fun p => p.2 * d.length / mass d)
    (η := (2 * d.length + 4) * unit) (τ := tiny) (fun p hp => (he p hp).2)
  rw [hmass] at n3
  have e2 : (d.map fun p => fdiv (fmul p.2 (d.length : ℚ)) (sumWeights d) - 1).sum = (d.map fun p => fdiv (fmul p.2 (d.length : ℚ)) (sumWeights d)).sum - d.length := by
    have : ∀ (f : K × ℚ → ℚ) (l : List (K × ℚ)), (l.map fun p => f p - 1).sum = (l.map f).sum - l.length := by
      intro f l
      induction l with
      | nil => simp
      | cons p l ih => simp only [List.map_cons, List.sum_cons, ih, List.length_cons]; push_cast; ring
    exact this _ d
  rw [e2] at g6
  generalize (d.map fun p => if p.1 = k then p.2 * d.length / mass d else 0).sum = G at *
  generalize (d.map fun p => if p.1 = k then fdiv (fmul p.2 (d.length : ℚ)) (sumWeights d) else 0).sum = F at *
  generalize (d.map fun p => fdiv (fmul p.2 (d.length : ℚ)) (sumWeights d)).sum = H at *
  generalize target' k = a at *
  generalize (d.length : ℚ) = n at *
  have h1 : (2 * n + 4) * unit * G ≤ (2 * n + 4) * unit * n := mul_le_mul_of_nonneg_left n2 (by positivity)
  have h2 : a - G = (a - F) + (F - G) := by ring
  rw [h2]
  refine le_trans (abs_add_le _ _) ?_
  have h3 : n * tiny ≤ n * (unit / 1000) := mul_le_mul_of_nonneg_left htiny (by linarith)
  have h4 : 0 ≤ n * unit := by positivity
  linarith

end Verif.Fp
