import Verif.Spec.FpUct
import Verif.Proofs.FpArith
import Verif.Proofs.Uct
import Verif.Proofs.SearchPrefix
import Mathlib.Tactic.Positivity
import Mathlib.Analysis.SpecialFunctions.Pow.Real
import Mathlib.Analysis.Complex.ExponentialBounds

/-! # UCB values in doubles -/

set_option linter.unusedSectionVars false
set_option linter.unusedSimpArgs false

namespace Verif.Fp

open Verif.Search Verif.Sampling Verif.Spec
open Verif.Uct (Stats Cfg avgOf visitsOf Tried kid oppCoeff hasPrior untried PriorIs IterOk)

/-! ## Rounding errors -/

theorem unit_le : unit ≤ 1 / 1000 := by rw [unit_eq]; norm_num

theorem mul_round (x p y : ℚ) {E : ℚ} (h : |x - y| ≤ E) : |fmul x p - y * p| ≤ |p| * E + unit * (|y * p| + |p| * E) + tiny := by
  have hu := unit_pos
  have h1 := fl_err' (x * p)
  have h2 : |x * p - y * p| ≤ |p| * E := by
    rw [← sub_mul, abs_mul, mul_comm]
    exact mul_le_mul_of_nonneg_left h (abs_nonneg _)
  have h3 : |x * p| ≤ |y * p| + |p| * E := by
    have := abs_sub_abs_le_abs_sub (x * p) (y * p)
    linarith
  have h4 := mul_le_mul_of_nonneg_left h3 hu.le
  have h5 := abs_sub_le (fl (x * p)) (x * p) (y * p)
  unfold fmul
  linarith

/-- The exploration part of a value. -/
theorem bonus_round (t b p : ℚ) : |fmul (fmul t b) p - t * b * p| ≤ (2 + 1 / 100) * unit * |t * b * p| + (1 + 1 / 100) * (|p| + 1) * tiny := by
  have hu := unit_pos
  have hu' := unit_le
  have ht := tiny_pos.le
  have h1 : |fmul t b - t * b| ≤ unit * |t * b| + tiny := fl_err' _
  have h2 := mul_round (fmul t b) p (t * b) h1
  have e : |p| * (unit * |t * b| + tiny) = unit * |t * b * p| + |p| * tiny := by rw [abs_mul (t * b) p]; ring
  rw [e] at h2
  have hA := abs_nonneg (t * b * p)
  have hP := abs_nonneg p
  have g1 : unit * (unit * |t * b * p|) ≤ 1 / 1000 * (unit * |t * b * p|) := mul_le_mul_of_nonneg_right hu' (mul_nonneg hu.le hA)
  have g2 : unit * (|p| * tiny) ≤ 1 / 1000 * (|p| * tiny) := mul_le_mul_of_nonneg_right hu' (mul_nonneg hP ht)
  have g3 : 0 ≤ |p| * tiny := mul_nonneg hP ht
  have g4 : 0 ≤ unit * |t * b * p| := mul_nonneg hu.le hA
  linarith

theorem bonus_round_one (t b : ℚ) : |fmul t b - t * b| ≤ (2 + 1 / 100) * unit * |t * b| + (1 + 1 / 100) * (1 + 1) * tiny := by
  have h1 : |fmul t b - t * b| ≤ unit * |t * b| + tiny := fl_err' _
  have hu := unit_pos
  have ht := tiny_pos.le
  have g4 : 0 ≤ unit * |t * b| := mul_nonneg hu.le (abs_nonneg _)
  linarith

/-- Adding the average. -/
theorem value_round {w B p x : ℚ} (h : |w - B| ≤ (2 + 1 / 100) * unit * |B| + (1 + 1 / 100) * (|p| + 1) * tiny) :
    |fadd w x - (B + x)| ≤ (3 + 1 / 10) * unit * |B| + unit * |x| + 2 * (|p| + 2) * tiny := by
  have hu := unit_pos
  have hu' := unit_le
  have ht := tiny_pos.le
  have h1 := fl_err' (w + x)
  have h2 : |w + x| ≤ |x| + |B| + ((2 + 1 / 100) * unit * |B| + (1 + 1 / 100) * (|p| + 1) * tiny) := by
    have a1 := abs_add_le w x
    have a2 := abs_sub_abs_le_abs_sub w B
    linarith
  have h3 := mul_le_mul_of_nonneg_left h2 hu.le
  have h4 := abs_sub_le (fl (w + x)) (w + x) (B + x)
  have h5 : w + x - (B + x) = w - B := by ring
  rw [h5] at h4
  have hA := abs_nonneg B
  have hP := abs_nonneg p
  have g1 : unit * (unit * |B|) ≤ 1 / 1000 * (unit * |B|) := mul_le_mul_of_nonneg_right hu' (mul_nonneg hu.le hA)
  have g2 : unit * ((|p| + 1) * tiny) ≤ 1 / 1000 * ((|p| + 1) * tiny) := mul_le_mul_of_nonneg_right hu' (mul_nonneg (by linarith) ht)
  have g3 : 0 ≤ |p| * tiny := mul_nonneg hP ht
  have g4 : 0 ≤ unit * |B| := mul_nonneg hu.le hA
  unfold fadd
  linarith

variable {S A : Type} [DecidableEq S] [DecidableEq A]

theorem bias_spec (cfg : Cfg S A ℚ) (v : View S A (Stats ℚ) (Stats ℚ)) : BiasIs cfg v (biasOf cfg v) := by
  unfold BiasIs biasOf
  split
  · have gen : ∀ (as : List A) (b0 : ℚ) (s : Set ℚ), IsGreatest s b0 →
        IsGreatest (s ∪ {x | ∃ a ∈ as, Tried v a ∧ x = |avgOf v a|})
          (as.foldl (fun bias a => match kid v a with
            | none => bias
            | some (_, y) => if bias < |y.avg| then |y.avg| else bias) b0) := by
      intro as
      induction as with
      | nil => intro b0 s h; simpa using h
      | cons a as ih =>
        intro b0 s h
        rw [List.foldl_cons]
        cases hk : kid v a with
        | none =>
          have hnt : ¬ Tried v a := by rw [← Uct.kid_some_iff, hk]; simp
          have heq : (s ∪ {x | ∃ a' ∈ a :: as, Tried v a' ∧ x = |avgOf v a'|}) = s ∪ {x | ∃ a' ∈ as, Tried v a' ∧ x = |avgOf v a'|} := by
            ext x
            simp only [List.mem_cons, Set.mem_union, Set.mem_ofPred_eq, exists_eq_or_imp, hnt, false_and, false_or]
          rw [heq]
          exact ih b0 s h
        | some ny =>
          obtain ⟨n, y⟩ := ny
          have ht : Tried v a := by rw [← Uct.kid_some_iff, hk]; simp
          have hav : avgOf v a = y.avg := by unfold kid at hk; simp [avgOf, hk]
          have heq : (s ∪ {x | ∃ a' ∈ a :: as, Tried v a' ∧ x = |avgOf v a'|}) =
              (s ∪ {|y.avg|}) ∪ {x | ∃ a' ∈ as, Tried v a' ∧ x = |avgOf v a'|} := by
            ext x
            simp only [List.mem_cons, Set.mem_union, Set.mem_ofPred_eq, exists_eq_or_imp, ht, true_and, hav, Set.mem_singleton_iff, or_assoc]
          rw [heq]
          apply ih
          constructor
          · dsimp only
            split
            · exact .inr rfl
            · exact .inl h.1
          · rintro x (hx | hx)
            · dsimp only
              split
              · rename_i hlt; exact le_trans (h.2 hx) hlt.le
              · exact h.2 hx
            · simp only [Set.mem_singleton_iff] at hx
              subst hx
              dsimp only
              split
              · exact le_refl _
              · rename_i hlt; exact not_lt.1 hlt
    exact gen v.actions minBias {fl (1 / 1000)} isGreatest_singleton
  · rfl

theorem biasIs_unique {cfg : Cfg S A ℚ} {v : View S A (Stats ℚ) (Stats ℚ)} {b b' : ℚ} (h : BiasIs cfg v b) (h' : BiasIs cfg v b') : b = b' := by
  unfold BiasIs at h h'
  split at h
  · rename_i hc
    rw [if_pos hc] at h'
    exact h.unique h'
  · rename_i hc
    rw [if_neg hc] at h'
    rw [h, h']

/-- The value computed for an action, up to rounding. -/
theorem ucbValue_round (cfg : Cfg S A ℚ) (v : View S A (Stats ℚ) (Stats ℚ)) {prior : A → ℚ} (hp : PriorIs cfg v prior) {a : A} (ha : a ∈ v.actions)
    (ht : IsDouble (cfg.term v.visits (visitsOf v a))) :
    ∃ val, ucbValue cfg v a = some val ∧
      |val - (cfg.term v.visits (visitsOf v a) * biasOf cfg v * prior a + oppCoeff v * avgOf v a)| ≤
        (3 + 1 / 10) * unit * |cfg.term v.visits (visitsOf v a) * biasOf cfg v * prior a| + unit * |oppCoeff v * avgOf v a| + 2 * (|prior a| + 2) * tiny := by
  have hpa := hp a ha
  set t := cfg.term v.visits (visitsOf v a) with htd
  set b := biasOf cfg v
  have hu := unit_pos
  have hti := tiny_pos.le
  have weak : ∀ {w B p : ℚ}, |w - B| ≤ (2 + 1 / 100) * unit * |B| + (1 + 1 / 100) * (|p| + 1) * tiny →
      |w - (B + 0)| ≤ (3 + 1 / 10) * unit * |B| + unit * |(0 : ℚ)| + 2 * (|p| + 2) * tiny := by
    intro w B p h
    rw [add_zero, abs_zero]
    have g3 : 0 ≤ |p| * tiny := mul_nonneg (abs_nonneg _) hti
    have g4 : 0 ≤ unit * |B| := mul_nonneg hu.le (abs_nonneg _)
    linarith
  cases hk : kid v a with
  | none =>
    have e1 : visitsOf v a = 0 := by unfold kid at hk; simp [visitsOf, hk]
    have e2 : avgOf v a = 0 := by unfold kid at hk; simp [avgOf, hk]
    rw [e1] at htd
    rw [e2, mul_zero]
    cases hpr : cfg.prior with
    | none =>
      rw [hpr] at hpa
      dsimp only at hpa
      refine ⟨fmul t b, ?_, ?_⟩
      · unfold ucbValue
        simp only [hk, hpr, ← htd, Option.map_some]
        rw [zero_fadd ht]
      · rw [hpa, mul_one]
        apply weak
        rw [abs_one]
        exact bonus_round_one t b
    | some f =>
      rw [hpr] at hpa
      dsimp only at hpa
      refine ⟨fmul (fmul t b) (prior a), ?_, ?_⟩
      · unfold ucbValue
        simp only [hk, hpr, ← htd, Option.map_some, hpa]
        rw [zero_fadd ht]
      · exact weak (bonus_round t b (prior a))
  | some ny =>
    obtain ⟨n, y⟩ := ny
    have e1 : visitsOf v a = n := by unfold kid at hk; simp [visitsOf, hk]
    have e2 : avgOf v a = y.avg := by unfold kid at hk; simp [avgOf, hk]
    rw [e1] at htd
    rw [e2]
    cases hpr : cfg.prior with
    | none =>
      rw [hpr] at hpa
      dsimp only at hpa
      refine ⟨fadd (fmul t b) (oppCoeff v * y.avg), ?_, ?_⟩
      · unfold ucbValue
        simp only [hk, hpr, ← htd, Option.map_some]
        rw [zero_fadd ht]
      · rw [hpa, mul_one]
        apply value_round
        rw [abs_one]
        exact bonus_round_one t b
    | some f =>
      rw [hpr] at hpa
      dsimp only at hpa
      refine ⟨fadd (fmul (fmul t b) (prior a)) (oppCoeff v * y.avg), ?_, ?_⟩
      · unfold ucbValue
        simp only [hk, hpr, ← htd, Option.map_some, hpa]
        rw [zero_fadd ht]
      · exact value_round (bonus_round t b (prior a))

/-- The value computed for an action and the formula. -/
theorem ucbValue_err {cfg : Cfg S A ℚ} {v : View S A (Stats ℚ) (Stats ℚ)} {prior : A → ℚ} (hp : PriorIs cfg v prior) {bias : ℚ} (hb : BiasIs cfg v bias)
    {explore : Nat → Nat → ℝ} {δ : ℝ} (hδ : δ ≤ 1 / 100) (hterm : AccurateTerm cfg.term explore δ) {a : A} (ha : a ∈ v.actions) (hN : v.visits < 2 ^ 31)
    (hn : visitsOf v a < 2 ^ 31) :
    ∃ val, ucbValue cfg v a = some val ∧ |(val : ℝ) - ucbScore explore prior bias v a| ≤ ucbError δ explore prior bias v a := by
  obtain ⟨h0, h1, h2⟩ := hterm v.visits (visitsOf v a) hN hn
  obtain ⟨val, g1, g2⟩ := ucbValue_round cfg v hp ha h1
  refine ⟨val, g1, ?_⟩
  rw [biasIs_unique (bias_spec cfg v) hb] at g2
  unfold ucbScore ucbError
  generalize cfg.term v.visits (visitsOf v a) = t at *
  generalize explore v.visits (visitsOf v a) = E at *
  generalize prior a = p at *
  generalize avgOf v a = x at *
  have hu : (0 : ℝ) < unit := by exact_mod_cast unit_pos
  have hs : ((oppCoeff v : ℚ) : ℝ) = if v.opp then -1 else 1 := by unfold oppCoeff; split <;> simp
  have hsx : |oppCoeff v * x| = |x| := by unfold oppCoeff; split <;> simp
  rw [hsx] at g2
  have g3 : |(val : ℝ) - (t * bias * p + oppCoeff v * x)| ≤ (3 + 1 / 10) * unit * |(t : ℝ) * bias * p| + unit * |(x : ℝ)| + 2 * (|(p : ℝ)| + 2) * tiny := by
    have g4 := (Rat.cast_le (K := ℝ)).2 g2
    push_cast at g4
    exact g4
  rw [hs] at g3
  set P : ℝ := |(p : ℝ) * bias| with hP
  have hP0 : 0 ≤ P := abs_nonneg _
  have q1 : |(t : ℝ) * bias * p - p * bias * E| ≤ P * (δ * E) := by
    rw [show (t : ℝ) * bias * p - p * bias * E = (p * bias) * (t - E) by ring, abs_mul]
    exact mul_le_mul_of_nonneg_left h2 hP0
  have q2 : |(t : ℝ) * bias * p| ≤ P * ((1 + 1 / 100) * E) := by
    rw [show (t : ℝ) * bias * p = (p * bias) * t by ring, abs_mul]
    apply mul_le_mul_of_nonneg_left _ hP0
    have := abs_sub_abs_le_abs_sub (t : ℝ) E
    rw [abs_of_nonneg h0] at this
    have := mul_le_mul_of_nonneg_right hδ h0
    linarith
  have q3 := mul_le_mul_of_nonneg_left q2 (by linarith : (0 : ℝ) ≤ (3 + 1 / 10) * unit)
  have q4 : 0 ≤ unit * (P * E) := mul_nonneg hu.le (mul_nonneg hP0 h0)
  have q5 := abs_sub_le (val : ℝ) (t * bias * p + (if v.opp = true then -1 else 1) * x) ((if v.opp = true then -1 else 1) * x + p * bias * E)
  rw [show (t : ℝ) * bias * p + (if v.opp = true then -1 else 1) * x - ((if v.opp = true then -1 else 1) * x + p * bias * E) = t * bias * p - p * bias * E by ring]
    at q5
  linarith

/-! ## Selection -/

theorem fill_get {cfg : Cfg S A ℚ} {v : View S A (Stats ℚ) (Stats ℚ)} : ∀ {as : List A} {l : List (A × ℚ)}, fillFrom cfg v as = some l →
    l.map Prod.fst = as ∧ (∀ p ∈ l, ucbValue cfg v p.1 = some p.2) ∧ ∀ a ∈ as, ∃ x, (a, x) ∈ l
  | [], l, h => by simp [fillFrom] at h; subst h; simp
  | a :: as, l, h => by
    rw [fillFrom] at h
    cases h1 : ucbValue cfg v a with
    | none => rw [h1] at h; simp at h
    | some x =>
      cases h2 : fillFrom cfg v as with
      | none => rw [h1, h2] at h; simp at h
      | some l' =>
        rw [h1, h2] at h
        simp at h
        subst h
        obtain ⟨g1, g2, g3⟩ := fill_get h2
        refine ⟨by simp [g1], ?_, ?_⟩
        · intro p hp
          rcases List.mem_cons.1 hp with rfl | hp
          · exact h1
          · exact g2 p hp
        · intro b hb
          rcases List.mem_cons.1 hb with rfl | hb
          · exact ⟨x, by simp⟩
          · obtain ⟨y, hy⟩ := g3 b hb
            exact ⟨y, by simp [hy]⟩

theorem selectUcb_mem {cfg : Cfg S A ℚ} {v : View S A (Stats ℚ) (Stats ℚ)} {raw : Nat} {iter : List (A × ℚ) → List (A × ℚ)} (hi : IterOk iter) {a : A}
    (h : selectUcb cfg v raw iter = some a) : a ∈ v.actions ∧ ∃ raw' < v.actions.length, selectUcb cfg v raw' id = some a := by
  unfold selectUcb at h ⊢
  split at h
  · rename_i hc
    obtain ⟨h1, raw', h2, h3⟩ := Uct.sampleUniform_mem h
    refine ⟨(List.mem_filter.1 h1).1, raw', lt_of_lt_of_le h2 (List.length_filter_le _ _), ?_⟩
    rw [if_pos hc, h3]
  · rename_i hc
    cases hf : fillFrom cfg v v.actions with
    | none => rw [hf] at h; simp at h
    | some vals =>
      rw [hf] at h
      simp only [Option.bind_some] at h
      obtain ⟨h1, p, hp, hlow⟩ := Uct.getMaxKey_some h
      rw [Uct.isBest_iter hi] at h1
      rw [hi] at hp
      obtain ⟨raw', h2, h3⟩ := c22_every_maximiser cfg.low vals a h1 ⟨p, hp, hlow⟩
      have hk := (fill_get hf).1
      have hlen : vals.length = v.actions.length := by rw [← hk]; simp
      obtain ⟨val, hval, _⟩ := h1
      refine ⟨hk ▸ List.mem_map.2 ⟨_, hval, rfl⟩, raw', hlen ▸ h2, ?_⟩
      rw [if_neg hc]
      simpa using h3

theorem selectAction_mem {cfg : Cfg S A ℚ} {v : View S A (Stats ℚ) (Stats ℚ)} {u : ℚ} {raw : Nat} {iter : List (A × ℚ) → List (A × ℚ)} (hi : IterOk iter) {a : A}
    (h : selectAction cfg v u raw iter = some a) : a ∈ v.actions ∧ ∃ raw' < v.actions.length, selectAction cfg v u raw' id = some a := by
  unfold selectAction at h ⊢
  split at h
  · rename_i hc
    obtain ⟨h1, raw', h2, h3⟩ := Uct.sampleUniform_mem h
    exact ⟨h1, raw', h2, by rw [if_pos hc]; exact h3⟩
  · rename_i hc
    obtain ⟨h1, raw', h2, h3⟩ := selectUcb_mem hi h
    exact ⟨h1, raw', h2, by rw [if_neg hc]; exact h3⟩

/-- `selectable` is exactly "some draw and some iteration order make `select_action` return `a`". -/
theorem selectable_iff (cfg : Cfg S A ℚ) (v : View S A (Stats ℚ) (Stats ℚ)) (a : A) :
    selectable cfg v a = true ↔
      ∃ (u : ℚ) (raw : Nat) (iter : List (A × ℚ) → List (A × ℚ)), 0 ≤ u ∧ u < 1 ∧ IterOk iter ∧ selectAction cfg v u raw iter = some a := by
  unfold selectable
  simp only [List.any_cons, List.any_nil, Bool.or_false, Bool.or_eq_true, Bool.and_eq_true, decide_eq_true_eq, List.any_eq_true,
    List.mem_range]
  constructor
  · rintro (⟨⟨h0, h1⟩, raw, _, h⟩ | ⟨⟨h0, h1⟩, raw, _, h⟩)
    · exact ⟨0, raw, id, le_refl _, one_pos, Uct.iterOk_id, h⟩
    · exact ⟨cfg.epsilon, raw, id, h0, h1, Uct.iterOk_id, h⟩
  · rintro ⟨u, raw, iter, h0, h1, hi, h⟩
    obtain ⟨_, raw', h2, h3⟩ := selectAction_mem hi h
    by_cases he : 0 < cfg.epsilon
    · by_cases hu : u < cfg.epsilon
      · refine .inl ⟨⟨le_refl _, one_pos⟩, raw', h2, ?_⟩
        unfold selectAction at h3 ⊢
        rw [if_pos ⟨he, hu⟩] at h3
        rw [if_pos ⟨he, he⟩]
        exact h3
      · refine .inr ⟨⟨he.le, lt_of_le_of_lt (not_lt.1 hu) h1⟩, raw', h2, ?_⟩
        unfold selectAction at h3 ⊢
        rw [if_neg (fun hc => hu hc.2)] at h3
        rw [if_neg (fun hc => lt_irrefl _ hc.2)]
        exact h3
    · refine .inl ⟨⟨le_refl _, one_pos⟩, raw', h2, ?_⟩
      unfold selectAction at h3 ⊢
      rw [if_neg (fun hc => he hc.1)] at h3 ⊢
      exact h3

theorem uct_valid (cfg : Cfg S A ℚ) : (uct cfg).Valid := by
  intro v _ a h
  obtain ⟨u, raw, iter, _, _, hi, h⟩ := (selectable_iff cfg v a).1 h
  exact (selectAction_mem hi h).1

theorem uct_has (cfg : Cfg S A ℚ) : HasFpAvg (uct cfg) id id cfg.pseudo :=
  ⟨fun _ _ _ _ => rfl, fun _ _ _ _ => rfl, fun _ _ => rfl, fun _ => rfl, fun _ _ _ => rfl, fun _ _ _ _ _ => rfl⟩

/-! ## The exploration terms -/

theorem countOf_eq {n : Nat} (h : n < 2 ^ 31) : countOf n = (max n 1 : Nat) ∧ IsDouble (countOf n) := by
  unfold countOf
  by_cases hn : n > 0
  · have : IsDouble n := isDouble_nat (by omega)
    rw [if_pos hn, show max n 1 = n by omega]
    exact ⟨this, isDouble_fl _⟩
  · rw [if_neg hn, show max n 1 = 1 by omega]
    exact ⟨by simp, isDouble_one⟩

theorem sqrt_close {x y ε : ℝ} (hx : 0 ≤ x) (hy : 0 ≤ y) (h : |x - y| ≤ ε * y) : |√x - √y| ≤ ε * √y := by
  rcases eq_or_lt_of_le hy with rfl | hy'
  · simp only [sub_zero, mul_zero] at h
    rw [abs_nonpos_iff.1 h]
    simp
  have h1 : (√x - √y) * (√x + √y) = x - y := by
    have := Real.mul_self_sqrt hx
    have := Real.mul_self_sqrt hy
    ring_nf
    rw [Real.sq_sqrt hx, Real.sq_sqrt hy]
  have h2 : |√x - √y| * √y ≤ ε * √y * √y := by
    rw [mul_assoc, Real.mul_self_sqrt hy]
    refine le_trans ?_ h
    rw [← h1, abs_mul]
    apply mul_le_mul_of_nonneg_left _ (abs_nonneg _)
    rw [abs_of_nonneg (by positivity)]
    linarith [Real.sqrt_nonneg x]
  exact le_of_mul_le_mul_right h2 (Real.sqrt_pos.2 hy')

theorem tiny_small {α : ℝ} {n : Nat} (hα : 1 / 2 ≤ α) (h1 : 1 ≤ n) (h2 : n ≤ 2 ^ 31) : (tiny : ℝ) ≤ unit * (α / n) := by
  have h3 : (tiny : ℝ) ≤ unit * unit * unit * unit := by exact_mod_cast tiny_le
  have hn : (n : ℝ) ≤ 2 ^ 31 := by exact_mod_cast h2
  have hn1 : (1 : ℝ) ≤ n := by exact_mod_cast h1
  have h4 : (1 : ℝ) / 2 ^ 32 ≤ α / n := by
    rw [div_le_div_iff₀ (by norm_num) (by linarith)]
    linarith
  have hu : (0 : ℝ) < unit := by exact_mod_cast unit_pos
  have hu2 : (unit : ℝ) = 1 / 9007199254740992 := by rw [unit_eq]; norm_num
  have h5 : (unit : ℝ) * unit * unit ≤ α / n := by
    refine le_trans ?_ h4
    rw [hu2]
    norm_num
  calc (tiny : ℝ) ≤ unit * (unit * unit * unit) := by linarith
    _ ≤ _ := mul_le_mul_of_nonneg_left h5 hu.le

theorem div_close {a : ℚ} {α η : ℝ} {n : Nat} (hα : 1 / 2 ≤ α) (hη : η ≤ 1 / 100) (h1 : 1 ≤ n) (h2 : n < 2 ^ 31) (h : |(a : ℝ) - α| ≤ η * α) :
    |((fdiv a n : ℚ) : ℝ) - α / n| ≤ (η + 3 * unit) * (α / n) := by
  have hn1 : (1 : ℝ) ≤ n := by exact_mod_cast h1
  have hu : (0 : ℝ) < unit := by exact_mod_cast unit_pos
  have h3 : |((fl (a / n) : ℚ) : ℝ) - a / n| ≤ unit * |(a : ℝ) / n| + tiny := by
    have := (Rat.cast_le (K := ℝ)).2 (fl_err' (a / n))
    push_cast at this
    exact this
  have h4 : |(a : ℝ) / n - α / n| ≤ η * (α / n) := by
    rw [← sub_div, abs_div, abs_of_nonneg (by linarith : (0 : ℝ) ≤ n), ← mul_div_assoc]
    exact div_le_div_of_nonneg_right h (by linarith)
  have hy : 0 ≤ α / n := div_nonneg (by linarith) (by linarith)
  have h5 : |(a : ℝ) / n| ≤ (1 + 1 / 100) * (α / n) := by
    have := abs_sub_abs_le_abs_sub ((a : ℝ) / n) (α / n)
    rw [abs_of_nonneg hy] at this
    have := mul_le_mul_of_nonneg_right hη hy
    linarith
  have h6 := tiny_small hα h1 h2.le
  have h7 := mul_le_mul_of_nonneg_left h5 hu.le
  have h8 := abs_sub_le ((fl (a / n) : ℚ) : ℝ) ((a : ℝ) / n) (α / n)
  have h9 : 0 ≤ unit * (α / n) := mul_nonneg hu.le hy
  unfold fdiv
  linarith

/-- `log 1` is exact, because doubles are multiples of the smallest one. -/
theorem log_one {lg : ℚ → ℚ} {β : ℝ} (hl : AccurateLog lg β) : lg 1 = 0 := by
  obtain ⟨h1, h2⟩ := hl 1 le_rfl isDouble_one
  simp only [Rat.cast_one, Real.log_one, sub_zero, mul_zero, zero_add] at h2
  have h3 : |lg 1| ≤ tiny := by exact_mod_cast h2
  obtain ⟨m, hm⟩ := h1.multiple
  rw [hm] at h3 ⊢
  have h4 : tiny = 1 / 2 * 2 ^ (-1074 : ℤ) := by
    unfold tiny
    rw [show (-1075 : ℤ) = -1 + -1074 by norm_num, zpow_add₀ (by norm_num)]
    norm_num
  have hp : (0 : ℚ) < 2 ^ (-1074 : ℤ) := by positivity
  rw [abs_mul, abs_of_pos hp, h4] at h3
  have h5 : |(m : ℚ)| ≤ 1 / 2 := le_of_mul_le_mul_right h3 hp
  have h6 : |m| < 1 := by
    have : ((|m| : ℤ) : ℚ) < 1 := by push_cast; linarith
    exact_mod_cast this
  have : m = 0 := Int.abs_lt_one_iff.1 h6
  simp [this]

theorem uctTerm_accurate {lg sq : ℚ → ℚ} {β : ℝ} (hβ : β ≤ 1 / 200) (hβ0 : 0 ≤ β) (hl : AccurateLog lg β) (hs : AccurateSqrt sq) :
    AccurateTerm (uctTerm lg sq) Uct.uctExplore (β + 7 * unit) := by
  intro N n hN hn
  have hu : (0 : ℝ) < unit := by exact_mod_cast unit_pos
  have hu' : (unit : ℝ) ≤ 1 / 1000 := by have := (Rat.cast_le (K := ℝ)).2 unit_le; push_cast at this; exact this
  obtain ⟨c1, c2⟩ := countOf_eq hN
  obtain ⟨d1, d2⟩ := countOf_eq hn
  unfold uctTerm Uct.uctExplore
  rw [c1] at c2 ⊢
  rw [d1] at d2 ⊢
  refine ⟨Real.sqrt_nonneg _, ?_⟩
  have hn1 : 1 ≤ max n 1 := by omega
  have hn2 : max n 1 < 2 ^ 31 := by omega
  by_cases h1 : N ≤ 1
  · rw [show max N 1 = 1 by omega]
    rw [Nat.cast_one, log_one hl]
    have e : fdiv 0 ((max n 1 : Nat) : ℚ) = 0 := by unfold fdiv; rw [zero_div]; exact fl_zero
    rw [e]
    obtain ⟨q1, q2⟩ := hs 0 le_rfl isDouble_zero
    refine ⟨q1, ?_⟩
    simpa using q2
  · have hL : (1 : ℝ) / 2 ≤ Real.log ((max N 1 : Nat) : ℝ) := by
      have : Real.log 2 ≤ Real.log ((max N 1 : Nat) : ℝ) := Real.log_le_log (by norm_num) (by
        have : 2 ≤ max N 1 := by omega
        exact_mod_cast this)
      have := Real.log_two_gt_d9
      linarith
    obtain ⟨g1, g2⟩ := hl ((max N 1 : Nat) : ℚ) (by exact_mod_cast (by omega : 1 ≤ max N 1)) c2
    rw [Rat.cast_natCast] at g2
    generalize Real.log ((max N 1 : Nat) : ℝ) = L at *
    have ht := tiny_small (n := 1) hL le_rfl (by norm_num)
    rw [Nat.cast_one, div_one] at ht
    have g3 := div_close (η := β + unit) hL (by linarith) hn1 hn2 (by linarith)
    set y := L / ((max n 1 : Nat) : ℝ) with hy
    have hy0 : 0 ≤ y := div_nonneg (by linarith) (by positivity)
    set x := fdiv (lg ((max N 1 : Nat) : ℚ)) ((max n 1 : Nat) : ℚ) with hx
    have hx0 : (0 : ℝ) ≤ x := by
      have := neg_le_of_abs_le g3
      have h2 : (β + unit + 3 * unit) * y ≤ 1 * y := mul_le_mul_of_nonneg_right (by linarith) hy0
      linarith
    have hx1 : 0 ≤ x := by exact_mod_cast hx0
    obtain ⟨q1, q2⟩ := hs x hx1 (isDouble_fl _)
    refine ⟨q1, ?_⟩
    have g4 := sqrt_close hx0 hy0 g3
    have hsy := Real.sqrt_nonneg y
    have g5 : √(x : ℝ) ≤ (1 + 1 / 100) * √y := by
      have := le_of_abs_le g4
      have h2 : (β + unit + 3 * unit) * √y ≤ 1 / 100 * √y := mul_le_mul_of_nonneg_right (by linarith) hsy
      linarith
    have g6 := mul_le_mul_of_nonneg_left g5 hu.le
    have g7 := abs_sub_le (sq x : ℝ) (√(x : ℝ)) (√y)
    have g8 : 0 ≤ unit * √y := mul_nonneg hu.le hsy
    linarith

theorem puctTerm_accurate {pw : ℚ → ℚ → ℚ} {sq : ℚ → ℚ} {p : ℚ} {γ : ℝ} (hγ : γ ≤ 1 / 200) (hγ0 : 0 ≤ γ) (hp : 0 ≤ p) (hw : AccuratePow pw p γ)
    (hs : AccurateSqrt sq) : AccurateTerm (puctTerm pw sq p) (Uct.puctExplore p) (γ + 5 * unit) := by
  intro N n hN hn
  have hu : (0 : ℝ) < unit := by exact_mod_cast unit_pos
  have hu' : (unit : ℝ) ≤ 1 / 1000 := by have := (Rat.cast_le (K := ℝ)).2 unit_le; push_cast at this; exact this
  obtain ⟨c1, c2⟩ := countOf_eq hN
  obtain ⟨d1, d2⟩ := countOf_eq hn
  have hn1 : 1 ≤ max n 1 := by omega
  have hn2 : max n 1 < 2 ^ 31 := by omega
  have hN1 : (1 : ℝ) ≤ ((max N 1 : Nat) : ℝ) := by exact_mod_cast (by omega : 1 ≤ max N 1)
  have hN1' : (1 : ℚ) ≤ ((max N 1 : Nat) : ℚ) := by exact_mod_cast (by omega : 1 ≤ max N 1)
  have hpow : (1 : ℝ) ≤ ((max N 1 : Nat) : ℝ) ^ (p : ℝ) := Real.one_le_rpow hN1 (by exact_mod_cast hp)
  have hy0 : 0 ≤ ((max N 1 : Nat) : ℝ) ^ (p : ℝ) / ((max n 1 : Nat) : ℝ) := div_nonneg (by linarith) (by positivity)
  unfold puctTerm Uct.puctExplore
  rw [c1] at c2 ⊢
  rw [d1] at d2 ⊢
  refine ⟨hy0, ?_⟩
  have h9 : 0 ≤ unit * (((max N 1 : Nat) : ℝ) ^ (p : ℝ) / ((max n 1 : Nat) : ℝ)) := mul_nonneg hu.le hy0
  have h10 : 0 ≤ γ * (((max N 1 : Nat) : ℝ) ^ (p : ℝ) / ((max n 1 : Nat) : ℝ)) := mul_nonneg hγ0 hy0
  by_cases h : p ≠ 1 / 2
  · rw [if_pos h]
    refine ⟨isDouble_fl _, ?_⟩
    have g1 := hw ((max N 1 : Nat) : ℚ) hN1' c2
    rw [Rat.cast_natCast] at g1
    have := div_close (by linarith : (1 : ℝ) / 2 ≤ _) (by linarith) hn1 hn2 g1
    linarith
  · rw [if_neg h]
    refine ⟨isDouble_fl _, ?_⟩
    obtain ⟨_, g1⟩ := hs ((max N 1 : Nat) : ℚ) (by linarith) c2
    push Not at h
    have e : √(((max N 1 : Nat) : ℚ) : ℝ) = ((max N 1 : Nat) : ℝ) ^ (p : ℝ) := by
      rw [Real.sqrt_eq_rpow, Rat.cast_natCast, h]
      norm_num
    rw [e] at g1
    have := div_close (by linarith : (1 : ℝ) / 2 ≤ _) (by linarith) hn1 hn2 g1
    linarith

end Verif.Fp
