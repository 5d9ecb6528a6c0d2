import Verif.Spec.Prior
import Verif.Props.MentsSelect
import Verif.Props.Search
import Verif.Proofs.Dents
import Verif.Proofs.Visits
import Verif.Proofs.LocalInv
import Mathlib.Analysis.Complex.ExponentialBounds

/-!
# Property C114: the weight of a prior policy

`policy` is the documented mixture (`Verif.Spec.Ments`); `IsPrior`, the game and the settings are in `Verif.Spec.Prior`.
-/

set_option linter.unusedSectionVars false
set_option linter.unusedSimpArgs false

namespace Verif.Prior

open Verif.Search Verif.Spec Verif.Sampling Verif.Ments Verif.Backups

section
variable {S A X Y : Type} [DecidableEq S] [DecidableEq A] {cfg : Cfg S A} {v : View S A X Y} {q : A → Except Bad ℝ} {Q : A → ℝ}

theorem find_map {g : A → ℝ} {l : List A} {a : A} (ha : a ∈ l) : find? a (l.map fun c => (c, g c)) = some (g a) := by
  induction l with
  | nil => simp at ha
  | cons c l ih =>
    by_cases hc : c = a
    · subst hc; simp [find?]
    · have : a ∈ l := by
        rcases List.mem_cons.1 ha with h | h
        · exact absurd h.symm hc
        · exact h
      simp [find?, hc, ih this]

theorem sum_one_special {l : List A} (hl : l.Nodup) {b : A} (hb : b ∈ l) (x y : ℝ) :
    (l.map fun c => if c = b then x else y).sum = x + (l.length - 1) * y := by
  have gen : ∀ l : List A, (l.map fun c => if c = b then x else y).sum = l.length * y + l.count b * (x - y) := by
    intro l
    induction l with
    | nil => simp
    | cons c l ih =>
      rw [List.map_cons, List.sum_cons, ih, List.length_cons, List.count_cons]
      by_cases hc : c = b
      · simp only [hc, if_true, beq_self_eq_true]
        push_cast
        ring
      · have e : (if (c == b) = true then 1 else 0 : ℕ) = 0 := by simp [hc]
        rw [if_neg hc, e]
        push_cast
        ring
  rw [gen, List.count_eq_one_of_mem hl hb]
  push_cast
  ring

theorem boltzmann_le_one {temp : ℝ} {l : List A} {a : A} (ha : a ∈ l) : boltzmann temp Q l a ≤ 1 := by
  have h := exp_le_partition temp Q ha
  unfold boltzmann
  rw [div_le_one (lt_of_lt_of_le (Real.exp_pos _) h)]
  exact h

/-- C114.  At a visited node with at least two actions the documented mixture is non-negative, for all values and all priors, exactly if the
excess of the prior's weight over one is made up for by the uniform exploration. -/
theorem c114_exact (hnd : v.actions.Nodup) {a b : A} (ha : a ∈ v.actions) (hb : b ∈ v.actions) (hab : a ≠ b) (ht : 0 < getTemp cfg v)
    (h0 : 0 ≤ uniformWeight cfg v) (h1 : uniformWeight cfg v ≤ 1) (hw : 0 ≤ priorWeightAt cfg v) :
    (∀ f, IsPrior f v → ∀ Q : A → ℝ, ∀ c ∈ v.actions, 0 ≤ policy { cfg with prior := some f } (getTemp cfg v) v Q c) ↔
      (1 - uniformWeight cfg v) * (priorWeightAt cfg v - 1) ≤ uniformWeight cfg v / v.actions.length := by
  have hlen : (0 : ℝ) < v.actions.length := by exact_mod_cast List.length_pos_of_ne_nil (List.ne_nil_of_mem ha)
  have hlen2 : (1 : ℝ) ≤ v.actions.length := by exact_mod_cast List.length_pos_of_ne_nil (List.ne_nil_of_mem ha)
  have e1 : ∀ f, uniformWeight { cfg with prior := some f } v = uniformWeight cfg v := fun f => rfl
  have e2 : ∀ f, priorWeightAt { cfg with prior := some f } v = priorWeightAt cfg v := fun f => rfl
  constructor
  · intro h
    by_contra hno
    push Not at hno
    set l := uniformWeight cfg v with hl
    set p := priorWeightAt cfg v with hp
    set n := (v.actions.length : ℝ) with hn
    set E := (1 - l) * (p - 1) with hE
    have hln : 0 ≤ l / n := div_nonneg h0 hlen.le
    have hD : 0 < E - l / n := by linarith
    have hE0 : 0 < E := by linarith
    set K := E * n / (E - l / n) + 1 with hK
    have hKpos : 0 < K := by
      have : 0 ≤ E * n / (E - l / n) := div_nonneg (mul_nonneg hE0.le hlen.le) hD.le
      linarith
    have hf : IsPrior (fun _ => v.actions.map fun c => (c, if c = a then (1 : ℝ) else 0)) v := by
      constructor
      · intro c hc
        refine ⟨_, find_map hc, ?_⟩
        split <;> norm_num
      · have : (v.actions.map fun c => (find? c (v.actions.map fun c => (c, if c = a then (1 : ℝ) else 0))).getD 0) =
            v.actions.map fun c => if c = a then (1 : ℝ) else 0 := by
          apply List.map_congr_left
          intro c hc
          rw [find_map hc]
          rfl
        rw [this, sum_one_special hnd ha]
        ring
    have hneg := h _ hf (fun c => if c = b then getTemp cfg v * Real.log K else 0) b hb
    unfold policy at hneg
    rw [e1, e2] at hneg
    have hpr : priorAt { cfg with prior := some fun _ => v.actions.map fun c => (c, if c = a then (1 : ℝ) else 0) } v b = 0 := by
      simp only [priorAt]
      rw [find_map hb]
      simp [Ne.symm hab]
    have hbz : boltzmann (getTemp cfg v) (fun c => if c = b then getTemp cfg v * Real.log K else 0) v.actions b = K / (K + (n - 1)) := by
      have e3 : ∀ c, Real.exp ((if c = b then getTemp cfg v * Real.log K else 0) / getTemp cfg v) = if c = b then K else 1 := by
        intro c
        split
        · rw [mul_div_cancel_left₀ _ ht.ne', Real.exp_log hKpos]
        · simp
      unfold boltzmann partition
      simp only [e3]
      rw [sum_one_special hnd hb, if_pos trivial, mul_div_cancel_left₀ _ ht.ne', Real.exp_log hKpos, mul_one]
    rw [hpr, hbz, mul_zero, add_zero, mul_one_div] at hneg
    have hden : 0 < K + (n - 1) := by linarith
    have h2 : E * (K / (K + (n - 1))) ≤ l / n := by
      have : (1 - l) * (1 - p) * (K / (K + (n - 1))) = - (E * (K / (K + (n - 1)))) := by rw [hE]; ring
      linarith
    rw [mul_div_assoc', div_le_iff₀ hden] at h2
    have h3 : (E - l / n) * K = E * n + (E - l / n) := by
      rw [hK, mul_add, mul_one, mul_div_cancel₀ _ hD.ne']
    have h4 : l / n * (n - 1) ≤ E * (n - 1) := mul_le_mul_of_nonneg_right (by linarith) (by linarith)
    nlinarith
  · intro h f hf Q c hc
    unfold policy
    rw [e1, e2]
    obtain ⟨p, hp1, hp2⟩ := hf.1 c hc
    have hpr : priorAt { cfg with prior := some f } v c = p := by simp [priorAt, hp1]
    rw [hpr]
    have hb0 : 0 ≤ boltzmann (getTemp cfg v) Q v.actions c := (boltzmann_pos (getTemp cfg v) Q (List.ne_nil_of_mem hc) c).le
    have hb1 : boltzmann (getTemp cfg v) Q v.actions c ≤ 1 := boltzmann_le_one hc
    have h2 : 0 ≤ (1 - uniformWeight cfg v) * priorWeightAt cfg v * p := mul_nonneg (mul_nonneg (by linarith) hw) hp2
    have h3 : 0 ≤ (1 - uniformWeight cfg v) * (1 - priorWeightAt cfg v) * boltzmann (getTemp cfg v) Q v.actions c +
        uniformWeight cfg v * (1 / v.actions.length) := by
      rw [mul_one_div]
      have hln : 0 ≤ uniformWeight cfg v / v.actions.length := div_nonneg h0 hlen.le
      by_cases hs : priorWeightAt cfg v ≤ 1
      · have := mul_nonneg (mul_nonneg (show 0 ≤ 1 - uniformWeight cfg v by linarith) (show 0 ≤ 1 - priorWeightAt cfg v by linarith)) hb0
        linarith
      · have hs' : 0 ≤ (1 - uniformWeight cfg v) * (priorWeightAt cfg v - 1) := mul_nonneg (by linarith) (by linarith)
        have := mul_le_mul_of_nonneg_left hb1 hs'
        nlinarith
    linarith

/-- C114.  An action whose entry in the mixture is below 1e-16, for instance negative, is not selected, whatever the random numbers. -/
theorem c114_excluded (hq : QIs q v Q) (hN : 0 < v.visits) (hc : PriorCovers cfg v) {eps : ℝ} {a : A}
    (hneg : policy cfg (getTemp cfg v) v Q a < 1 / 10 ^ 16) : selectable eps cfg q v a = false := by
  by_contra hx
  rw [Bool.not_eq_false] at hx
  unfold selectable at hx
  rw [@decide_eq_true_eq _ (Classical.propDecidable _)] at hx
  obtain ⟨u, iter, _, _, hi, hx⟩ := hx
  unfold selectAction at hx
  rw [actionDistr, fullDistr_eq hq hN hc] at hx
  simp only [Except.ok.injEq] at hx
  have h2 := ((hi _).map Prod.fst).mem_iff.1 (sampleLoop_mem _ _ _ _ _ _ _ _ hx)
  obtain ⟨⟨b, x⟩, hm, rfl⟩ := List.mem_map.1 h2
  obtain ⟨hm1, hm2⟩ := List.mem_filter.1 hm
  obtain ⟨c, _, hce⟩ := List.mem_map.1 hm1
  simp only [Prod.mk.injEq] at hce
  obtain ⟨rfl, rfl⟩ := hce
  simp [EPS] at hm2
  simp at hneg
  linarith

theorem policy_sum {f : S → List (A × ℝ)} (hf : cfg.prior = some f) (hp : IsPrior f v) (hne : v.actions ≠ []) (Q : A → ℝ) :
    (v.actions.map (policy cfg (getTemp cfg v) v Q)).sum = 1 := by
  have hlen : (0 : ℝ) < v.actions.length := by exact_mod_cast List.length_pos_of_ne_nil hne
  unfold policy
  rw [sum_map_add, sum_map_add, sum_map_mul, sum_map_mul, sum_map_const, boltzmann_sum _ _ hne]
  have e : (v.actions.map fun a => priorAt cfg v a) = v.actions.map fun a => (find? a (f v.state)).getD 0 := by
    apply List.map_congr_left
    intro a _
    simp [priorAt, hf]
  rw [e, hp.2]
  field_simp
  ring

theorem mass_cons (p : A × ℝ) (l : List (A × ℝ)) : mass (p :: l) = p.2 + mass l := by simp [mass]

theorem dropped_le (l : List (A × ℝ)) : mass l ≤ mass (l.filter fun p => ¬ p.2 < EPS) + l.length * EPS := by
  have hE : 0 < EPS := by unfold EPS; positivity
  induction l with
  | nil => simp [mass]
  | cons p l ih =>
    by_cases h : p.2 < EPS
    · rw [List.filter_cons_of_neg (by simpa using h), mass_cons]
      push_cast [List.length_cons]
      linarith
    · rw [List.filter_cons_of_pos (by simpa using h), mass_cons, mass_cons]
      push_cast [List.length_cons]
      linarith

theorem dropped_lt (l : List (A × ℝ)) {p : A × ℝ} (hp : p ∈ l) (hx : p.2 < EPS) :
    mass l ≤ mass (l.filter fun p => ¬ p.2 < EPS) + p.2 + l.length * EPS := by
  have hE : 0 < EPS := by unfold EPS; positivity
  induction l with
  | nil => simp at hp
  | cons p' l ih =>
    rcases List.mem_cons.1 hp with rfl | hp
    · rw [List.filter_cons_of_neg (by simpa using hx), mass_cons]
      push_cast [List.length_cons]
      have := dropped_le l
      linarith
    · have ih := ih hp
      by_cases h : p'.2 < EPS
      · rw [List.filter_cons_of_neg (by simpa using h), mass_cons]
        push_cast [List.length_cons]
        linarith
      · rw [List.filter_cons_of_pos (by simpa using h), mass_cons, mass_cons]
        push_cast [List.length_cons]
        linarith

/-- The sampler throws for all draws close to one if the weights add up to more than one. -/
theorem sampleLoop_throws {eps : ℝ} (heps : 0 ≤ eps) {n : Nat} (l : List (A × ℝ)) : ∀ (i : Nat) (run : ℝ), i + l.length = n → run < 1 →
    1 + eps < run + mass l → ∃ t < 1, ∀ u, t ≤ u → sampleLoop 1 eps u n i run l = .tooMuch := by
  induction l with
  | nil => intro i run _ h1 h2; simp [mass] at h2; linarith
  | cons p l ih =>
    intro i run hi h1 h2
    obtain ⟨k, w⟩ := p
    rw [mass_cons] at h2
    simp only [List.length_cons] at hi
    by_cases h : 1 ≤ run + w
    · refine ⟨0, by norm_num, fun u _ => ?_⟩
      simp only [sampleLoop, div_one]
      rw [if_pos]
      cases l with
      | nil => left; simpa [mass] using h2
      | cons p l => right; simp only [List.length_cons] at hi; exact ⟨h, by omega⟩
    · push Not at h
      obtain ⟨t, ht, hu⟩ := ih (i + 1) (run + w) (by omega) h (by simp only at h2; linarith)
      refine ⟨max t (run + w), max_lt ht h, fun u hx => ?_⟩
      simp only [sampleLoop, div_one]
      rw [if_neg, if_neg (not_lt.2 (le_trans (le_max_right _ _) hx))]
      · exact hu u (le_trans (le_max_left _ _) hx)
      · rintro (h3 | h3)
        · linarith
        · linarith [h3.1]

/-- C114 is false.  If the mixture has a negative entry (more than `|A|·1e-16` and the tolerance of the sampler below zero), what is left after
dropping it adds up to more than one, and `select_action` throws for all draws close to one. -/
theorem c114_throws_false (hq : QIs q v Q) (hN : 0 < v.visits) {f : S → List (A × ℝ)} (hf : cfg.prior = some f) (hp : IsPrior f v) {a : A}
    (ha : a ∈ v.actions) {eps : ℝ} (heps : 0 ≤ eps) (hneg : policy cfg (getTemp cfg v) v Q a + v.actions.length * (1 / 10 ^ 16) < -eps)
    {iter : List (A × ℝ) → List (A × ℝ)} (hi : ∀ l, List.Perm (iter l) l) :
    ∃ t < 1, ∀ u, t ≤ u → selectAction eps cfg q v u iter = .ok .tooMuch := by
  have hcov : PriorCovers cfg v := fun _ => ⟨f, hf, fun c hc => by
    obtain ⟨p, h1, _⟩ := hp.1 c hc
    simp [h1]⟩
  set l := v.actions.map fun c => (c, policy cfg (getTemp cfg v) v Q c) with hl
  have hE : 0 < EPS := by unfold EPS; positivity
  have hlen : (0 : ℝ) ≤ v.actions.length * EPS := mul_nonneg (Nat.cast_nonneg _) hE.le
  have hm : mass l = 1 := by
    rw [← policy_sum hf hp (List.ne_nil_of_mem ha) Q]
    simp [mass, hl, Function.comp_def]
  have hneg' : policy cfg (getTemp cfg v) v Q a + v.actions.length * EPS < -eps := hneg
  have h1 := dropped_lt l (p := (a, policy cfg (getTemp cfg v) v Q a)) (List.mem_map.2 ⟨a, ha, rfl⟩) (by simp only; linarith)
  rw [hm] at h1
  have hll : l.length = v.actions.length := by simp [hl]
  rw [hll] at h1
  simp only at h1
  have h2 : mass (iter (l.filter fun p => ¬ p.2 < EPS)) = mass (l.filter fun p => ¬ p.2 < EPS) := ((hi _).map Prod.snd).sum_eq
  obtain ⟨t, ht, hu⟩ := sampleLoop_throws heps (iter (l.filter fun p => ¬ p.2 < EPS)) 0 0 (Nat.zero_add _) (by norm_num)
    (by rw [h2]; linarith)
  refine ⟨t, ht, fun u hx => ?_⟩
  unfold selectAction
  rw [actionDistr, fullDistr_eq hq hN hcov]
  simp only [sampleFrom, if_true]
  rw [hu u hx]

/-- C114 is false.  At a node with two actions it throws for every draw. -/
theorem c114_two_actions_false (hq : QIs q v Q) (hN : 0 < v.visits) {f : S → List (A × ℝ)} (hf : cfg.prior = some f) (hp : IsPrior f v)
    {a b : A} (ha : v.actions = [a, b] ∨ v.actions = [b, a]) {eps : ℝ} (heps : 0 ≤ eps)
    (hneg : policy cfg (getTemp cfg v) v Q a < -eps) {iter : List (A × ℝ) → List (A × ℝ)} (hi : ∀ l, List.Perm (iter l) l) (u : ℝ) :
    selectAction eps cfg q v u iter = .ok .tooMuch := by
  have hcov : PriorCovers cfg v := fun _ => ⟨f, hf, fun c hc => by
    obtain ⟨p, h1, _⟩ := hp.1 c hc
    simp [h1]⟩
  have hE : 0 < EPS := by unfold EPS; positivity
  have hE1 : EPS < 1 := by unfold EPS; norm_num
  have hs := policy_sum hf hp (by rcases ha with h | h <;> simp [h]) Q
  have hs' : policy cfg (getTemp cfg v) v Q a + policy cfg (getTemp cfg v) v Q b = 1 := by
    rcases ha with h | h
    · rw [h] at hs; simpa using hs
    · rw [h] at hs; simp at hs; linarith
  have h1 : policy cfg (getTemp cfg v) v Q a < EPS := by linarith
  have h2 : ¬ policy cfg (getTemp cfg v) v Q b < EPS := by linarith
  have hl : (v.actions.map fun c => (c, policy cfg (getTemp cfg v) v Q c)).filter (fun p => ¬ p.2 < EPS) =
      [(b, policy cfg (getTemp cfg v) v Q b)] := by
    rcases ha with h | h
    · rw [h]; simp only [List.map_cons, List.map_nil]
      rw [List.filter_cons_of_neg (by simpa using h1), List.filter_cons_of_pos (by simpa using h2), List.filter_nil]
    · rw [h]; simp only [List.map_cons, List.map_nil]
      rw [List.filter_cons_of_pos (by simpa using h2), List.filter_cons_of_neg (by simpa using h1), List.filter_nil]
  unfold selectAction
  rw [actionDistr, fullDistr_eq hq hN hcov]
  simp only
  rw [hl, List.perm_singleton.1 (hi _)]
  simp only [sampleFrom, if_true, sampleLoop, div_one, zero_add]
  rw [if_pos (Or.inl (by linarith))]

/-- C114 is false.  With a positive weight and no prior function, selecting dereferences a null pointer. -/
theorem c114_null_pointer_false (hq : QIs q v Q) (hN : 0 < v.visits) (hne : v.actions ≠ []) (hp : cfg.prior = none)
    (hw : 0 < cfg.priorWeight) (eps u : ℝ) (iter : List (A × ℝ) → List (A × ℝ)) : selectAction eps cfg q v u iter = .error .nullPrior := by
  have h : fullDistr cfg q v = .error .nullPrior := by
    unfold fullDistr
    rw [qList_eq hq, lambda_visited hN]
    cases ha : v.actions with
    | nil => exact absurd ha hne
    | cons a l => simp [weights, interpolateAll, interpolate, hw, hp]
  unfold selectAction actionDistr
  rw [h]

/-- With a positive weight and no prior nothing can be selected. -/
theorem selectable_null (hp : cfg.prior = none) (hw : 0 < cfg.priorWeight) {eps : ℝ} {a : A} : selectable eps cfg q v a = false := by
  by_contra hx
  rw [Bool.not_eq_false] at hx
  have ha := Dents.selectable_valid hx
  unfold selectable at hx
  rw [@decide_eq_true_eq _ (Classical.propDecidable _)] at hx
  obtain ⟨u, iter, _, _, hi, hx⟩ := hx
  have hd : ∀ l, actionDistr cfg q v = .ok l → False := by
    intro l hl
    unfold actionDistr at hl
    cases hf : fullDistr cfg q v with
    | error e => simp [hf] at hl
    | ok l' =>
      unfold fullDistr at hf
      cases hq : qList q v.actions with
      | error e => cases hlam : lambda cfg v <;> simp [hq, hlam] at hf
      | ok qs =>
        have hne : qs ≠ [] := by
          rintro rfl
          cases hv : v.actions with
          | nil => simp [hv] at ha
          | cons c cs =>
            rw [hv] at hq
            simp only [qList] at hq
            cases h1 : q c <;> cases h2 : qList q cs <;> simp [h1, h2] at hq
        cases hlam : lambda cfg v with
        | error e =>
          cases qs with
          | nil => exact hne rfl
          | cons p ps => simp [hq, hlam] at hf
        | ok lam =>
          simp only [hq, hlam, weights] at hf
          cases qs with
          | nil => exact hne rfl
          | cons p ps =>
            simp only [List.map_cons, interpolateAll, interpolate, gt_iff_lt, hw, if_true, hp] at hf
            simp at hf
  unfold selectAction at hx
  cases hl : actionDistr cfg q v with
  | error e => simp [hl] at hx
  | ok l => exact hd l hl

/-- C114.  For every weight: at a node that has been visited at least `exp(weight) - 3` times the policy is a distribution, and every draw
below `1 - |A|·1e-16` selects a valid action. -/
theorem c114_old_nodes_partial {f : S → List (A × ℝ)} (hf : cfg.prior = some f) (hp : IsPrior f v) (ht : 0 < getTemp cfg v)
    (he : 0 ≤ epsilonAt cfg v) (hm0 : 0 ≤ cfg.maxExplore) (hm1 : cfg.maxExplore ≤ 1) (hN : 0 < v.visits) (hne : v.actions ≠ [])
    (hw : Real.exp cfg.priorWeight ≤ v.visits + 3) (hq : QIs q v Q) {eps : ℝ} (heps : 0 ≤ eps) :
    ((∀ a ∈ v.actions, 0 ≤ policy cfg (getTemp cfg v) v Q a) ∧ (v.actions.map (policy cfg (getTemp cfg v) v Q)).sum = 1) ∧
    ∀ (iter : List (A × ℝ) → List (A × ℝ)), (∀ l, List.Perm (iter l) l) → ∀ u : ℝ, 0 ≤ u → u < 1 - v.actions.length * (1 / 10 ^ 16) →
      ∃ a ∈ v.actions, selectAction eps cfg q v u iter = .ok (.key a) := by
  have W : WellFormed cfg v := by
    refine ⟨ht, he, hm0, hm1, Or.inr ?_, fun _ => ⟨f, hf, fun a ha => ?_⟩, fun _ a ha => ?_, fun _ => ?_⟩
    · rw [Real.le_log_iff_exp_le (by positivity)]
      exact hw
    · obtain ⟨p, h1, _⟩ := hp.1 a ha
      simp [h1]
    · obtain ⟨p, h1, h2⟩ := hp.1 a ha
      simpa [priorAt, hf, h1] using h2
    · have : priorAt cfg v = fun a => (find? a (f v.state)).getD 0 := by funext a; simp [priorAt, hf]
      rw [this]
      exact hp.2
  obtain ⟨d1, d2⟩ := c31_is_distribution hN hne W Q
  refine ⟨⟨fun a ha => (d1 a ha).2, d2⟩, fun iter hi u h0 hu => ?_⟩
  rcases c36_selects_valid_action hq hN hne W heps hi h0 with h | ⟨_, h⟩
  · exact h
  · linarith

end

/-! ## Whole searches -/

section
variable {S A : Type} [DecidableEq S] [DecidableEq A] {env : Env S A ℝ} {m : Manager S ℝ} {cfg : Cfg S A} {eps : ℝ} {lr : S → A → ℝ} {k : Nat}
  {s0 : S} {dp tm : Int} {tb : List ((Int × S) × Option Nat)} {st : St S A ℝ Soft Soft} {h : List (Event S A ℝ)}

/-- C114 is false.  With a positive weight and no prior function no MENTS search ever selects an action, in any environment. -/
theorem c114_null_false (hp : cfg.prior = none) (hw : 0 < cfg.priorWeight) (hr : Reachable env m (ments eps cfg lr) k s0 dp tm tb st h)
    (w d : Nat) (a : A) (c : Nat) : Event.selected w d a c ∉ h := by
  refine reach_induct (fun _ h => Event.selected w d a c ∉ h) (by simp) (fun st h w' e st' _ ih _ E => ?_) hr
  intro hm
  rcases List.mem_cons.1 hm with rfl | hm
  · cases E with
    | selOld hw' hd hl hm ha hf => simp [ments, selectable_null hp hw] at ha
    | selNew hw' hd hl hm ha hf => simp [ments, selectable_null hp hw] at ha
  · exact ih hm

end

section
variable {cfg : Cfg Stage Bool} {eps : ℝ} {b : Bool} {k N : Nat} {st : St Stage Bool ℝ Soft Soft} {h : List (Event Stage Bool ℝ)}

theorem meanLoop_zero (l : List (Nat × ℝ)) (hl : ∀ p ∈ l, p.2 = 0) : ∀ s : ℝ, meanLoop l 0 s = 0 := by
  induction l with
  | nil => intro s; rfl
  | cons p l ih =>
    intro s
    obtain ⟨n, x⟩ := p
    have hx : x = 0 := hl (n, x) (by simp)
    subst hx
    simp only [meanLoop]
    split
    · exact ih (fun p hp => hl p (by simp [hp])) _
    · simp only [zero_mul, mul_zero, zero_div, add_zero]
      exact ih (fun p hp => hl p (by simp [hp])) _

/-- The values of the game: final nodes are worth nothing, the better move 10, the other at most that. -/
theorem pick_local (H : Heavy cfg N) : LocalInv pickEnv (pickMgr b) (ments eps cfg pickReward)
    (fun s _ _ x => s = .finish → x.val = some 0) (fun _ a _ _ y => ∃ r, y.val = some r ∧ r ≤ 10 ∧ (a = true → r = 10)) where
  initD s d t _ := by simp [ments, softInitD, heurOf, pickMgr]
  initC s a d t _ := ⟨10, by simp [ments, softInitC, H.defaultQ], le_rfl, fun _ => rfl⟩
  visitD b s d t x hx hs := by
    show (softVisit b x).val = _
    unfold softVisit
    split <;> exact hx hs
  visitC s a d t y hy := hy
  backupD v _ args h1 _ h3 _ h5 _ _ _ _ _ hs := by
    obtain ⟨k, hk⟩ := h3
    have := h5 k hk
    rw [h1, hs] at this
    simp [pickEnv] at this
  backupC s a d t y kids args _ _ _ h2 := by
    have hall : ∀ x ∈ kids.map fun k => k.2, x.val = some 0 := by
      intro x hx
      obtain ⟨k, hk, rfl⟩ := List.mem_map.1 hx
      obtain ⟨g1, g2⟩ := h2 k hk
      exact g2 (by simpa [pickEnv] using g1)
    have hfin : ∃ l, finiteSoft (kids.map fun k => k.2) = some l ∧ ∀ p ∈ l, p.2 = 0 := by
      generalize (kids.map fun k => k.2) = L at hall
      induction L with
      | nil => exact ⟨[], rfl, by simp⟩
      | cons x L ih =>
        obtain ⟨l, e1, e2⟩ := ih (fun z hz => hall z (by simp [hz]))
        refine ⟨(x.n, 0) :: l, by simp [finiteSoft, e1, hall x (by simp)], ?_⟩
        intro p hp
        rcases List.mem_cons.1 hp with rfl | hp
        · rfl
        · exact e2 p hp
    obtain ⟨l, e1, e2⟩ := hfin
    refine ⟨pickReward s a, ?_, ?_, ?_⟩
    · show (softBackupC (pickReward s a) (kids.map fun k => k.2) y).val = _
      simp [softBackupC, e1, meanLoop_zero l e2]
    · unfold pickReward
      split <;> norm_num
    · rintro rfl
      rfl

theorem root_only (hr : Reachable pickEnv (pickMgr b) (ments eps cfg pickReward) k .start 0 0 [] st h) {d : Nat}
    {nd : DNode Stage Bool ℝ Soft} (hd : st.dn[d]? = some nd) (hs : nd.state = .start) : d = st.root := by
  by_contra hne
  have hv := ments_valid eps cfg pickReward
  obtain ⟨c, o, hc⟩ := (c14_parents hv (by simp [Leftover]) hr).1 d nd hd hne
  obtain ⟨nc, nd', g1, g2, _, g3, _, _, g4⟩ := childD_facts (reach_both hv (by simp [Leftover]) hr).1.tree hc
  rw [hd] at g2
  obtain rfl := Option.some.inj g2
  rw [hs] at g3
  subst g3
  simp [pickEnv] at g4

theorem explore_range (H : Heavy cfg N) {X Y : Type} {v : View Stage Bool X Y} (hpos : 0 < v.visits) :
    0 ≤ uniformWeight cfg v ∧ uniformWeight cfg v ≤ 3 / 4 := by
  have heps : 0 ≤ epsilonAt cfg v := by
    unfold epsilonAt
    split
    · next g => exact g.2.le
    · exact H.eps
  have hlog1 : 0 < Real.log ((v.visits : ℝ) + 1) := Real.log_pos (by
    have : (0 : ℝ) < v.visits := by exact_mod_cast hpos
    linarith)
  refine ⟨le_min (div_nonneg heps hlog1.le) H.max0, ?_⟩
  rcases H.explore with g | ⟨g1, g2⟩
  · exact le_trans (min_le_right _ _) g
  · refine le_trans (min_le_left _ _) ?_
    rw [div_le_iff₀ hlog1]
    have hE : epsilonAt cfg v ≤ 1 / 2 := by
      unfold epsilonAt
      split
      · exact g2
      · exact g1
    have h2 : Real.log 2 ≤ Real.log ((v.visits : ℝ) + 1) := Real.log_le_log (by norm_num) (by
      have : (1 : ℝ) ≤ v.visits := by exact_mod_cast hpos
      linarith)
    linarith [Real.log_two_gt_d9]

theorem pick_isPrior {X Y : Type} {v : View Stage Bool X Y} (hacts : v.actions = [true, false]) : IsPrior pickPrior v := by
  constructor
  · intro a _
    cases a <;> simp [pickPrior, find?]
    norm_num
  · rw [hacts]
    simp [pickPrior, find?]
    norm_num

/-- C114.  The first selection of the game is sound: the draws below 1/10 select the better move. -/
theorem c114_first (H : Heavy cfg N) {v : View Stage Bool Soft Soft} (hacts : v.actions = [true, false])
    (hk : v.kids = []) (hpos : 0 < v.visits) (heps : 0 ≤ eps) {u : ℝ} (hu : u < 1 / 10) :
    selectAction eps cfg (mentsQ cfg id v) v u id = .ok (.key true) := by
  have hQ : QIs (mentsQ cfg id v) v (fun a => if a then Real.log (1 / 10) else Real.log (9 / 10)) := by
    intro a _
    have g1 : ¬ (10 : ℝ) ^ 32 ≤ 9 / 10 := by norm_num
    have g3 : ¬ (10 : ℝ) ^ 32 ≤ 1 / 10 := by norm_num
    cases a
    · simp only [mentsQ, hk, find?, untriedQ, H.prior, pickPrior, nodeOffset, H.shift, logWeight, logMaxArg, logMinArg]
      simp [g1]
      intro hx
      norm_num at hx
    · simp only [mentsQ, hk, find?, untriedQ, H.prior, pickPrior, nodeOffset, H.shift, logWeight, logMaxArg, logMinArg]
      simp
      norm_num
  have hcov : PriorCovers cfg v := fun _ => ⟨_, H.prior, fun a _ => by cases a <;> simp [pickPrior, find?]⟩
  obtain ⟨hu0, hu1⟩ := explore_range H hpos
  have htemp : getTemp cfg v = 1 := by simp [getTemp, H.decay, H.temp]
  have hB : boltzmann (getTemp cfg v) (fun a => if a then Real.log (1 / 10) else Real.log (9 / 10)) v.actions true = 1 / 10 := by
    unfold boltzmann partition
    rw [htemp, hacts]
    simp only [List.map_cons, List.map_nil, List.sum_cons, List.sum_nil, if_true, div_one, add_zero, Bool.false_eq_true, if_false]
    rw [Real.exp_log (by norm_num), Real.exp_log (by norm_num)]
    norm_num
  have hpr : priorAt cfg v true = 1 / 10 := by simp [priorAt, H.prior, pickPrior, find?]
  have hlen : (v.actions.length : ℝ) = 2 := by rw [hacts]; norm_num
  have hP : policy cfg (getTemp cfg v) v (fun a => if a then Real.log (1 / 10) else Real.log (9 / 10)) true =
      1 / 10 + uniformWeight cfg v * (4 / 10) := by
    unfold policy
    rw [hpr, hlen, hB]
    ring
  have hE1 : EPS < 1 / 10 := by unfold EPS; norm_num
  have hs := policy_sum H.prior (pick_isPrior hacts) (by simp [hacts]) (fun a => if a then Real.log (1 / 10) else Real.log (9 / 10))
  rw [hacts] at hs
  simp only [List.map_cons, List.map_nil, List.sum_cons, List.sum_nil, add_zero] at hs
  unfold selectAction
  rw [actionDistr, fullDistr_eq hQ hpos hcov, hacts]
  simp only [List.map_cons, List.map_nil, id]
  rw [List.filter_cons_of_pos (by simp only [decide_eq_true_eq]; rw [hP]; linarith),
    List.filter_cons_of_pos (by simp only [decide_eq_true_eq]; linarith), List.filter_nil]
  simp only [sampleFrom, if_true, sampleLoop, div_one, zero_add]
  rw [if_neg, if_pos (by rw [hP]; linarith)]
  rintro (h3 | h3)
  · rw [hP] at h3; linarith
  · have := h3.1; rw [hP] at this; linarith

/-- If the better move has been made before, every draw throws. -/
theorem starved (H : Heavy cfg N) (hr : Reachable pickEnv (pickMgr b) (ments eps cfg pickReward) k .start 0 0 [] st h) {w cur : Nat}
    {path : List (Nat × Nat)} {rs : List ℝ} {new : Bool} {nd : DNode Stage Bool ℝ Soft} (hN : trialsBegun h ≤ N)
    (hw : st.ws[w]? = some (.sel cur path rs new)) (hd : st.dn[cur]? = some nd) (hs : nd.state = .start) {c : Nat}
    (hc : (true, c) ∈ nd.kids) (heps : 0 ≤ eps) (heps1 : eps < 1 / 10) {iter : List (Bool × ℝ) → List (Bool × ℝ)}
    (hi : ∀ l, List.Perm (iter l) l) (u : ℝ) :
    selectAction eps cfg (mentsQ cfg id (viewOf pickEnv (pickMgr b) st { nd with visits := nd.visits + 1, x := softVisit false nd.x }))
      (viewOf pickEnv (pickMgr b) st { nd with visits := nd.visits + 1, x := softVisit false nd.x }) u iter = .ok .tooMuch := by
  set v := viewOf pickEnv (pickMgr b) st { nd with visits := nd.visits + 1, x := softVisit false nd.x } with hv
  have V := ments_valid eps cfg pickReward
  have htb : Leftover ([] : List ((Int × Stage) × Option Nat)) := by simp [Leftover]
  obtain ⟨I, D⟩ := local_reach (pick_local (eps := eps) (b := b) H) V htb hr
  have hacts : v.actions = [true, false] := by simp [hv, viewOf, hs, pickEnv]
  have hopp : v.opp = false := rfl
  have hvis : v.visits = nd.visits + 1 := rfl
  have hstate : v.state = .start := hs
  -- values of the moves that have been made
  have hkid : ∀ a y, find? a v.kids = some y → ∃ r, y.2.val = some r ∧ r ≤ 10 ∧ (a = true → r = 10) := by
    intro a y hy
    obtain ⟨c', nc, g1, g2, g3⟩ := mem_kidsY.1 (find?_mem' hy)
    obtain ⟨nd2, nc2, f1, f2, _, _, f5, _⟩ := childC_facts I.tree (childC_of_mem I.tree hd g1)
    rw [g2] at f2
    obtain rfl := Option.some.inj f2
    have := D.c c' nc g2
    rw [f5] at this
    simp only at g3
    rw [g3]
    exact this
  have htrue : ∃ y, find? true v.kids = some y := by
    obtain ⟨nd2, nc, f1, f2, f3, _⟩ := childC_facts I.tree (childC_of_mem I.tree hd hc)
    cases hf : find? true v.kids with
    | some y => exact ⟨y, rfl⟩
    | none =>
      exfalso
      have hm : ((true, nc.visits, nc.y) : Bool × Nat × Soft) ∈ v.kids := mem_kidsY.2 ⟨c, nc, hc, f2, rfl⟩
      exact (find?_eq_none.1 hf) (List.mem_map.2 ⟨_, hm, rfl⟩)
  obtain ⟨yt, hyt⟩ := htrue
  obtain ⟨rt, hrt, _, hrt2⟩ := hkid true yt hyt
  have hqt : mentsQ cfg id v true = .ok 10 := by
    simp [mentsQ, hyt, hrt, hrt2 rfl, hopp, oppCoeff]
  have hqf : ∃ x, mentsQ cfg id v false = .ok x ∧ x ≤ 10 := by
    cases hf : find? false v.kids with
    | some y =>
      obtain ⟨r, hr1, hr2, _⟩ := hkid false y hf
      exact ⟨r, by simp [mentsQ, hf, hr1, hopp, oppCoeff], hr2⟩
    | none =>
      refine ⟨Real.log (9 / 10), ?_, ?_⟩
      · have g1 : ¬ (10 : ℝ) ^ 32 ≤ 9 / 10 := by norm_num
        have g2 : (1 : ℝ) / 10 ^ 32 < 9 / 10 := by norm_num
        simp only [mentsQ, hf, untriedQ, H.prior, pickPrior, find?, nodeOffset, H.shift, logWeight, logMaxArg, logMinArg]
        simp [g1]
        intro hx
        norm_num at hx
      · exact le_trans (Real.log_nonpos (by norm_num) (by norm_num)) (by norm_num)
  obtain ⟨x, hx, hx10⟩ := hqf
  have hQ : QIs (mentsQ cfg id v) v (fun a => if a then 10 else x) := by
    intro a _
    cases a
    · simpa using hx
    · simpa using hqt
  have hpos : 0 < v.visits := by rw [hvis]; omega
  have hle : v.visits ≤ N := by
    have := visits_lt_of_sel V htb hr hw hd
    have e : (ments eps cfg pickReward).initVisits = 0 := rfl
    rw [hvis]
    omega
  have hlogpos : 0 < Real.log ((v.visits : ℝ) + 3) := Real.log_pos (by
    have : (0 : ℝ) ≤ v.visits := Nat.cast_nonneg _
    linarith)
  have hlogle : Real.log ((v.visits : ℝ) + 3) ≤ Real.log (N + 3) := Real.log_le_log (by positivity) (by
    have : (v.visits : ℝ) ≤ N := by exact_mod_cast hle
    linarith)
  have hwpos : 0 < cfg.priorWeight := by
    have := H.weight
    linarith
  refine c114_two_actions_false hQ hpos H.prior (pick_isPrior hacts) (Or.inl hacts) heps (lt_of_le_of_lt ?_ (neg_lt_neg heps1)) hi u
  have htemp : getTemp cfg v = 1 := by simp [getTemp, H.decay, H.temp]
  have hpw : 6 ≤ priorWeightAt cfg v := by
    unfold priorWeightAt
    rw [if_pos hwpos, le_div_iff₀ hlogpos]
    have := H.weight
    linarith
  have hpr : priorAt cfg v true = 1 / 10 := by simp [priorAt, H.prior, pickPrior, find?]
  obtain ⟨hu0, hu1⟩ := explore_range H hpos
  have hB : 1 / 2 ≤ boltzmann (getTemp cfg v) (fun a => if a then 10 else x) v.actions true := by
    unfold boltzmann partition
    rw [htemp, hacts]
    simp only [List.map_cons, List.map_nil, List.sum_cons, List.sum_nil, if_true, div_one, add_zero, Bool.false_eq_true, if_false]
    have hex : Real.exp x ≤ Real.exp 10 := Real.exp_le_exp.2 hx10
    rw [le_div_iff₀ (by positivity)]
    linarith
  have hlen : (v.actions.length : ℝ) = 2 := by rw [hacts]; norm_num
  unfold policy
  rw [hpr, hlen]
  set B := boltzmann (getTemp cfg v) (fun a => if a then 10 else x) v.actions true
  set l := uniformWeight cfg v
  set p := priorWeightAt cfg v
  have hX : (1 - p) * B + p * (1 / 10) ≤ -19 / 10 := by nlinarith
  have hL : (1 - l) * ((1 - p) * B + p * (1 / 10)) ≤ (1 - l) * (-19 / 10) := mul_le_mul_of_nonneg_left hX (by linarith)
  have e : (1 - l) * (1 - p) * B + (1 - l) * p * (1 / 10) = (1 - l) * ((1 - p) * B + p * (1 / 10)) := by ring
  rw [e]
  linarith

/-- The root has a child for every move selected before. -/
theorem selected_kid (hr : Reachable pickEnv (pickMgr b) (ments eps cfg pickReward) k .start 0 0 [] st h) {w d c cur : Nat} {a : Bool}
    {nd : DNode Stage Bool ℝ Soft} (hsel : Event.selected w d a c ∈ h) (hd : st.dn[cur]? = some nd) (hs : nd.state = .start) :
    (a, c) ∈ nd.kids := by
  have V := ments_valid eps cfg pickReward
  have htb : Leftover ([] : List ((Int × Stage) × Option Nat)) := by simp [Leftover]
  have I := reach_both V htb hr
  obtain ⟨nd2, nc2, f1, f2, f3, f4, _, _, _, f8⟩ := childC_facts I.1.tree (I.2.evSel w d _ c hsel)
  have hs2 : nd2.state = .start := by
    cases hs : nd2.state with
    | start => rfl
    | finish => simp [hs, pickEnv] at f8
  have r1 := root_only hr f1 hs2
  have r2 := root_only hr hd hs
  rw [r1, ← r2, hd] at f1
  obtain rfl := Option.some.inj f1
  exact f3

/-- C114 is false.  For every `N` there are weights such that, once the better move has been selected, each further selection in the first `N`
trials throws, whatever the number of workers, the schedule and the random numbers. -/
theorem c114_search_throws_false (H : Heavy cfg N) (heps : 0 ≤ eps) (heps1 : eps < 1 / 10)
    (hr : Reachable pickEnv (pickMgr b) (ments eps cfg pickReward) k .start 0 0 [] st h) (hN : trialsBegun h ≤ N)
    (hsel : ∃ e ∈ h, selectsBetter e = true) {w cur : Nat} {path : List (Nat × Nat)} {rs : List ℝ} {new : Bool}
    {nd : DNode Stage Bool ℝ Soft} (hw : st.ws[w]? = some (.sel cur path rs new)) (hd : st.dn[cur]? = some nd) (hs : nd.state = .start)
    {iter : List (Bool × ℝ) → List (Bool × ℝ)} (hi : ∀ l, List.Perm (iter l) l) (u : ℝ) :
    selectAction eps cfg (mentsQ cfg id (viewOf pickEnv (pickMgr b) st { nd with visits := nd.visits + 1, x := softVisit false nd.x }))
      (viewOf pickEnv (pickMgr b) st { nd with visits := nd.visits + 1, x := softVisit false nd.x }) u iter = .ok .tooMuch := by
  obtain ⟨e, he, hx⟩ := hsel
  cases e <;> simp [selectsBetter] at hx
  subst hx
  exact starved H hr hN hw hd hs (selected_kid hr he hd hs) heps heps1 hi u

/-- C114 is false.  So in the first `N` trials no selection follows one of the better move. -/
theorem c114_no_more_false (H : Heavy cfg N) (heps : 0 ≤ eps) (heps1 : eps < 1 / 10)
    (hr : Reachable pickEnv (pickMgr b) (ments eps cfg pickReward) k .start 0 0 [] st h) (hN : trialsBegun h ≤ N) :
    h.Pairwise fun later earlier => ¬ (selects later = true ∧ selectsBetter earlier = true) := by
  refine reach_induct (fun _ h => trialsBegun h ≤ N → h.Pairwise fun later earlier => ¬ (selects later = true ∧ selectsBetter earlier = true))
    (by simp) (fun st h w e st' hr' ih _ E => ?_) hr hN
  intro hN'
  have hmono : trialsBegun h ≤ trialsBegun (e :: h) := by simp only [trialsBegun, List.countP_cons]; omega
  refine List.pairwise_cons.2 ⟨fun e' he' => ?_, ih (le_trans hmono hN')⟩
  rintro ⟨h1, h2⟩
  have hstart : ∀ {nd : DNode Stage Bool ℝ Soft}, isLeaf pickEnv (pickMgr b) nd = false → nd.state = .start := by
    intro nd hl
    cases hs : nd.state with
    | start => rfl
    | finish => simp [isLeaf, pickEnv, hs] at hl
  have key : ∀ {cur path rs new nd a}, st.ws[w]? = some (.sel cur path rs new) → st.dn[cur]? = some nd →
      isLeaf pickEnv (pickMgr b) nd = false → selectable eps cfg
        (mentsQ cfg id (viewOf pickEnv (pickMgr b) st { nd with visits := nd.visits + 1, x := softVisit false nd.x }))
        (viewOf pickEnv (pickMgr b) st { nd with visits := nd.visits + 1, x := softVisit false nd.x }) a = true → False := by
    intro cur path rs new nd a hw hd hl ha
    unfold selectable at ha
    rw [@decide_eq_true_eq _ (Classical.propDecidable _)] at ha
    obtain ⟨u, iter, _, _, hi, hx⟩ := ha
    rw [c114_search_throws_false H heps heps1 hr' (le_trans hmono hN') ⟨e', he', h2⟩ hw hd (hstart hl) hi u] at hx
    simp at hx
  cases E with
  | selOld hw hd hl hm ha hf => exact key hw hd hl ha
  | selNew hw hd hl hm ha hf => exact key hw hd hl ha
  | _ => simp [selects] at h1

/-- The default settings of MENTS except for the prior, its weight and the default value. -/
noncomputable def heavyCfg (N : Nat) : Cfg Stage Bool where
  temp := 1
  priorWeight := 6 * Real.log (N + 3)
  epsilon := 1 / 2
  rootEpsilon := -1
  maxExplore := 1
  decay := none
  minTemp := 1 / 10 ^ 6
  scale := 1
  rootScale := -1
  defaultQ := 10
  shift := false
  offset := 0
  threshold := 0
  mostVisited := false
  prior := some pickPrior
  low := -10 ^ 300

example (N : Nat) : Heavy (heavyCfg N) N := by
  constructor <;> norm_num [heavyCfg]

/-- A node of the game, visited once, without children. -/
noncomputable def freshView : View Stage Bool Soft Soft :=
  { state := .start, depth := 0, time := 0, opp := false, visits := 1, x := ⟨0, some 0⟩, actions := [true, false], kids := [] }

example : selectAction 0 (heavyCfg 100) (mentsQ (heavyCfg 100) id freshView) freshView (1 / 20) id = .ok (.key true) :=
  c114_first (N := 100) (by constructor <;> norm_num [heavyCfg]) rfl rfl (by simp [freshView]) le_rfl (by norm_num)

example : selectAction 0 { heavyCfg 0 with prior := none, priorWeight := 1 } (fun _ => .ok 3) freshView (1 / 20) id = .error .nullPrior :=
  c114_null_pointer_false (Q := fun _ => 3) (fun _ _ => rfl) (by simp [freshView]) (by simp [freshView]) rfl (by norm_num) _ _ _

/-- With weight 2 the node is old enough after ten visits. -/
example : ∃ a ∈ [true, false], selectAction 0 { heavyCfg 0 with priorWeight := 2 } (fun _ => .ok 3) { freshView with visits := 10 } (1 / 2) id = .ok (.key a) := by
  have h2 : Real.exp 2 ≤ 9 := by
    have e : (2 : ℝ) = 1 + 1 := by norm_num
    rw [e, Real.exp_add]
    nlinarith [Real.exp_one_lt_d9, Real.exp_pos 1]
  exact (c114_old_nodes_partial (cfg := { heavyCfg 0 with priorWeight := 2 }) (v := { freshView with visits := 10 }) (Q := fun _ => 3) rfl
    (pick_isPrior rfl) (by simp [getTemp, heavyCfg]) (by norm_num [epsilonAt, heavyCfg, isRoot, freshView]) (by norm_num [heavyCfg])
    (by norm_num [heavyCfg]) (by norm_num) (by simp [freshView]) (by push_cast; linarith) (fun _ _ => rfl) le_rfl).2 id (fun l => List.Perm.refl l)
    (1 / 2) (by norm_num) (by norm_num [freshView])

/-- A weight of two at a node visited once: without exploration the condition of `c114_exact` fails, with weight one it holds. -/
example : ∃ f, IsPrior f freshView ∧ ∃ (Q : Bool → ℝ) (c : Bool),
    policy { heavyCfg 0 with priorWeight := 2, maxExplore := 0, prior := some f } 1 freshView Q c < 0 := by
  have h := (c114_exact (cfg := { heavyCfg 0 with priorWeight := 2, maxExplore := 0 }) (v := freshView) (a := true) (b := false) (by simp [freshView])
    (by simp [freshView]) (by simp [freshView]) (by simp) (by simp [getTemp, heavyCfg])
    (le_min (div_nonneg (by norm_num [epsilonAt, heavyCfg, isRoot, freshView]) (Real.log_nonneg (by norm_num [freshView]))) le_rfl)
    (le_trans (min_le_right _ _) (by norm_num)) (by
      unfold priorWeightAt
      rw [if_pos (by norm_num)]
      exact div_nonneg (by norm_num) (Real.log_nonneg (by norm_num [freshView])))).not.2 (by
      have e : uniformWeight { heavyCfg 0 with priorWeight := 2, maxExplore := 0 } freshView = 0 := by
        refine min_eq_right (div_nonneg (by norm_num [epsilonAt, heavyCfg, isRoot, freshView]) (Real.log_nonneg (by norm_num [freshView])))
      rw [e]
      have h4 : Real.log ((freshView.visits : ℝ) + 3) < 2 := by
        have : ((freshView.visits : ℝ) + 3) = 2 * 2 := by norm_num [freshView]
        rw [this, Real.log_mul (by norm_num) (by norm_num)]
        linarith [Real.log_two_lt_d9]
      have h5 : 0 < Real.log ((freshView.visits : ℝ) + 3) := Real.log_pos (by norm_num [freshView])
      have : 1 < priorWeightAt { heavyCfg 0 with priorWeight := 2, maxExplore := 0 } freshView := by
        unfold priorWeightAt
        rw [if_pos (by norm_num), lt_div_iff₀ h5]
        simpa using h4
      norm_num
      exact this)
  push Not at h
  obtain ⟨f, hf, Q, c, _, hc⟩ := h
  exact ⟨f, hf, Q, c, by simpa [getTemp, heavyCfg] using hc⟩

end

end Verif.Prior
