import Verif.Spec.Tents
import Verif.Props.MentsSelect

/-! # The search policy for an arbitrary base distribution in place of the Boltzmann policy -/

set_option linter.unusedSectionVars false
set_option linter.unusedSimpArgs false

namespace Verif.Tents

open Verif.Search Verif.Sampling Verif.Spec Verif.Backups Verif.Ments

variable {S A X Y : Type} [DecidableEq S] [DecidableEq A] {cfg : Cfg S A} {v : View S A X Y} {b : A → ℝ}

/-- The MENTS policy is an instance. -/
theorem policy_eq_mixture (temp : ℝ) (Q : A → ℝ) (a : A) : policy cfg temp v Q a = mixture cfg v (boltzmann temp Q v.actions) a := rfl

/-- The MENTS distribution is computed by the generic function from the MENTS weights. -/
theorem fullDistr_eq_W (q : A → Except Bad ℝ) : fullDistr cfg q v = fullDistrW cfg v (match qList q v.actions with
    | .ok qs => .ok ((weights cfg.low (getTemp cfg v) qs).1, (weights cfg.low (getTemp cfg v) qs).2.1)
    | .error e => .error e) := by
  unfold fullDistr fullDistrW
  cases hq : qList q v.actions with
  | error e => rfl
  | ok qs =>
    cases hl : lambda cfg v with
    | ok lam => rfl
    | error e => cases qs <;> simp [weights]

theorem fullDistrW_eq (hN : 0 < v.visits) (hp : PriorCovers cfg v) {w : A → ℝ} {s : ℝ} :
    fullDistrW cfg v (.ok (v.actions.map fun a => (a, w a), s)) = .ok (v.actions.map fun a => (a, mixture cfg v (fun a => w a / s) a)) := by
  unfold fullDistrW
  rw [lambda_visited hN]
  dsimp only
  rw [interpolateAll_eq hp _ _ _ _ (fun a ha => ha)]
  congr 1
  apply List.map_congr_left
  intro a ha
  simp only [Prod.mk.injEq, true_and, mixture]
  ring

theorem IsDistr.ne {acts : List A} (h : IsDistr acts b) : acts ≠ [] := by
  rintro rfl
  simpa using h.sum

theorem isDistr_div {acts : List A} {w : A → ℝ} {s : ℝ} (h0 : ∀ a ∈ acts, 0 ≤ w a) (hs : (acts.map w).sum = s) (hpos : 0 < s) :
    IsDistr acts fun a => w a / s := by
  refine ⟨fun a ha => div_nonneg (h0 a ha) hpos.le, ?_⟩
  rw [sum_map_div]
  have : (acts.map fun a => w a) = acts.map w := rfl
  rw [this, hs, div_self hpos.ne']

theorem mixture_is_distribution (hN : 0 < v.visits) (hb : IsDistr v.actions b) (w : WellFormed cfg v) :
    (∀ a ∈ v.actions, uniformWeight cfg v / v.actions.length ≤ mixture cfg v b a ∧ 0 ≤ mixture cfg v b a) ∧
    (v.actions.map (mixture cfg v b)).sum = 1 := by
  obtain ⟨l0, l1⟩ := uniformWeight_range hN w
  obtain ⟨p0, p1⟩ := priorWeight_range hN w
  have hlen : (0 : ℝ) < v.actions.length := by exact_mod_cast List.length_pos_of_ne_nil hb.ne
  constructor
  · intro a ha
    have h1 : 0 ≤ (1 - uniformWeight cfg v) * (1 - priorWeightAt cfg v) * b a :=
      mul_nonneg (mul_nonneg (by linarith) (by linarith)) (hb.nonneg a ha)
    have h2 : 0 ≤ (1 - uniformWeight cfg v) * priorWeightAt cfg v * priorAt cfg v a := by
      by_cases h : 0 < cfg.priorWeight
      · exact mul_nonneg (mul_nonneg (by linarith) p0) (w.prior0 h a ha)
      · simp [priorWeightAt, h]
    have h3 : 0 ≤ uniformWeight cfg v / v.actions.length := div_nonneg l0 hlen.le
    unfold mixture
    rw [mul_one_div]
    constructor <;> linarith
  · unfold mixture
    rw [sum_map_add, sum_map_add, sum_map_mul, sum_map_mul, sum_map_const]
    have e : (1 - uniformWeight cfg v) * priorWeightAt cfg v * (v.actions.map (priorAt cfg v)).sum =
        (1 - uniformWeight cfg v) * priorWeightAt cfg v := by
      by_cases h : 0 < cfg.priorWeight
      · rw [w.prior1 h, mul_one]
      · simp [priorWeightAt, h]
    have e' : ∀ l : List A, (l.map fun a => priorAt cfg v a) = l.map (priorAt cfg v) := fun _ => rfl
    have e2 : ∀ l : List A, (l.map fun a => b a) = l.map b := fun _ => rfl
    rw [e', e, e2, hb.sum]
    field_simp
    ring

theorem actionDistrW_spec (hN : 0 < v.visits) (w : WellFormed cfg v) {wt : A → ℝ} {s : ℝ} (hb : IsDistr v.actions fun a => wt a / s) :
    ∃ l, actionDistrW cfg v (.ok (v.actions.map fun a => (a, wt a), s)) = .ok l ∧
      (∀ a p, (a, p) ∈ l ↔ a ∈ v.actions ∧ p = mixture cfg v (fun a => wt a / s) a ∧ 1 / 10 ^ 16 ≤ p) ∧
      (∀ p ∈ l, 0 < p.2) ∧ mass l ≤ 1 ∧ 1 - v.actions.length * (1 / 10 ^ 16) ≤ mass l ∧
      (v.actions.Nodup → (l.map Prod.fst).Nodup) := by
  obtain ⟨h1, h2⟩ := mixture_is_distribution hN hb w
  have hm : mass (v.actions.map fun a => (a, mixture cfg v (fun a => wt a / s) a)) = 1 := by
    rw [← h2]
    simp [mass, Function.comp_def]
  obtain ⟨f1, f2⟩ := filter_mass (v.actions.map fun a => (a, mixture cfg v (fun a => wt a / s) a)) (by
    intro p hp
    obtain ⟨a, ha, rfl⟩ := List.mem_map.1 hp
    exact (h1 a ha).2)
  refine ⟨_, by rw [actionDistrW, fullDistrW_eq hN w.covers], ?_, ?_, ?_, ?_, ?_⟩
  · intro a p
    simp only [List.mem_filter, List.mem_map, Prod.mk.injEq, not_lt, decide_eq_true_eq, EPS]
    constructor
    · rintro ⟨⟨b, hb, rfl, rfl⟩, h⟩
      exact ⟨hb, rfl, h⟩
    · rintro ⟨ha, rfl, h⟩
      exact ⟨⟨a, ha, rfl, rfl⟩, h⟩
  · intro p hp
    have : EPS ≤ p.2 := by simpa using (List.mem_filter.1 hp).2
    have hE : 0 < EPS := by unfold EPS; positivity
    linarith
  · rw [← hm]; exact f1
  · rw [hm, List.length_map] at f2
    exact f2
  · intro hnd
    refine (List.filter_sublist.map Prod.fst).nodup ?_
    simpa [List.map_map, Function.comp_def] using hnd

/-- Whatever the draw, a selected action is valid, or the draw lies in the removed tail. -/
theorem selectW_valid (hN : 0 < v.visits) (w : WellFormed cfg v) {wt : A → ℝ} {s : ℝ} (hb : IsDistr v.actions fun a => wt a / s)
    {eps : ℝ} (heps : 0 ≤ eps) {iter : List (A × ℝ) → List (A × ℝ)} (hi : ∀ l, List.Perm (iter l) l) {u : ℝ} (h0 : 0 ≤ u) :
    (∃ a ∈ v.actions, selectActionW eps cfg v (.ok (v.actions.map fun a => (a, wt a), s)) u iter = .ok (.key a)) ∨
    (selectActionW eps cfg v (.ok (v.actions.map fun a => (a, wt a), s)) u iter = .ok .tooLittle ∧
      1 - v.actions.length * (1 / 10 ^ 16) ≤ u) := by
  obtain ⟨l, h1, h2, h3, h4, h5, _⟩ := actionDistrW_spec hN w hb
  have hpos : ∀ p ∈ iter l, 0 < p.2 := fun p hp => h3 p ((hi l).mem_iff.1 hp)
  have hm : mass (iter l) = mass l := ((hi l).map Prod.snd).sum_eq
  have hs : selectActionW eps cfg v (.ok (v.actions.map fun a => (a, wt a), s)) u iter = .ok (pickAt 1 u 0 (iter l)) := by
    unfold selectActionW
    rw [h1]
    dsimp only
    rw [sampleFrom_positive heps hpos (by rw [hm]; exact h4)]
  by_cases hu : u < mass l
  · obtain ⟨a, ha⟩ := pickAt_total 1 u (iter l) 0 h0 (by simpa [hm] using hu)
    refine .inl ⟨a, ?_, by rw [hs, ha]⟩
    have h7 := pickAt_mem 1 u _ _ _ ha
    rw [((hi l).map Prod.fst).mem_iff] at h7
    obtain ⟨⟨c, p⟩, hp, rfl⟩ := List.mem_map.1 h7
    exact ((h2 c p).1 hp).1
  · refine .inr ⟨?_, by linarith⟩
    rw [hs, pickAt_none u (iter l) 0 hpos (by rw [hm]; linarith)]

/-- An action is selected with its probability under the mixture, or never if that is below 1e-16. -/
theorem selectW_probability (hN : 0 < v.visits) (hnd : v.actions.Nodup) (w : WellFormed cfg v) {wt : A → ℝ} {s : ℝ}
    (hb : IsDistr v.actions fun a => wt a / s) {eps : ℝ} (heps : 0 ≤ eps) {iter : List (A × ℝ) → List (A × ℝ)}
    (hi : ∀ l, List.Perm (iter l) l) {a : A} (ha : a ∈ v.actions) :
    prob (fun u => selectActionW eps cfg v (.ok (v.actions.map fun a => (a, wt a), s)) u iter) (· = .ok (.key a)) =
      if mixture cfg v (fun a => wt a / s) a < 1 / 10 ^ 16 then 0 else mixture cfg v (fun a => wt a / s) a := by
  obtain ⟨l, h1, h2, h3, h4, h5, h6⟩ := actionDistrW_spec hN w hb
  have hpos : ∀ p ∈ iter l, 0 < p.2 := fun p hp => h3 p ((hi l).mem_iff.1 hp)
  have hm : mass (iter l) = mass l := ((hi l).map Prod.snd).sum_eq
  have hs : ∀ u, selectActionW eps cfg v (.ok (v.actions.map fun a => (a, wt a), s)) u iter = .ok (pickAt 1 u 0 (iter l)) := by
    intro u
    unfold selectActionW
    rw [h1]
    dsimp only
    rw [sampleFrom_positive heps hpos (by rw [hm]; exact h4)]
  have hkeys' : ((iter l).map Prod.fst).Nodup := (((hi l).map Prod.fst).nodup_iff).2 (h6 hnd)
  generalize hM : mixture cfg v (fun a => wt a / s) a = M at *
  by_cases hsmall : M < 1 / 10 ^ 16
  · rw [if_pos hsmall]
    have : prob (fun u => selectActionW eps cfg v (.ok (v.actions.map fun a => (a, wt a), s)) u iter) (· = .ok (.key a)) = 0 - 0 := by
      refine prob_interval le_rfl zero_le_one le_rfl ?_
      intro u h0 hu1
      constructor
      · intro h
        rw [hs u] at h
        simp only [Except.ok.injEq] at h
        have h7 := pickAt_mem 1 u _ _ _ h
        rw [((hi l).map Prod.fst).mem_iff] at h7
        obtain ⟨⟨c, p⟩, hp, rfl⟩ := List.mem_map.1 h7
        obtain ⟨_, rfl, h8⟩ := (h2 c p).1 hp
        dsimp only at hM
        rw [hM] at h8
        exact absurd h8 (not_le.2 hsmall)
      · rintro ⟨_, h⟩
        linarith
    simpa using this
  · rw [if_neg hsmall]
    have hmem : (a, M) ∈ iter l := (hi l).mem_iff.2 ((h2 _ _).2 ⟨ha, hM.symm, not_lt.1 hsmall⟩)
    obtain ⟨pre, suf, hd⟩ := List.append_of_mem hmem
    have hmm : mass pre + (M + mass suf) ≤ 1 := by
      have : mass (iter l) ≤ 1 := by rw [hm]; exact h4
      rw [hd] at this
      simpa using this
    have g1 : 0 ≤ mass pre := mass_nonneg fun p hp => (hpos p (by simp [hd, hp])).le
    have g2 : 0 ≤ mass suf := mass_nonneg fun p hp => (hpos p (by simp [hd, hp])).le
    have g3 : 0 < M := hpos _ hmem
    have : prob (fun u => selectActionW eps cfg v (.ok (v.actions.map fun a => (a, wt a), s)) u iter) (· = .ok (.key a)) =
        (mass pre + M) - mass pre := by
      refine prob_interval g1 (by linarith) (by linarith) ?_
      intro u h0 hu1
      rw [hs u, Except.ok.injEq, hd, pickAt_iff 1 u one_pos pre a _ suf 0 (by rw [← hd]; exact hkeys')
        (by rw [← hd]; exact fun p hp => (hpos p hp).le) h0]
      simp
    rw [this]
    ring

theorem fullDistrW_keys {ws : Except Bad (List (A × ℝ) × ℝ)} {l : List (A × ℝ)} (h : fullDistrW cfg v ws = .ok l) :
    ∃ w s, ws = .ok (w, s) ∧ l.map Prod.fst = w.map Prod.fst := by
  unfold fullDistrW at h
  split at h
  · exact ⟨_, _, rfl, interpolateAll_keys _ _ _ h⟩
  · simp at h
  · simp only [Except.ok.injEq] at h
    subst h
    exact ⟨_, _, rfl, rfl⟩
  · simp at h

/-- Whatever the configuration, an action that is selected has a weight. -/
theorem selectActionW_mem {ws : Except Bad (List (A × ℝ) × ℝ)} {eps u : ℝ} {iter : List (A × ℝ) → List (A × ℝ)}
    (hi : ∀ l, List.Perm (iter l) l) {a : A} (h : selectActionW eps cfg v ws u iter = .ok (.key a)) :
    ∃ w s, ws = .ok (w, s) ∧ a ∈ w.map Prod.fst := by
  unfold selectActionW actionDistrW at h
  cases hf : fullDistrW cfg v ws with
  | error e => rw [hf] at h; simp at h
  | ok l =>
    rw [hf] at h
    simp only [Except.ok.injEq] at h
    obtain ⟨w, s, h1, h2⟩ := fullDistrW_keys hf
    refine ⟨w, s, h1, ?_⟩
    have h3 := sampleLoop_mem _ _ _ _ _ _ _ _ h
    rw [((hi _).map Prod.fst).mem_iff] at h3
    obtain ⟨p, hp, rfl⟩ := List.mem_map.1 h3
    rw [← h2]
    exact List.mem_map_of_mem (List.mem_filter.1 hp).1

end Verif.Tents
