import Verif.Proofs.Ments
import Verif.Proofs.Uct
import Verif.Props.Sampling
import Mathlib.Tactic.NormNum
import Mathlib.Analysis.Complex.ExponentialBounds

/-!
# Properties of MENTS: C31, C32, C33 (soft part), C34, C36, C37

Real arithmetic.  The theorems about the policy hold for every `get_soft_q_value` function, so also for DENTS and EST.
-/

set_option linter.unusedSectionVars false
set_option linter.unusedSimpArgs false

namespace Verif.Ments

open Verif.Search Verif.Sampling Verif.Spec Verif.Backups

variable {S A X Y : Type} [DecidableEq S] [DecidableEq A] {cfg : Cfg S A} {q : A → Except Bad ℝ} {v : View S A X Y} {Q : A → ℝ}

/-! ## C31 -/

/-- A well-formed configuration at a node: positive temperature, epsilon not negative, exploration limit in `[0,1]`, a prior
weight that does not exceed one there, and a prior that is a distribution over the valid actions (if it has a weight). -/
structure WellFormed (cfg : Cfg S A) (v : View S A X Y) : Prop where
  temp : 0 < getTemp cfg v
  eps : 0 ≤ epsilonAt cfg v
  max0 : 0 ≤ cfg.maxExplore
  max1 : cfg.maxExplore ≤ 1
  weight : cfg.priorWeight ≤ Real.log 4 ∨ cfg.priorWeight ≤ Real.log (v.visits + 3)
  covers : PriorCovers cfg v
  prior0 : 0 < cfg.priorWeight → ∀ a ∈ v.actions, 0 ≤ priorAt cfg v a
  prior1 : 0 < cfg.priorWeight → (v.actions.map (priorAt cfg v)).sum = 1

/-- C31.  At a visited node the probabilities computed by the code are the documented mixture. -/
theorem c31_documented_mixture (hq : QIs q v Q) (hN : 0 < v.visits) (hp : PriorCovers cfg v) :
    fullDistr cfg q v = .ok (v.actions.map fun a => (a, policy cfg (getTemp cfg v) v Q a)) := fullDistr_eq hq hN hp

theorem uniformWeight_range (hN : 0 < v.visits) (w : WellFormed cfg v) : 0 ≤ uniformWeight cfg v ∧ uniformWeight cfg v ≤ 1 := by
  unfold uniformWeight
  have : 0 < Real.log (v.visits + 1) := Real.log_pos (by
    have : (1 : ℝ) ≤ v.visits := by exact_mod_cast hN
    linarith)
  exact ⟨le_min (div_nonneg w.eps this.le) w.max0, le_trans (min_le_right _ _) w.max1⟩

theorem priorWeight_range (hN : 0 < v.visits) (w : WellFormed cfg v) : 0 ≤ priorWeightAt cfg v ∧ priorWeightAt cfg v ≤ 1 := by
  unfold priorWeightAt
  split
  · next h =>
    have h1 : Real.log 4 ≤ Real.log (v.visits + 3) := Real.log_le_log (by norm_num) (by
      have : (1 : ℝ) ≤ v.visits := by exact_mod_cast hN
      linarith)
    have h3 : cfg.priorWeight ≤ Real.log (v.visits + 3) := by
      rcases w.weight with h3 | h3
      · linarith
      · exact h3
    have h2 : 0 < Real.log (v.visits + 3) := by linarith
    exact ⟨(div_pos h h2).le, (div_le_one h2).2 h3⟩
  · simp

theorem boltzmann_pos (temp : ℝ) (Q : A → ℝ) {l : List A} (hl : l ≠ []) (a : A) : 0 < boltzmann temp Q l a :=
  div_pos (Real.exp_pos _) (partition_pos temp Q hl)

theorem sum_map_add {l : List A} (f g : A → ℝ) : (l.map fun a => f a + g a).sum = (l.map f).sum + (l.map g).sum := by
  induction l with
  | nil => simp
  | cons a l ih => simp only [List.map_cons, List.sum_cons, ih]; ring

theorem sum_map_mul {l : List A} (c : ℝ) (f : A → ℝ) : (l.map fun a => c * f a).sum = c * (l.map f).sum := by
  induction l with
  | nil => simp
  | cons a l ih => simp only [List.map_cons, List.sum_cons, ih]; ring

theorem sum_map_div {l : List A} (c : ℝ) (f : A → ℝ) : (l.map fun a => f a / c).sum = (l.map f).sum / c := by
  induction l with
  | nil => simp
  | cons a l ih => simp only [List.map_cons, List.sum_cons, ih]; ring

theorem sum_map_const {l : List A} (c : ℝ) : (l.map fun _ => c).sum = l.length * c := by
  induction l with
  | nil => simp
  | cons a l ih => simp only [List.map_cons, List.sum_cons, ih, List.length_cons]; push_cast; ring

theorem boltzmann_sum (temp : ℝ) (Q : A → ℝ) {l : List A} (hl : l ≠ []) : (l.map (boltzmann temp Q l)).sum = 1 := by
  unfold boltzmann
  rw [sum_map_div (partition temp Q l) (fun a => Real.exp (Q a / temp))]
  exact div_self (partition_pos temp Q hl).ne'

/-- C31.  For a well-formed configuration, at a visited node with at least one action, the search policy is a probability
distribution and every action has at least the probability `lambda/|A|` of uniform exploration. -/
theorem c31_is_distribution (hN : 0 < v.visits) (hne : v.actions ≠ []) (w : WellFormed cfg v) (Q : A → ℝ) :
    (∀ a ∈ v.actions, uniformWeight cfg v / v.actions.length ≤ policy cfg (getTemp cfg v) v Q a ∧
      0 ≤ policy cfg (getTemp cfg v) v Q a) ∧
    (v.actions.map (policy cfg (getTemp cfg v) v Q)).sum = 1 := by
  obtain ⟨l0, l1⟩ := uniformWeight_range hN w
  obtain ⟨p0, p1⟩ := priorWeight_range hN w
  have hlen : (0 : ℝ) < v.actions.length := by exact_mod_cast List.length_pos_of_ne_nil hne
  constructor
  · intro a ha
    have hb := (boltzmann_pos (getTemp cfg v) Q hne a).le
    have h1 : 0 ≤ (1 - uniformWeight cfg v) * (1 - priorWeightAt cfg v) * boltzmann (getTemp cfg v) Q v.actions a :=
      mul_nonneg (mul_nonneg (by linarith) (by linarith)) hb
    have h2 : 0 ≤ (1 - uniformWeight cfg v) * priorWeightAt cfg v * priorAt cfg v a := by
      by_cases h : 0 < cfg.priorWeight
      · exact mul_nonneg (mul_nonneg (by linarith) p0) (w.prior0 h a ha)
      · simp [priorWeightAt, h]
    have h3 : 0 ≤ uniformWeight cfg v / v.actions.length := div_nonneg l0 hlen.le
    unfold policy
    rw [mul_one_div]
    constructor <;> linarith
  · unfold policy
    rw [sum_map_add, sum_map_add, sum_map_mul, sum_map_mul, sum_map_const, boltzmann_sum _ _ hne]
    have e : (1 - uniformWeight cfg v) * priorWeightAt cfg v * (v.actions.map (priorAt cfg v)).sum =
        (1 - uniformWeight cfg v) * priorWeightAt cfg v := by
      by_cases h : 0 < cfg.priorWeight
      · rw [w.prior1 h, mul_one]
      · simp [priorWeightAt, h]
    have e' : ∀ l : List A, (l.map fun a => priorAt cfg v a) = l.map (priorAt cfg v) := fun _ => rfl
    rw [e', e]
    field_simp
    ring

theorem filter_mass (l : List (A × ℝ)) (hpos : ∀ p ∈ l, 0 ≤ p.2) :
    mass (l.filter fun p => ¬ p.2 < EPS) ≤ mass l ∧ mass l - l.length * EPS ≤ mass (l.filter fun p => ¬ p.2 < EPS) := by
  have hE : 0 < EPS := by unfold EPS; positivity
  induction l with
  | nil => simp [mass]
  | cons p l ih =>
    obtain ⟨i1, i2⟩ := ih (fun q hq => hpos q (by simp [hq]))
    have h0 := hpos p (by simp)
    have e1 : ∀ (p : A × ℝ) l, mass (p :: l) = p.2 + mass l := fun p l => by simp [mass]
    by_cases h : p.2 < EPS
    · rw [List.filter_cons_of_neg (by simpa using h), e1]
      push_cast [List.length_cons]
      constructor <;> linarith
    · rw [List.filter_cons_of_pos (by simpa using h), e1, e1]
      push_cast [List.length_cons]
      constructor <;> linarith

/-- C31.  After dropping the entries below 1e-16, the entries left are exactly the others, unchanged; they are positive, and
their sum is between `1 - |A|·1e-16` and one. -/
theorem c31_after_dropping (hq : QIs q v Q) (hN : 0 < v.visits) (hne : v.actions ≠ []) (w : WellFormed cfg v) :
    ∃ l, actionDistr cfg q v = .ok l ∧
      (∀ a p, (a, p) ∈ l ↔ a ∈ v.actions ∧ p = policy cfg (getTemp cfg v) v Q a ∧ 1 / 10 ^ 16 ≤ p) ∧
      (∀ p ∈ l, 0 < p.2) ∧ mass l ≤ 1 ∧ 1 - v.actions.length * (1 / 10 ^ 16) ≤ mass l := by
  obtain ⟨h1, h2⟩ := c31_is_distribution hN hne w Q
  have hm : mass (v.actions.map fun a => (a, policy cfg (getTemp cfg v) v Q a)) = 1 := by
    rw [← h2]
    simp [mass, Function.comp_def]
  obtain ⟨f1, f2⟩ := filter_mass (v.actions.map fun a => (a, policy cfg (getTemp cfg v) v Q a)) (by
    intro p hp
    obtain ⟨a, ha, rfl⟩ := List.mem_map.1 hp
    exact (h1 a ha).2)
  refine ⟨_, by rw [actionDistr, fullDistr_eq hq hN w.covers], ?_, ?_, ?_, ?_⟩
  · intro a p
    simp only [List.mem_filter, List.mem_map, Prod.mk.injEq, not_lt, decide_eq_true_eq, EPS]
    constructor
    · rintro ⟨⟨b, hb, rfl, rfl⟩, h⟩
      exact ⟨hb, rfl, h⟩
    · rintro ⟨ha, rfl, h⟩
      exact ⟨⟨a, ha, rfl, rfl⟩, h⟩
  · intro p hp
    have : EPS ≤ p.2 := by simpa using (List.mem_filter.1 hp).2
    have hE : 0 < EPS := by unfold EPS; positivity
    linarith
  · rw [← hm]; exact f1
  · rw [hm, List.length_map] at f2
    exact f2

/-- Two actions, one tried, an epsilon of one half and a uniform prior of weight one. -/
noncomputable def exCfg : Cfg Unit Bool :=
  { temp := 1, priorWeight := 1, epsilon := 1 / 2, rootEpsilon := -1, maxExplore := 1, decay := none, minTemp := 0, scale := 1,
    rootScale := -1, defaultQ := 0, shift := false, offset := 0, threshold := 0, mostVisited := false,
    prior := some fun _ => [(true, 1 / 2), (false, 1 / 2)], low := -1000000 }

noncomputable def exView : View Unit Bool Soft Soft :=
  { state := (), depth := 0, time := 0, opp := true, visits := 1, x := ⟨1, some 3⟩, actions := [false, true],
    kids := [(true, 1, ⟨1, some 5⟩)] }

theorem exWeight : exCfg.priorWeight ≤ Real.log 4 := by
  simp only [exCfg]
  rw [Real.le_log_iff_exp_le (by norm_num)]
  linarith [Real.exp_one_lt_d9]

theorem exWellFormed : WellFormed exCfg exView := by
  refine ⟨by simp [getTemp, exCfg], by norm_num [epsilonAt, exCfg, isRoot], by simp [exCfg], by simp [exCfg], Or.inl exWeight, ?_, ?_, ?_⟩
  · intro _
    exact ⟨_, rfl, by simp [exView, find?]⟩
  · intro _ a _
    cases a <;> simp [priorAt, exCfg, exView, find?]
  · intro _
    simp [priorAt, exCfg, exView, find?]
    norm_num

example : ∃ l, actionDistr exCfg (mentsQ exCfg id exView) exView = .ok l ∧ mass l ≤ 1 := by
  have hq : QIs (mentsQ exCfg id exView) exView (fun a => if a then -5 else Real.log (1 / 2)) := by
    intro a _
    cases a
    · have h1 : ¬ (10 : ℝ) ^ 32 ≤ 2⁻¹ := by norm_num
      have h2 : ((10 : ℝ) ^ 32)⁻¹ < 2⁻¹ := by norm_num
      simp [mentsQ, exView, find?, untriedQ, exCfg, logWeight, logMaxArg, logMinArg, nodeOffset, h1, h2]
    · simp [mentsQ, exView, find?, oppCoeff]
  obtain ⟨l, h1, _, _, h2, _⟩ := c31_after_dropping hq (by simp [exView]) (by simp [exView]) exWellFormed
  exact ⟨l, h1, h2⟩

/-! ## C32 -/

/-- C32.  The soft backup computes `temp * log ∑ exp(Q/temp)` (with the sign of the player to move), whatever the value of the
sentinel the normalisation starts from. -/
theorem c32_log_sum_exp (hq : QIs q v Q) (hne : v.actions ≠ []) (x : Soft) :
    softBackupD cfg q v x = { n := x.n + 1, val := some ((if v.opp then -1 else 1) *
      (getTemp cfg v * Real.log ((v.actions.map fun a => Real.exp (Q a / getTemp cfg v)).sum))) } := by
  unfold softBackupD
  rw [softValue_eq hq hne]
  rfl

/-- C32.  Where the Q-values come from: a tried action has its child's soft value, from the point of view of the player to move;
an untried one the default value, or with a prior the (clamped) logarithm of its prior probability plus the node's offset. -/
theorem c32_q_values (py : Y → Soft) (a : A) :
    (∀ n y soft, find? a v.kids = some (n, y) → (py y).val = some soft → mentsQ cfg py v a = .ok ((if v.opp then -1 else 1) * soft)) ∧
    (find? a v.kids = none → cfg.prior = none → mentsQ cfg py v a = .ok ((if v.opp then -1 else 1) * cfg.defaultQ)) ∧
    (∀ f w, find? a v.kids = none → cfg.prior = some f → find? a (f v.state) = some w →
      mentsQ cfg py v a = .ok (logWeight w + nodeOffset cfg v.state)) := by
  refine ⟨?_, ?_, ?_⟩
  · intro n y soft h1 h2
    simp only [mentsQ, h1, h2, oppCoeff]
    rw [mul_comm]
  · intro h1 h2
    simp only [mentsQ, h1, untriedQ, h2, oppCoeff]
    rw [mul_comm]
  · intro f w h1 h2 h3
    simp only [mentsQ, h1, untriedQ, h2, h3]

theorem exp_le_partition (temp : ℝ) (Q : A → ℝ) {l : List A} {a : A} (ha : a ∈ l) : Real.exp (Q a / temp) ≤ partition temp Q l :=
  List.single_le_sum (by intro x hx; obtain ⟨b, _, rfl⟩ := List.mem_map.1 hx; positivity) _ (List.mem_map.2 ⟨a, ha, rfl⟩)

/-- C32.  The soft value, from the point of view of the player to move, lies between the best Q-value and the best Q-value plus
`temp * log |A|`. -/
theorem c32_bounds (hq : QIs q v Q) (hne : v.actions ≠ []) (ht : 0 < getTemp cfg v) (x : Soft) {M : ℝ}
    (hM : IsGreatest {y | ∃ a ∈ v.actions, y = Q a} M) :
    ∃ s, (softBackupD cfg q v x).val = some s ∧ M ≤ (if v.opp then -1 else 1) * s ∧
      (if v.opp then -1 else 1) * s ≤ M + getTemp cfg v * Real.log v.actions.length := by
  rw [c32_log_sum_exp hq hne]
  refine ⟨_, rfl, ?_⟩
  have e : (if v.opp then (-1 : ℝ) else 1) * ((if v.opp then -1 else 1) *
      (getTemp cfg v * Real.log ((v.actions.map fun a => Real.exp (Q a / getTemp cfg v)).sum))) =
      getTemp cfg v * Real.log (partition (getTemp cfg v) Q v.actions) := by
    unfold partition
    split <;> ring
  rw [e]
  obtain ⟨⟨a, ha, rfl⟩, hmax⟩ := hM
  have hpos := partition_pos (getTemp cfg v) Q hne
  constructor
  · have h1 : Q a / getTemp cfg v ≤ Real.log (partition (getTemp cfg v) Q v.actions) := by
      rw [Real.le_log_iff_exp_le hpos]
      exact exp_le_partition _ _ ha
    have := mul_le_mul_of_nonneg_left h1 ht.le
    rwa [mul_div_cancel₀ _ ht.ne'] at this
  · have hn : (0 : ℝ) < v.actions.length := by exact_mod_cast List.length_pos_of_ne_nil hne
    have h1 : partition (getTemp cfg v) Q v.actions ≤ v.actions.length * Real.exp (Q a / getTemp cfg v) := by
      rw [← sum_map_const (l := v.actions)]
      unfold partition
      refine List.sum_le_sum ?_
      intro b hb
      exact Real.exp_le_exp.2 (div_le_div_of_nonneg_right (hmax ⟨b, hb, rfl⟩) ht.le)
    have h2 := Real.log_le_log hpos h1
    rw [Real.log_mul hn.ne' (Real.exp_pos _).ne', Real.log_exp] at h2
    have := mul_le_mul_of_nonneg_left h2 ht.le
    rw [mul_add, mul_div_cancel₀ _ ht.ne'] at this
    linarith

/-- C32.  Numerical stability: if some value is above the sentinel, all exponentials taken are at most one, and their sum lies
between one and the number of actions. -/
theorem c32_stable (hlow : ∃ a ∈ v.actions, cfg.low ≤ Q a / getTemp cfg v) :
    (∀ p ∈ (weights cfg.low (getTemp cfg v) (v.actions.map fun a => (a, Q a))).1, 0 < p.2 ∧ p.2 ≤ 1) ∧
    1 ≤ (weights cfg.low (getTemp cfg v) (v.actions.map fun a => (a, Q a))).2.1 ∧
    (weights cfg.low (getTemp cfg v) (v.actions.map fun a => (a, Q a))).2.1 ≤ v.actions.length := by
  obtain ⟨h1, h2⟩ := normTerm_ge (getTemp cfg v) (v.actions.map fun a => (a, Q a)) cfg.low
  have h3 := normTerm_mem (getTemp cfg v) (v.actions.map fun a => (a, Q a)) cfg.low
  rw [weights_sum]
  simp only [weights, List.map_map, Function.comp_def]
  generalize normTerm (getTemp cfg v) (v.actions.map fun a => (a, Q a)) cfg.low = n at *
  have hle : ∀ a ∈ v.actions, Real.exp (Q a / getTemp cfg v - n) ≤ 1 := by
    intro a ha
    rw [Real.exp_le_one_iff]
    have := h2 (a, Q a) (List.mem_map.2 ⟨a, ha, rfl⟩)
    dsimp only at this
    linarith
  have hex : ∃ a ∈ v.actions, Q a / getTemp cfg v = n := by
    rcases h3 with h3 | ⟨p, hp, h3⟩
    · obtain ⟨a, ha, hl⟩ := hlow
      have := h2 (a, Q a) (List.mem_map.2 ⟨a, ha, rfl⟩)
      dsimp only at this
      exact ⟨a, ha, by linarith⟩
    · obtain ⟨a, ha, rfl⟩ := List.mem_map.1 hp
      exact ⟨a, ha, h3.symm⟩
  refine ⟨?_, ?_, ?_⟩
  · intro p hp
    obtain ⟨a, ha, rfl⟩ := List.mem_map.1 hp
    exact ⟨Real.exp_pos _, hle a ha⟩
  · obtain ⟨a, ha, hn⟩ := hex
    have : Real.exp (Q a / getTemp cfg v - n) ≤ (v.actions.map fun a => Real.exp (Q a / getTemp cfg v - n)).sum :=
      List.single_le_sum (by intro x hx; obtain ⟨b, _, rfl⟩ := List.mem_map.1 hx; positivity) _ (List.mem_map.2 ⟨a, ha, rfl⟩)
    rw [hn, sub_self, Real.exp_zero] at this
    exact this
  · have := List.sum_le_sum (l := v.actions) (f := fun a => Real.exp (Q a / getTemp cfg v - n)) (g := fun _ => 1) hle
    rw [sum_map_const] at this
    linarith

end Verif.Ments
