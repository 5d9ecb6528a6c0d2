import Verif.Props.DentsEnt
import Verif.Props.Entropy
import Verif.Proofs.FpSearchDp

/-!
# The entropy bonus of DENTS: C100

The Q-value that DENTS uses for a tried action is the value estimate plus the value temperature times the entropy of the child
(dents_decision_node.cpp:88-101).
-/

namespace Verif.Dents

open Verif.Search Verif.Backups Verif.Ments Filter

set_option linter.unusedSimpArgs false
set_option linter.unusedSectionVars false

variable {S A : Type} [DecidableEq S] [DecidableEq A]
  {env : Env S A ℝ} {m : Manager S ℝ} {lr : S → A → ℝ} {cfg : DCfg S A} {eps : ℝ}
  {k : Nat} {s0 : S} {dp tm : Int} {tb : List ((Int × S) × Option Nat)} {h : List (Event S A ℝ)} {st : St S A ℝ DX DY} {B : Nat}

theorem weights_sum_exp (low temp : ℝ) (Q : A → ℝ) (l : List A) :
    (weights low temp (l.map fun a => (a, Q a))).2.1 =
      (l.map fun a => Real.exp (Q a / temp - (weights low temp (l.map fun a => (a, Q a))).2.2)).sum := by
  have h := weights_partition low temp Q l
  generalize (weights low temp (l.map fun a => (a, Q a))).2.1 = s at *
  generalize (weights low temp (l.map fun a => (a, Q a))).2.2 = n at *
  have e : (l.map fun a => Real.exp (Q a / temp - n)) = l.map fun a => Real.exp (Q a / temp) / Real.exp n := by
    simp [Real.exp_sub]
  rw [e, sum_map_div, eq_div_iff (Real.exp_pos n).ne', h]
  rfl

/-- The policy of a node, visited or not, before small entries are dropped, is a distribution over the valid actions. -/
theorem policy_any {X Y : Type} {c : Cfg S A} {v : View S A X Y} {q : A → Except Bad ℝ} {Q : A → ℝ} (G : GoodCfg c env)
    (hv : v.actions = env.actions v.state) (hq : QIs q v Q) (he : 0 < c.epsilon) (hw : c.priorWeight ≤ Real.log 3) (hne : v.actions ≠ []) :
    ∃ p : A → ℝ, fullDistr c q v = .ok (v.actions.map fun a => (a, p a)) ∧ (∀ a ∈ v.actions, 0 ≤ p a) ∧ (v.actions.map p).sum = 1 := by
  have W := goodCfg_wellFormed G hv
  have hlam : ∃ lam, lambda c v = .ok lam ∧ 0 ≤ lam ∧ lam ≤ 1 := by
    by_cases h0 : v.visits = 0
    · have hp := epsilonAt_pos he v
      unfold epsilonAt at hp
      refine ⟨c.maxExplore, ?_, G.max0, G.max1⟩
      unfold lambda isRoot
      simp only [h0, if_true, decide_eq_true_eq, gt_iff_lt]
      rw [if_pos hp]
    · have hN : 0 < v.visits := by omega
      exact ⟨_, lambda_visited hN, (uniformWeight_range hN W).1, (uniformWeight_range hN W).2⟩
  obtain ⟨lam, hl, l0, l1⟩ := hlam
  have hpw : 0 ≤ priorWeightAt c v ∧ priorWeightAt c v ≤ 1 := by
    unfold priorWeightAt
    split
    · next h =>
      have h1 : Real.log 3 ≤ Real.log (v.visits + 3) := Real.log_le_log (by norm_num) (by
        have : (0 : ℝ) ≤ v.visits := Nat.cast_nonneg _
        linarith)
      have h2 : 0 < Real.log (v.visits + 3) := by linarith
      exact ⟨(div_pos h h2).le, (div_le_one h2).2 (by linarith)⟩
    · simp
  obtain ⟨p0, p1⟩ := hpw
  have hlen : (0 : ℝ) < v.actions.length := by exact_mod_cast List.length_pos_of_ne_nil hne
  have hws := weights_sum_exp c.low (getTemp c v) Q v.actions
  have hfd : fullDistr c q v = .ok (v.actions.map fun a => (a,
      Real.exp (Q a / getTemp c v - (weights c.low (getTemp c v) (v.actions.map fun a => (a, Q a))).2.2) *
        ((1 - lam) / (weights c.low (getTemp c v) (v.actions.map fun a => (a, Q a))).2.1) * (1 - priorWeightAt c v) +
      (1 - lam) * priorWeightAt c v * priorAt c v a + lam * (1 / (v.actions.length : ℝ)))) := by
    unfold fullDistr
    rw [qList_eq hq, hl]
    have hwt : (weights c.low (getTemp c v) (v.actions.map fun a => (a, Q a))).1 =
        v.actions.map fun a => (a, Real.exp (Q a / getTemp c v - (weights c.low (getTemp c v) (v.actions.map fun a => (a, Q a))).2.2)) := by
      simp [weights, Function.comp_def]
    dsimp only
    rw [hwt, interpolateAll_eq W.covers _ _ _ _ (fun a ha => ha)]
  generalize (weights c.low (getTemp c v) (v.actions.map fun a => (a, Q a))).2.1 = s at *
  generalize (weights c.low (getTemp c v) (v.actions.map fun a => (a, Q a))).2.2 = n at *
  have hs : 0 < s := by
    rw [hws]
    refine List.sum_pos _ ?_ (by simpa using hne)
    intro x hx
    obtain ⟨a, _, rfl⟩ := List.mem_map.1 hx
    exact Real.exp_pos _
  refine ⟨_, hfd, ?_, ?_⟩
  · intro a ha
    have h1 : 0 ≤ Real.exp (Q a / getTemp c v - n) * ((1 - lam) / s) * (1 - priorWeightAt c v) :=
      mul_nonneg (mul_nonneg (Real.exp_pos _).le (div_nonneg (by linarith) hs.le)) (by linarith)
    have h2 : 0 ≤ (1 - lam) * priorWeightAt c v * priorAt c v a := by
      by_cases h : 0 < c.priorWeight
      · exact mul_nonneg (mul_nonneg (by linarith) p0) (W.prior0 h a ha)
      · simp [priorWeightAt, h]
    have h3 : 0 ≤ lam * (1 / (v.actions.length : ℝ)) := mul_nonneg l0 (by positivity)
    linarith
  · have e1 : (v.actions.map fun a => Real.exp (Q a / getTemp c v - n) * ((1 - lam) / s) * (1 - priorWeightAt c v) +
        (1 - lam) * priorWeightAt c v * priorAt c v a + lam * (1 / (v.actions.length : ℝ))).sum =
        (v.actions.map fun a => ((1 - lam) / s * (1 - priorWeightAt c v)) * Real.exp (Q a / getTemp c v - n)).sum +
        (v.actions.map fun a => (1 - lam) * priorWeightAt c v * priorAt c v a).sum + (v.actions.map fun _ => lam * (1 / (v.actions.length : ℝ))).sum := by
      rw [← sum_map_add, ← sum_map_add]
      congr 1
      apply List.map_congr_left
      intro a _
      ring
    rw [e1, sum_map_mul, sum_map_mul, sum_map_const, ← hws]
    have e : (1 - lam) * priorWeightAt c v * (v.actions.map (priorAt c v)).sum = (1 - lam) * priorWeightAt c v := by
      by_cases h : 0 < c.priorWeight
      · rw [W.prior1 h, mul_one]
      · simp [priorWeightAt, h]
    have e' : (v.actions.map fun a => priorAt c v a) = v.actions.map (priorAt c v) := rfl
    rw [e', e]
    field_simp
    ring

theorem entropy_filter (l : List (A × ℝ)) (f : A × ℝ → Bool) (h : ∀ q ∈ l, 0 ≤ q.2 ∧ q.2 ≤ 1) : entropy (l.filter f) ≤ entropy l := by
  induction l with
  | nil => simp
  | cons q l ih =>
    have i := ih fun p hp => h p (by simp [hp])
    obtain ⟨h0, h1⟩ := h q (by simp)
    have hq : 0 ≤ -(q.2 * Real.log q.2) := by
      have := Real.log_nonpos h0 h1
      nlinarith
    have e : ∀ (p : A × ℝ) l, entropy (p :: l) = -(p.2 * Real.log p.2) + entropy l := fun p l => by simp [entropy]
    rw [List.filter_cons]
    split
    · rw [e, e]; linarith
    · rw [e]; linarith

theorem find?_drop (l : List A) (p : A → ℝ) (f : A × ℝ → Bool) (hp : ∀ a ∈ l, 0 ≤ p a) (a : A) (ha : a ∈ l) :
    0 ≤ (find? a ((l.map fun a => (a, p a)).filter f)).getD 0 ∧ (find? a ((l.map fun a => (a, p a)).filter f)).getD 0 ≤ p a := by
  have h0 := hp a ha
  cases hx : find? a ((l.map fun a => (a, p a)).filter f) with
  | none => simpa using h0
  | some x =>
    have := (List.mem_filter.1 (find?_mem' hx)).1
    obtain ⟨b, _, hb⟩ := List.mem_map.1 this
    simp only [Prod.mk.injEq] at hb
    obtain ⟨rfl, rfl⟩ := hb
    simpa using h0

/-- The entropy computed by a backup with a policy over at most `B` actions, whose children's entropies are at most `b`. -/
theorem entBackup_bound {acts : List A} {p : A → ℝ} (h0 : ∀ a ∈ acts, 0 ≤ p a) (h1 : (acts.map p).sum = 1) (hB : acts.length ≤ B) (f : A × ℝ → Bool)
    (opp : Bool) {kids : List (A × EntC)} (hnd : (kids.map Prod.fst).Nodup) (hk : ∀ q ∈ kids, q.1 ∈ acts) {b : ℝ} (hb : ∀ q ∈ kids, |q.2.sub| ≤ b)
    (hb0 : 0 ≤ b) (x : EntD) :
    |(entBackupD opp ((acts.map fun a => (a, p a)).filter f) kids x).sub| ≤ Real.log B + b ∧
    (opp = false → (∀ q ∈ kids, 0 ≤ q.2.sub) → 0 ≤ (entBackupD opp ((acts.map fun a => (a, p a)).filter f) kids x).sub) := by
  have hle : ∀ a ∈ acts, p a ≤ 1 := by
    intro a ha
    rw [← h1]
    exact List.single_le_sum (by intro y hy; obtain ⟨r, hr, rfl⟩ := List.mem_map.1 hy; exact h0 r hr) _ (List.mem_map_of_mem ha)
  have hin : ∀ q ∈ acts.map fun a => (a, p a), 0 ≤ q.2 ∧ q.2 ≤ 1 := by
    intro q hq
    obtain ⟨a, ha, rfl⟩ := List.mem_map.1 hq
    exact ⟨h0 a ha, hle a ha⟩
  have hup := c41_entropy_range (acts.map fun a => (a, p a)) B (by simpa using hB) (fun q hq => (hin q hq).1)
    (by simpa [Spec.mass, Function.comp_def] using h1)
  have hfl := entropy_filter (acts.map fun a => (a, p a)) f hin
  have hlo := c41_entropy_nonneg ((acts.map fun a => (a, p a)).filter f) fun q hq => hin q (List.mem_filter.1 hq).1
  have hsub : (entBackupD opp ((acts.map fun a => (a, p a)).filter f) kids x).sub =
      oppCoeff opp * entropy ((acts.map fun a => (a, p a)).filter f) +
        (kids.map fun q => (find? q.1 ((acts.map fun a => (a, p a)).filter f)).getD 0 * q.2.sub).sum := by
    simp only [entBackupD, subtreeLoop_eq, localEntropy_acc, zero_add]
  have hsum : |(kids.map fun q => (find? q.1 ((acts.map fun a => (a, p a)).filter f)).getD 0 * q.2.sub).sum| ≤ b := by
    have s1 : |(kids.map fun q => (find? q.1 ((acts.map fun a => (a, p a)).filter f)).getD 0 * q.2.sub).sum| ≤ (kids.map fun q => p q.1 * b).sum := by
      clear hsub hnd
      induction kids with
      | nil => simp
      | cons q ks ih =>
        have i := ih (fun q hq => hk q (by simp [hq])) (fun q hq => hb q (by simp [hq]))
        simp only [List.map_cons, List.sum_cons]
        obtain ⟨w0, w1⟩ := find?_drop acts p f h0 q.1 (hk q (by simp))
        have hq := hb q (by simp)
        refine le_trans (abs_add_le _ _) (add_le_add ?_ i)
        rw [abs_mul, abs_of_nonneg w0]
        exact mul_le_mul w1 hq (abs_nonneg _) (le_trans w0 w1)
    have s2 : (kids.map fun q => p q.1 * b).sum = b * ((kids.map Prod.fst).map p).sum := by
      clear * -
      induction kids with
      | nil => simp
      | cons q ks ih => simp only [List.map_cons, List.sum_cons, ih]; ring
    have s3 : ((kids.map Prod.fst).map p).sum ≤ 1 := by
      obtain ⟨l', hl', hs'⟩ := List.subperm_of_subset hnd (fun a ha => by
        obtain ⟨q, hq, rfl⟩ := List.mem_map.1 ha
        exact hk q hq)
      rw [← h1, ← (hl'.map p).sum_eq]
      refine (hs'.map p).sum_le_sum ?_
      intro y hy
      obtain ⟨a, ha, rfl⟩ := List.mem_map.1 hy
      exact h0 a ha
    rw [s2] at s1
    nlinarith
  constructor
  · rw [hsub]
    refine le_trans (abs_add_le _ _) (add_le_add ?_ hsum)
    rw [abs_mul, abs_of_nonneg hlo]
    have : |oppCoeff opp| = (1 : ℝ) := by cases opp <;> simp [oppCoeff]
    rw [this, one_mul]
    linarith [hup.2]
  · rintro rfl hpos
    rw [hsub]
    have : (0 : ℝ) ≤ (kids.map fun q => (find? q.1 ((acts.map fun a => (a, p a)).filter f)).getD 0 * q.2.sub).sum := by
      refine List.sum_nonneg ?_
      intro y hy
      obtain ⟨q, hq, rfl⟩ := List.mem_map.1 hy
      exact mul_nonneg (find?_drop acts p f h0 q.1 (hk q hq)).1 (hpos q hq)
    simp only [oppCoeff]
    simp
    linarith

/-- The policy of a node of a DENTS search: at most `B` entries of a distribution over the valid actions. -/
theorem entD_bound {X Y : Type} {c : Cfg S A} {v : View S A X Y} {q : A → Except Bad ℝ} {Q : A → ℝ} (G : GoodCfg c env)
    (hv : v.actions = env.actions v.state) (hq : QIs q v Q) (he : 0 < c.epsilon) (hw : c.priorWeight ≤ Real.log 3) (hB : v.actions.length ≤ B)
    {pos : Prop} (opp : Bool) (hpos : pos → opp = false) {kids : List (A × EntCO)} (hnd : (kids.map Prod.fst).Nodup) (hk : ∀ q ∈ kids, q.1 ∈ v.actions) {b : ℝ}
    (hb : ∀ q ∈ kids, ∃ H, q.2.sub = some H ∧ |H| ≤ b ∧ (pos → 0 ≤ H)) (hb0 : 0 ≤ b) (x : EntDO) :
    ∃ H, (entD opp (actionDistr c q v) kids x).sub = some H ∧ |H| ≤ Real.log B + b ∧ (pos → 0 ≤ H) := by
  have hfin : ∃ l, finiteEntC kids = some l ∧ (∀ q ∈ l, |q.2.sub| ≤ b) ∧ (pos → ∀ q ∈ l, 0 ≤ q.2.sub) ∧ l.map Prod.fst = kids.map Prod.fst := by
    clear hnd hk
    induction kids with
    | nil => exact ⟨[], rfl, by simp, by simp, rfl⟩
    | cons q ks ih =>
      obtain ⟨l, i1, i2, i3, i4⟩ := ih fun q hq => hb q (by simp [hq])
      obtain ⟨H, e1, e2, e3⟩ := hb q (by simp)
      obtain ⟨a, y⟩ := q
      refine ⟨(a, { n := y.n, sub := H }) :: l, by simp only at e1; simp [finiteEntC, i1, e1], ?_, ?_, by simp [i4]⟩
      · intro q hq
        rcases List.mem_cons.1 hq with rfl | hq
        · exact e2
        · exact i2 q hq
      · intro ho q hq
        rcases List.mem_cons.1 hq with rfl | hq
        · exact e3 ho
        · exact i3 ho q hq
  obtain ⟨l, h1, h2, h3, h4⟩ := hfin
  by_cases hne : v.actions = []
  · have hks : kids = [] := by
      rcases kids with _ | ⟨q, ks⟩
      · rfl
      · have := hk q (by simp)
        rw [hne] at this
        simp at this
    subst hks
    have hd : actionDistr c q v = .ok [] := by
      unfold actionDistr fullDistr
      rw [hne]
      cases lambda c v <;> simp [qList, weights, interpolateAll]
    rw [hd]
    refine ⟨0, by simp [entD, finiteEntC, entBackupD, localEntropy, subtreeLoop], ?_, fun _ => le_rfl⟩
    have : 0 ≤ Real.log (B : ℝ) := Real.log_natCast_nonneg B
    rw [abs_zero]
    linarith
  · obtain ⟨p, p1, p2, p3⟩ := policy_any G hv hq he hw hne
    have hd : actionDistr c q v = .ok ((v.actions.map fun a => (a, p a)).filter fun p => ¬ p.2 < EPS) := by
      unfold actionDistr
      rw [p1]
    obtain ⟨b1, b2⟩ := entBackup_bound (B := B) p2 p3 hB (fun p => ¬ p.2 < EPS) opp (kids := l) (by rw [h4]; exact hnd)
      (by
        intro q hq
        have : q.1 ∈ kids.map Prod.fst := by rw [← h4]; exact List.mem_map_of_mem hq
        obtain ⟨q', hq', e⟩ := List.mem_map.1 this
        rw [← e]
        exact hk q' hq') h2 hb0 { n := x.n, loc := 0, sub := 0 }
    refine ⟨_, by rw [hd]; simp only [entD, h1], b1, fun ho => b2 (hpos ho) (h3 ho)⟩

/-- How large the entropy of a node at depth `d` can be. -/
noncomputable def entBound (m : Manager S ℝ) (B : Nat) (d : Int) : ℝ := (remaining m d + 1) * Real.log B

theorem entBound_nonneg (d : Int) : 0 ≤ entBound m B d :=
  mul_nonneg (by positivity) (Real.log_natCast_nonneg B)

theorem ent_local (G : GoodCfg cfg.toCfg env) (he : 0 < cfg.epsilon) (hw : cfg.priorWeight ≤ Real.log 3) (hB : ∀ s, (env.actions s).length ≤ B) :
    LocalInvG env m (dents eps cfg env m lr) (fun x => ∃ r, estimate cfg x.dp x.emp = some r)
      (fun y => (∃ r, estimate cfg y.dp y.emp = some r))
      (fun v _ => (∃ k, k ∈ v.kids) → v.depth < m.maxDepth)
      (fun _ d _ x => (∃ r, x.ent.loc = some r) ∧ ∃ H, x.ent.sub = some H ∧ |H| ≤ entBound m B d ∧ (m.twoPlayer = false → 0 ≤ H))
      (fun _ _ d _ y => ∃ H, y.ent.sub = some H ∧ |H| ≤ entBound m B (d + 1) ∧ (m.twoPlayer = false → 0 ≤ H)) where
  initD s d t := by
    show _ ∧ _
    have hl := (dents_local (env := env) m eps G.total G.some he lr).initD s d t
    refine ⟨hl.1, ?_⟩
    simp only [dents, dentsInitD]
    set v : View S A DX DY := newView env m s d t _
    obtain ⟨Q, hQ⟩ := dentsQ_total (cfg := cfg) G.total (v := v) rfl (by simp [v, newView])
    obtain ⟨H, e1, e2, e3⟩ := entD_bound (B := B) G (v := v) rfl hQ he hw (hB s) (pos := m.twoPlayer = false) v.opp (by intro h2; simp [v, newView, isOpponent, h2]) (kids := []) (by simp) (by simp) (b := 0) (by simp) le_rfl
      { n := 0, loc := some 0, sub := some 0 }
    refine ⟨H, e1, ?_, ?_⟩
    · have : 0 ≤ (remaining m d : ℝ) * Real.log B := mul_nonneg (by positivity) (Real.log_natCast_nonneg B)
      unfold entBound
      linarith
    · exact e3
  initC s a d t _ := ⟨0, rfl, by rw [abs_zero]; exact entBound_nonneg _, fun _ => le_rfl⟩
  visitD b s d t x h := h
  visitC s a d t y h := h
  backupD v ctx args h1 h2 h3 h4 h5 h6 h7 h8 h9 h10 := by
    have hQ' : ∀ k ∈ v.kids, (∃ r, estimate cfg k.2.2.dp k.2.2.emp = some r) ∧ ∃ r, k.2.2.ent.sub = some r := by
      intro k hk
      obtain ⟨H, e, _⟩ := h10 k hk
      exact ⟨h7 k hk, H, e⟩
    obtain ⟨Q, hQ⟩ := dentsQ_total (cfg := cfg) G.total h1 hQ'
    have hdep := h8 h3
    simp only [dents, dentsBackupD]
    have hcov : PriorCovers cfg.toCfg v := (goodCfg_wellFormed G h1).covers
    refine ⟨(entD_total _ (actionDistr_total hQ hcov (fun _ => epsilonAt_pos he v)) ?_).1, ?_⟩
    · intro p hp
      obtain ⟨k, hk, rfl⟩ := List.mem_map.1 hp
      exact (hQ' k hk).2
    · obtain ⟨H, e1, e2, e3⟩ := entD_bound (B := B) G h1 hQ he hw (by rw [h1]; exact hB _) (pos := m.twoPlayer = false) v.opp
        (by intro h; rw [h2]; simp [isOpponent, h]) (kids := v.kids.map fun k => (k.1, k.2.2.ent)) (by simpa [Function.comp_def] using h4)
        (by intro q hq; obtain ⟨k, hk, rfl⟩ := List.mem_map.1 hq; exact h5 k hk) (b := entBound m B (v.depth + 1))
        (by intro q hq; obtain ⟨k, hk, rfl⟩ := List.mem_map.1 hq; exact h10 k hk) (entBound_nonneg _) v.x.ent
      refine ⟨H, e1, le_trans e2 (le_of_eq ?_), e3⟩
      have hrem : remaining m v.depth = remaining m (v.depth + 1) + 1 := by unfold remaining; omega
      unfold entBound
      rw [hrem]
      push_cast
      ring
  backupC s a d t y kids args h1 h2 h3 h4 := by
    simp only [dents, dentsBackupC]
    unfold entC
    rw [finiteEntD_map (kids.map fun k => k.2.ent) (by
      intro p hp
      obtain ⟨k, hk, rfl⟩ := List.mem_map.1 hp
      obtain ⟨H, e, _⟩ := (h4 k hk).2.2
      exact ⟨(h4 k hk).2.1, H, e⟩)]
    refine ⟨_, rfl, ?_, ?_⟩
    · simp only [entBackupC, meanLoop_eq]
      refine wmean_abs (entBound_nonneg _) ?_
      intro p hp
      simp only [List.map_map, List.mem_map, Function.comp] at hp
      obtain ⟨k, hk, rfl⟩ := hp
      obtain ⟨H, e, e2, _⟩ := (h4 k hk).2.2
      simpa [e] using e2
    · intro h2p
      refine c41_single_player_nonneg_chance _ ?_ _
      intro p hp
      simp only [List.map_map, List.mem_map, Function.comp] at hp
      obtain ⟨k, hk, rfl⟩ := hp
      obtain ⟨H, e, _, e3⟩ := (h4 k hk).2.2
      simpa [e] using e3 h2p

/-- C100.  In every state of a DENTS search with a positive epsilon the entropy of a decision node is at most `log B` for every move that
can be made from it and once more, in absolute value; the entropy of a chance node is at most that of its children; in a game of one
player they are not negative. -/
theorem c100_entropy_bounded (G : GoodCfg cfg.toCfg env) (he : 0 < cfg.epsilon) (hw : cfg.priorWeight ≤ Real.log 3)
    (hB : ∀ s, (env.actions s).length ≤ B) (htb : Leftover tb) (hr : Reachable env m (dents eps cfg env m lr) k s0 dp tm tb st h) :
    (∀ (d : Nat) nd, st.dn[d]? = some nd → ∃ H, nd.x.ent.sub = some H ∧ |H| ≤ (remaining m nd.depth + 1) * Real.log B ∧
      (m.twoPlayer = false → 0 ≤ H)) ∧
    (∀ (c : Nat) nc, st.cn[c]? = some nc → ∃ H, nc.y.ent.sub = some H ∧ |H| ≤ remaining m nc.depth * Real.log B ∧
      (m.twoPlayer = false → 0 ≤ H)) := by
  have V := dents_valid eps cfg env m lr
  obtain ⟨I, L⟩ := local_reach_given (ent_local (lr := lr) (eps := eps) (m := m) G he hw hB) V htb (fun st h hr => by
    obtain ⟨f1, f2⟩ := dents_finite G.total G.some he htb hr
    have I := reach_inv V htb hr
    refine ⟨fun d nd hd => (f1 d nd hd).1, fun c nc hc => (f2 c nc hc).1, ?_⟩
    intro w d _ _ _ _ _ nd _ hd ⟨k, hk⟩
    obtain ⟨c, nc, q1, _, _⟩ := mem_kidsY.1 hk
    by_contra hlt
    have hl : isLeaf env m nd = true := by
      have : m.maxDepth ≤ nd.depth := not_lt.1 hlt
      simp [isLeaf, this]
    rw [isLeaf_skel] at hl
    have hkn : nd.kids = [] := I.tree.heap.dLeaf d nd.skel (by simp [hd]) hl
    rw [hkn] at q1
    simp at q1) hr
  refine ⟨fun d nd hd => (L.d d nd hd).2, ?_⟩
  intro c nc hc
  obtain ⟨H, e1, e2, e3⟩ := L.c c nc hc
  refine ⟨H, e1, le_trans e2 (le_of_eq ?_), e3⟩
  obtain ⟨i, nd, hd, hk⟩ := I.tree.heap.cPar c nc.skel (by simp [hc])
  obtain ⟨n, g1, _, _, g2, _⟩ := I.tree.heap.dKid i nd _ c hd hk
  simp [hc] at g1
  subst g1
  have hlt : nd.depth < m.maxDepth := by
    by_contra hge
    have hl : leafS env m nd = true := by
      have : m.maxDepth ≤ nd.depth := not_lt.1 hge
      simp [leafS, this]
    have hkn := I.tree.heap.dLeaf i nd hd hl
    rw [hkn] at hk
    simp at hk
  have g2' : nc.depth = nd.depth := g2
  have hrem : remaining m nc.depth = remaining m (nc.depth + 1) + 1 := by unfold remaining; omega
  unfold entBound
  rw [hrem]
  push_cast
  ring

/-- C100.  So the Q-value that DENTS uses for an action with a child differs from the value estimate of the child by at most the value
temperature times that bound; in a game of one player it is never below. -/
theorem c100_bonus_bounded (G : GoodCfg cfg.toCfg env) (he : 0 < cfg.epsilon) (hw : cfg.priorWeight ≤ Real.log 3)
    (hB : ∀ s, (env.actions s).length ≤ B) (htb : Leftover tb) (hr : Reachable env m (dents eps cfg env m lr) k s0 dp tm tb st h)
    {d c : Nat} {nd : DNode S A ℝ DX} {nc : CNode S A ℝ DY} {a : A} (hd : st.dn[d]? = some nd) (hc : childC st d a = some c) (hn : st.cn[c]? = some nc)
    (ht : ∀ n, 0 ≤ valueTempD cfg nd.depth n) (vis : Nat) :
    ∃ V q, (if cfg.useDp then nc.y.dp.val = some V else nc.y.emp.avg = V) ∧
      dentsQ cfg (viewOf env m st { nd with visits := vis }) a = .ok q ∧
      |q - (if isOpponent m nd.time then -1 else 1) * V| ≤ valueTempD cfg nd.depth vis * (remaining m nd.depth * Real.log B) ∧
      (m.twoPlayer = false → V ≤ q) := by
  obtain ⟨_, hC⟩ := c100_entropy_bounded G he hw hB htb hr
  have I := reach_inv (dents_valid eps cfg env m lr) htb hr
  obtain ⟨_, F⟩ := dents_finite G.total G.some he htb hr
  obtain ⟨⟨V, hV⟩, _⟩ := F c nc hn
  obtain ⟨H, e1, e2, e3⟩ := hC c nc hn
  obtain ⟨nd', nc', k1, k2, k3, _, _, k4, _⟩ := childC_facts I.tree hc
  rw [hd] at k1
  obtain rfl := Option.some.inj k1
  rw [hn] at k2
  obtain rfl := Option.some.inj k2
  have hV' : if cfg.useDp then nc.y.dp.val = some V else nc.y.emp.avg = V := by
    unfold estimate at hV
    split at hV
    · next h => rw [if_pos h]; exact hV
    · next h => rw [if_neg h]; exact Option.some.inj hV
  have hk : find? a (viewOf env m st { nd with visits := vis }).kids = some (nc.visits, nc.y) := by
    have h1 : find? a nd.kids = some c := by
      simpa [childC, hd] using hc
    have h2 := find?_kidsY I.tree hd (nd' := { nd with visits := vis }) rfl a
    rw [h1] at h2
    show find? a (kidsY st { nd with visits := vis }) = _
    simpa [hn] using h2
  have hq := c42_dents_tried (cfg := cfg) (v := viewOf env m st { nd with visits := vis }) hk hV' e1
  refine ⟨V, _, hV', hq, ?_, ?_⟩
  · have h0 := ht vis
    have hdep : nc.depth = nd.depth := k4
    rw [hdep] at e2
    have h1 : |valueTempD cfg nd.depth vis * H| ≤ valueTempD cfg nd.depth vis * (remaining m nd.depth * Real.log B) := by
      rw [abs_mul, abs_of_nonneg h0]
      exact mul_le_mul_of_nonneg_left e2 h0
    refine le_trans (le_of_eq ?_) h1
    show |(if isOpponent m nd.time then -1 else 1) * (V + valueTempD cfg nd.depth vis * H) - (if isOpponent m nd.time then -1 else 1) * V| = _
    by_cases ho : isOpponent m nd.time = true
    · rw [if_pos ho, ← abs_neg]
      congr 1
      ring
    · rw [if_neg ho]
      congr 1
      ring
  · intro h2p
    have ho : (viewOf env m st { nd with visits := vis }).opp = false := by simp [viewOf, isOpponent, h2p]
    rw [ho]
    have := mul_nonneg (ht vis) (e3 h2p)
    simp only [viewOf]
    simp
    exact this

/-- C100.  With a decaying value temperature the bonus fades: there is a number of visits from which on every Q-value that DENTS uses for an
action with a child is as close to the value estimate as the minimal value temperature times the bound on the entropy. -/
theorem c100_fades {f : ℝ → ℝ} (hf : Decay.ValidDecay f) (hdec : cfg.valueDecay = some f) (hi : 0 ≤ cfg.valueInit) (hs : 0 < cfg.valueScale)
    (hmin : 0 < cfg.valueMin) (G : GoodCfg cfg.toCfg env) (he : 0 < cfg.epsilon) (hw : cfg.priorWeight ≤ Real.log 3)
    (hB : ∀ s, (env.actions s).length ≤ B) :
    ∃ n0 : Nat, ∀ k s0 dp tm tb (st : St S A ℝ DX DY) h, Leftover tb → Reachable env m (dents eps cfg env m lr) k s0 dp tm tb st h →
      ∀ d c nd nc a vis, st.dn[d]? = some nd → childC st d a = some c → st.cn[c]? = some nc → n0 ≤ vis →
        ∃ V q, (if cfg.useDp then nc.y.dp.val = some V else nc.y.emp.avg = V) ∧
          dentsQ cfg (viewOf env m st { nd with visits := vis }) a = .ok q ∧
          |q - (if isOpponent m nd.time then -1 else 1) * V| ≤ cfg.valueMin * (remaining m nd.depth * Real.log B) := by
  have key : ∀ dep : Int, ∃ n0, ∀ n ≥ n0, valueTempD cfg dep n = cfg.valueMin := fun dep =>
    eventually_atTop.1 ((c42_value_temp_decays hf hdec hi hs dep).2.2.2.2 hmin)
  obtain ⟨n0, h0⟩ := key 0
  obtain ⟨n1, h1⟩ := key 1
  refine ⟨max n0 n1, ?_⟩
  intro k s0 dp tm tb st h htb hr d c nd nc a vis hd hc hn hvis
  have ht : ∀ n, 0 ≤ valueTempD cfg nd.depth n := fun n => le_trans hmin.le ((c42_value_temp_decays hf hdec hi hs nd.depth).1 n)
  obtain ⟨V, q, e1, e2, e3, _⟩ := c100_bonus_bounded G he hw hB htb hr hd hc hn ht vis
  have hv : valueTempD cfg nd.depth vis = cfg.valueMin := by
    by_cases hz : nd.depth = 0
    · rw [hz]
      exact h0 vis (le_trans (le_max_left _ _) hvis)
    · have := h1 vis (le_trans (le_max_right _ _) hvis)
      rw [← this]
      simp [valueTempD, hdec, hz]
  rw [hv] at e3
  exact ⟨V, q, e1, e2, e3⟩

/-- The search of `c99_false`: the entropy of the chance node at the root, half of `log 2`, is within the bound `log 2`, and the Q-value of the
root's action is above the value estimate by less than the value temperature times `log 2`. -/
example : ∃ st h nd nc, Reachable (entEnv 1) (entMgr true 1) (entAlg 1 true 1) 1 0 0 0 [] st h ∧ st.dn[0]? = some nd ∧ childC st 0 0 = some 0 ∧
    st.cn[0]? = some nc ∧ nc.y.ent.sub = some (Real.log 2 / 2) ∧ ∃ V q, nc.y.dp.val = some V ∧
    dentsQ entCfg (viewOf (entEnv 1) (entMgr true 1) st nd) 0 = .ok q ∧ V ≤ q ∧ |q - V| ≤ valueTempD entCfg 0 nd.visits * Real.log 2 := by
  obtain ⟨st, h, nc, n1, n2, hr, hq, hch, hc, hk, h1, h2, t1, t2, g1, g2, g3, _⟩ := c99_false
  have htb : Leftover ([] : List ((Int × Nat) × Option Nat)) := by simp [Leftover]
  have I := reach_inv (dents_valid 0 entCfg (entEnv 1) (entMgr true 1) fun _ _ => 0) htb hr
  obtain ⟨nd, hd, r1, r2, r3⟩ := root_node I.tree
  have hd0 : st.dn[0]? = some nd := by rw [I.tree.root] at hd; exact hd
  have hB : ∀ s, ((entEnv 1).actions s).length ≤ 2 := by
    intro s; by_cases h0 : s = 0 <;> by_cases h2 : s = 2 <;> by_cases h3 : s = 3 <;> simp [entEnv, h0, h2, h3]
  have hdec := c42_value_temp_decays (cfg := entCfg) Decay.c35_inv_sqrt rfl (by norm_num [entCfg]) (by norm_num [entCfg]) nd.depth
  obtain ⟨V, q, e1, e2, e3, e4⟩ := c100_bonus_bounded (B := 2) (entGood 1) (by norm_num [entCfg])
    (by show (0 : ℝ) ≤ _; exact Real.log_nonneg (by norm_num)) hB htb hr hd0 hch hc
    (fun n => le_trans (by norm_num [entCfg]) (hdec.1 n)) nd.visits
  refine ⟨st, h, nd, nc, hr, hd0, hch, hc, g3, V, q, by simpa [entCfg] using e1, e2, e4 rfl, ?_⟩
  have ho : isOpponent (entMgr true 1) nd.time = false := by simp [isOpponent, entMgr]
  rw [ho, r2] at e3
  have : remaining (entMgr true 1) 0 = 1 := by simp [remaining, entMgr]
  rw [this] at e3
  simpa using e3

end Verif.Dents
