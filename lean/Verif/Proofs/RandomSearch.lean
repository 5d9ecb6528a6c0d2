import Verif.Spec.RandomSearch
import Verif.Proofs.RandomEnd
import Verif.Proofs.Visits
import Verif.Props.Live

/-! # The random choices of the search algorithms explore -/

set_option linter.unusedSectionVars false
set_option linter.unusedSimpArgs false

namespace Verif.Random

open Verif.Search Verif.Eval Verif.Spec Verif.Sampling

variable {S A X Y : Type} [DecidableEq S] [DecidableEq A]

theorem weightOf_map {l : List A} (hnd : l.Nodup) (f : A → ℝ) {a : A} (ha : a ∈ l) : weightOf (l.map fun b => (b, f b)) a = f a := by
  induction l with
  | nil => simp at ha
  | cons b l ih =>
    rw [List.nodup_cons] at hnd
    by_cases hb : b = a
    · subst hb
      have : (l.map fun b => (b, f b)).filter (fun p => p.1 = b) = [] := by
        rw [List.filter_eq_nil_iff]
        intro p hp
        obtain ⟨c, hc, rfl⟩ := List.mem_map.1 hp
        simp only [decide_eq_true_eq]
        rintro rfl
        exact hnd.1 hc
      simp [weightOf, this]
    · have ha' : a ∈ l := by
        rcases List.mem_cons.1 ha with h | h
        · exact absurd h.symm hb
        · exact h
      have := ih hnd.2 ha'
      simp only [weightOf] at this ⊢
      simp [hb, this]

theorem prob_ne_zero {β : Type} {f : ℝ → β} {P : β → Prop} (h : prob f P ≠ 0) : ∃ u, 0 ≤ u ∧ u < 1 ∧ P (f u) := by
  by_contra hx
  push Not at hx
  apply h
  have : {u : ℝ | 0 ≤ u ∧ u < 1 ∧ P (f u)} = ∅ := by
    ext u
    simp only [Set.mem_setOf_eq, Set.mem_empty_iff_false, iff_false]
    rintro ⟨h0, h1, h2⟩
    exact hx u h0 h1 h2
  rw [prob, this]
  simp

theorem prob_nonneg {β : Type} (f : ℝ → β) (P : β → Prop) : 0 ≤ prob f P := ENNReal.toReal_nonneg

section soft
open Verif.Ments

theorem minEps_le (cfg : Cfg S A) (v : View S A X Y) : minEps cfg ≤ epsilonAt cfg v := by
  unfold minEps epsilonAt
  by_cases h : 0 < cfg.rootEpsilon
  · simp only [h, if_true, and_true]
    split
    · exact min_le_left _ _
    · exact min_le_right _ _
  · simp [h]

theorem softExplore_le {cfg : Cfg S A} {v : View S A X Y} {B N : Nat} (hN : 0 < v.visits) (w : WellFormed cfg v) (hv : v.visits ≤ N)
    (hB : v.actions.length ≤ B) (hne : v.actions ≠ []) : softExplore cfg B N ≤ uniformWeight cfg v / v.actions.length := by
  have hlen : (0 : ℝ) < v.actions.length := by exact_mod_cast List.length_pos_of_ne_nil hne
  have hB' : (v.actions.length : ℝ) ≤ B := by exact_mod_cast hB
  obtain ⟨l0, _⟩ := uniformWeight_range hN w
  have hlog : 0 < Real.log ((v.visits : ℝ) + 1) := Real.log_pos (by
    have : (0 : ℝ) < v.visits := by exact_mod_cast hN
    linarith)
  have hlog' : Real.log ((v.visits : ℝ) + 1) ≤ Real.log ((N : ℝ) + 1) := Real.log_le_log (by positivity) (by
    have : (v.visits : ℝ) ≤ N := by exact_mod_cast hv
    linarith)
  have h1 : min (minEps cfg / Real.log (N + 1)) cfg.maxExplore ≤ uniformWeight cfg v := by
    refine min_le_min ?_ le_rfl
    exact div_le_div₀ w.eps (minEps_le cfg v) hlog hlog'
  unfold softExplore
  by_cases h0 : 0 ≤ min (minEps cfg / Real.log (N + 1)) cfg.maxExplore
  · exact div_le_div₀ l0 h1 hlen hB'
  · refine le_trans (div_nonpos_of_nonpos_of_nonneg (not_le.1 h0).le (by linarith)) (div_nonneg l0 hlen.le)

variable {env : Env S A ℝ} {m : Manager S ℝ} {alg : Alg S A ℝ X Y} {k : Nat} {s0 : S} {dp tm : Int} {tb : List ((Int × S) × Option Nat)}
  {eps : ℝ} {cfg : Cfg S A} {q : View S A X Y → A → Except Bad ℝ} {iter : View S A X Y → List (A × ℝ) → List (A × ℝ)}
  {obs : S → A → List (S × ℝ)} {B N : Nat} {po : ℝ}

theorem soft_explores (hv : alg.Valid) (htb : Leftover tb) (hcan : ∀ v ctx a, alg.canSelect v ctx a = selectable eps cfg (q v) v a)
    (h0 : alg.initVisits = 0) (hq : ∀ st h, Reachable env m alg k s0 dp tm tb st h → ∀ nd : DNode S A ℝ X,
      ∃ Q, QIs (q (viewOf env m st nd)) (viewOf env m st nd) Q)
    (G : GoodCfg cfg env) (hl : env.Live) (hnd : ∀ s, (env.actions s).Nodup) (hB : ∀ s, (env.actions s).length ≤ B) (heps : 0 ≤ eps)
    (hit : ∀ v l, List.Perm (iter v l) l) (hobs : Transitions env obs po) (hp : 1 / 10 ^ 16 ≤ softExplore cfg B N) :
    Explores env m alg (softDice eps cfg q iter obs) k s0 dp tm tb N (softExplore cfg B N) po where
  obs := hobs
  sel := by
    intro st h w cur path rs new nd hr hN hw hd hs v
    have hvis : v.visits ≤ N := by
      have := visits_lt_of_sel hv htb hr hw hd
      simp only [v, viewOf]
      omega
    have hpos : 0 < v.visits := Nat.succ_pos _
    have hne : v.actions ≠ [] := hl.acts _ (cont_notSink hs)
    have hW : WellFormed cfg v := goodCfg_wellFormed G rfl
    obtain ⟨Q, hQ⟩ := hq st h hr { nd with visits := nd.visits + 1, x := alg.visitD false nd.x }
    obtain ⟨d1, d2⟩ := c31_is_distribution hpos hne hW Q
    have hlow : ∀ a ∈ v.actions, softExplore cfg B N ≤ policy cfg (getTemp cfg v) v Q a := fun a ha =>
      le_trans (softExplore_le hpos hW hvis (hB _) hne) (d1 a ha).1
    have hpr : ∀ a ∈ v.actions, prob (fun u => selectAction eps cfg (q v) v u (iter v)) (· = .ok (.key a)) = policy cfg (getTemp cfg v) v Q a := by
      intro a ha
      rw [c36_probability hQ hpos hne (hnd _) hW heps (hit v) ha, if_neg (not_lt.2 (le_trans hp (hlow a ha)))]
    refine ⟨⟨?_, ?_⟩, ?_, ?_⟩
    · intro x hx
      obtain ⟨a, _, rfl⟩ := List.mem_map.1 hx
      dsimp only
      exact prob_nonneg _ _
    · rw [← d2]
      simp only [softDice, List.map_map]
      congr 1
      exact List.map_congr_left fun a ha => hpr a ha
    · intro x hx hx0
      obtain ⟨a, _, rfl⟩ := List.mem_map.1 hx
      replace hx0 : prob (fun u => selectAction eps cfg (q v) v u (iter v)) (· = .ok (.key a)) ≠ 0 := hx0
      obtain ⟨u, g0, g1, g2⟩ := prob_ne_zero hx0
      rw [hcan]
      unfold selectable
      rw [@decide_eq_true_eq _ (Classical.propDecidable _)]
      exact ⟨u, iter v, g0, g1, hit v, g2⟩
    · intro a ha
      show _ ≤ weightOf (v.actions.map fun a => (a, prob (fun u => selectAction eps cfg (q v) v u (iter v)) (· = .ok (.key a)))) a
      rw [weightOf_map (l := v.actions) (hnd _) _ ha, hpr a ha]
      exact hlow a ha

end soft

/-! ## UCT -/

section uct
open Verif.Uct

theorem prob_const {β : Type} (b : β) (P : β → Prop) : (P b → prob (fun _ => b) P = 1) ∧ (¬ P b → prob (fun _ => b) P = 0) := by
  constructor
  · intro h
    have : {u : ℝ | 0 ≤ u ∧ u < 1 ∧ P b} = Set.Ico 0 1 := by ext u; simp [h]
    rw [prob, this]
    simp
  · intro h
    simp [prob, h]

theorem prob_split {β : Type} [DecidableEq β] {e : ℝ} (h0 : 0 ≤ e) (h1 : e ≤ 1) (b c x : β) :
    prob (fun u => if u < e then b else c) (· = x) = (if b = x then e else 0) + if c = x then 1 - e else 0 := by
  by_cases hb : b = x
  · by_cases hc : c = x
    · subst hb; subst hc
      have : {u : ℝ | 0 ≤ u ∧ u < 1 ∧ (if u < e then c else c) = c} = Set.Ico 0 1 := by ext u; simp
      rw [prob, this]; simp
    · subst hb
      have : {u : ℝ | 0 ≤ u ∧ u < 1 ∧ (if u < e then b else c) = b} = Set.Ico 0 e := by
        ext u
        simp only [Set.mem_setOf_eq, Set.mem_Ico]
        constructor
        · rintro ⟨g0, _, g2⟩
          refine ⟨g0, ?_⟩
          by_contra hu
          rw [if_neg hu] at g2
          exact hc g2
        · rintro ⟨g0, g1⟩
          exact ⟨g0, lt_of_lt_of_le g1 h1, if_pos g1⟩
      rw [prob, this]; simp [hc, h0]
  · by_cases hc : c = x
    · subst hc
      have : {u : ℝ | 0 ≤ u ∧ u < 1 ∧ (if u < e then b else c) = c} = Set.Ico e 1 := by
        ext u
        simp only [Set.mem_setOf_eq, Set.mem_Ico]
        constructor
        · rintro ⟨g0, g1, g2⟩
          refine ⟨?_, g1⟩
          by_contra hu
          rw [if_pos (not_le.1 hu)] at g2
          exact hb g2
        · rintro ⟨g0, g1⟩
          exact ⟨le_trans h0 g0, g1, if_neg (not_lt.2 g0)⟩
      rw [prob, this]; simp [hb, h1]
    · have : {u : ℝ | 0 ≤ u ∧ u < 1 ∧ (if u < e then b else c) = x} = ∅ := by
        ext u
        simp only [Set.mem_setOf_eq, Set.mem_empty_iff_false, iff_false]
        rintro ⟨_, _, g2⟩
        split at g2
        · exact hb g2
        · exact hc g2
      rw [prob, this]; simp [hb, hc]

/-- Adding up the probabilities of all values. -/
theorem sum_ite {l : List A} (hnd : l.Nodup) (x : ℝ) {a : A} (ha : a ∈ l) : (l.map fun b => if some a = some b then x else 0).sum = x := by
  induction l with
  | nil => simp at ha
  | cons b l ih =>
    rw [List.nodup_cons] at hnd
    by_cases hb : a = b
    · subst hb
      have : (l.map fun b => if some a = some b then x else 0) = l.map fun _ => (0 : ℝ) := by
        apply List.map_congr_left
        intro c hc
        rw [if_neg]
        intro h
        exact hnd.1 (Option.some.inj h ▸ hc)
      rw [List.map_cons, List.sum_cons, this]
      simp
    · rw [List.map_cons, List.sum_cons, if_neg (by simpa using hb), zero_add]
      rcases List.mem_cons.1 ha with h | h
      · exact absurd h hb
      · exact ih hnd.2 h

/-- Among `n * q` consecutive numbers `q` have a given remainder modulo `n`. -/
theorem count_mod {n i : Nat} (hi : i < n) (q : Nat) : ((List.range (n * q)).map fun raw => if raw % n = i then (1 : ℝ) else 0).sum = q := by
  induction q with
  | zero => simp
  | succ q ih =>
    rw [Nat.mul_succ, List.range_add, List.map_append, List.sum_append, ih]
    push_cast
    congr 1
    rw [List.map_map]
    have : (List.map ((fun raw => if raw % n = i then (1 : ℝ) else 0) ∘ fun x => n * q + x) (List.range n)) =
        (List.range n).map fun x => if some i = some x then (1 : ℝ) else 0 := by
      apply List.map_congr_left
      intro x hx
      rw [List.mem_range] at hx
      simp only [Function.comp, Nat.mul_add_mod, Nat.mod_eq_of_lt hx, Option.some.injEq, eq_comm]
    rw [this, sum_ite List.nodup_range 1 (List.mem_range.2 hi)]

variable {env : Env S A ℝ} {m : Manager S ℝ} {k : Nat} {s0 : S} {dp tm : Int} {tb : List ((Int × S) × Option Nat)}
  {cfg : Cfg S A ℝ} {iter : View S A (Stats ℝ) (Stats ℝ) → List (A × ℝ) → List (A × ℝ)}
  {obs : S → A → List (S × ℝ)} {B N : Nat} {po lo hi : ℝ}

theorem sampleUniform_getElem {l : List A} {i raw : Nat} {a : A} (h : l[i]? = some a) (hr : raw % l.length = i) : sampleUniform l raw = some a := by
  rw [sampleUniform_eq l raw (List.ne_nil_of_mem (List.mem_of_getElem? h)), hr, h]

theorem uct_explores (U : UctOk cfg env m dp lo hi) (hl : env.Live) (htb : Leftover tb) (he0 : 0 < cfg.epsilon) (he1 : cfg.epsilon ≤ 1)
    (hnd : ∀ s, (env.actions s).Nodup) (hB : ∀ s, (env.actions s).length ≤ B) (hit : ∀ v, IterOk (iter v)) (hobs : Transitions env obs po) :
    Explores env m (uct cfg m) (uctDice cfg iter obs) k s0 dp tm tb N (cfg.epsilon / B) po where
  obs := hobs
  sel := by
    intro st h w cur path rs new nd hr hN hw hd hs v
    have hne : v.actions ≠ [] := hl.acts _ (cont_notSink hs)
    have hlen : 0 < v.actions.length := List.length_pos_of_ne_nil hne
    set M := v.actions.length.factorial with hM
    have hM0 : (0 : ℝ) < M := by exact_mod_cast Nat.factorial_pos _
    -- the two actions that a random number can lead to
    choose b hb using fun raw => sampleUniform_defined v.actions raw hne
    choose c hc using fun raw => uct_ucb_total U hl htb hr hd hs raw (hit v)
    have hb' : ∀ raw, b raw ∈ v.actions := fun raw => (sampleUniform_mem (hb raw)).1
    have hc' : ∀ raw, c raw ∈ v.actions := fun raw => (selectUcb_mem (hit v) (hc raw)).1
    have hf : ∀ raw, (fun u => selectAction cfg v u raw (iter v)) = fun u => if u < cfg.epsilon then some (b raw) else some (c raw) := by
      intro raw
      funext u
      unfold selectAction
      by_cases hu : u < cfg.epsilon
      · rw [if_pos ⟨he0, hu⟩, if_pos hu]; exact hb raw
      · rw [if_neg (fun h => hu h.2), if_neg hu]; exact hc raw
    have hpr : ∀ raw a, prob (fun u => selectAction cfg v u raw (iter v)) (· = some a) =
        (if some (b raw) = some a then cfg.epsilon else 0) + if some (c raw) = some a then 1 - cfg.epsilon else 0 := by
      intro raw a
      rw [hf, prob_split he0.le he1]
    have hD : (uctDice cfg iter obs).sel v (st.ctxOf w) = v.actions.map fun a => (a, ((List.range M).map fun raw =>
        prob (fun u => selectAction cfg v u raw (iter v)) (· = some a)).sum / M) := rfl
    rw [hD]
    refine ⟨⟨?_, ?_⟩, ?_, ?_⟩
    · intro x hx
      obtain ⟨a, _, rfl⟩ := List.mem_map.1 hx
      refine div_nonneg (List.sum_nonneg ?_) hM0.le
      intro y hy
      obtain ⟨raw, _, rfl⟩ := List.mem_map.1 hy
      exact prob_nonneg _ _
    · rw [List.map_map]
      have hone : ∀ raw, (v.actions.map fun a => prob (fun u => selectAction cfg v u raw (iter v)) (· = some a)).sum = 1 := by
        intro raw
        simp only [hpr]
        rw [List.sum_map_add, sum_ite (l := v.actions) (hnd _) _ (hb' raw), sum_ite (l := v.actions) (hnd _) _ (hc' raw)]
        ring
      have swap : ∀ l : List Nat, (v.actions.map fun a => (l.map fun raw => prob (fun u => selectAction cfg v u raw (iter v)) (· = some a)).sum / M).sum =
          l.length / M := by
        intro l
        induction l with
        | nil => simp
        | cons raw l ih =>
          simp only [List.map_cons, List.sum_cons, List.length_cons, add_div]
          rw [List.sum_map_add, ih]
          have : (v.actions.map fun a => prob (fun u => selectAction cfg v u raw (iter v)) (· = some a) / M).sum = 1 / M := by
            rw [← hone raw]
            simp only [div_eq_mul_inv]
            rw [List.sum_map_mul_right]
          rw [this]
          push_cast
          ring
      have := swap (List.range M)
      rw [List.length_range, div_self hM0.ne'] at this
      exact this
    · intro x hx hx0
      obtain ⟨a, _, rfl⟩ := List.mem_map.1 hx
      have : ∃ raw, prob (fun u => selectAction cfg v u raw (iter v)) (· = some a) ≠ 0 := by
        by_contra hx1
        push Not at hx1
        apply hx0
        simp only [hx1]
        simp
      obtain ⟨raw, g⟩ := this
      obtain ⟨u, g0, g1, g2⟩ := prob_ne_zero g
      exact (selectable_iff cfg v a).2 ⟨u, raw, iter v, g0, g1, hit v, g2⟩
    · intro a ha
      rw [weightOf_map (l := v.actions) (hnd _) _ ha]
      obtain ⟨i, hi, hia⟩ := List.mem_iff_getElem.1 ha
      have hia' : v.actions[i]? = some a := (List.getElem?_eq_some_iff.2 ⟨hi, hia⟩)
      have hdvd : v.actions.length ∣ M := Nat.dvd_factorial hlen le_rfl
      obtain ⟨q, hq⟩ := hdvd
      have h1 : cfg.epsilon * q ≤ ((List.range M).map fun raw => prob (fun u => selectAction cfg v u raw (iter v)) (· = some a)).sum := by
        have := count_mod (n := v.actions.length) hi q
        rw [← this, ← hq, ← List.sum_map_mul_left]
        apply List.sum_le_sum
        intro raw _
        rw [hpr]
        by_cases hri : raw % v.actions.length = i
        · have : b raw = a := by
            have := hb raw
            rw [sampleUniform_getElem hia' hri] at this
            exact (Option.some.inj this).symm
          rw [if_pos hri, if_pos (by rw [this]), mul_one]
          split <;> linarith
        · rw [if_neg hri, mul_zero]
          have : (0 : ℝ) ≤ if some (c raw) = some a then 1 - cfg.epsilon else 0 := by split <;> linarith
          have : (0 : ℝ) ≤ if some (b raw) = some a then cfg.epsilon else 0 := by split <;> linarith
          linarith
      have h2 : cfg.epsilon / B ≤ cfg.epsilon * q / M := by
        have hB' : (v.actions.length : ℝ) ≤ B := by exact_mod_cast hB nd.state
        have hl' : (0 : ℝ) < v.actions.length := by exact_mod_cast hlen
        have hq0 : (0 : ℝ) < q := by
          have : 0 < q := by
            rcases Nat.eq_zero_or_pos q with h | h
            · rw [h, Nat.mul_zero] at hq
              have := Nat.factorial_pos v.actions.length
              omega
            · exact h
          exact_mod_cast this
        have : (M : ℝ) = v.actions.length * q := by exact_mod_cast hq
        rw [this, mul_div_mul_right _ _ hq0.ne']
        exact div_le_div_of_nonneg_left he0.le hl' hB'
      exact le_trans h2 (div_le_div_of_nonneg_right h1 hM0.le)

end uct

end Verif.Random
