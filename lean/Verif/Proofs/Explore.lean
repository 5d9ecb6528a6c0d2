import Verif.Props.Dp
import Verif.Props.Uct
import Mathlib.Analysis.SpecialFunctions.Log.Deriv
import Mathlib.Analysis.SpecialFunctions.Pow.Asymptotics
import Verif.Spec.Explore

/-! # Every action is selected again and again -/

namespace Verif.Uct

open Verif.Search Verif.Backups

set_option linter.unusedSectionVars false

/-! ## The exploration terms -/

theorem uct_growing : Growing uctTerm := by
  rw [uctTerm_eq]
  refine ⟨fun N n => Real.sqrt_nonneg _, fun B C D => ?_⟩
  have h1 : Filter.Tendsto (fun N : Nat => √(Real.log N) * (1 / (2 * √((max B 1 : Nat) : ℝ)))) Filter.atTop Filter.atTop := by
    apply Filter.Tendsto.atTop_mul_const
    · have : (0:ℝ) < ((max B 1 : Nat) : ℝ) := by exact_mod_cast (by omega : 0 < max B 1)
      positivity
    · exact (Real.tendsto_sqrt_atTop.comp Real.tendsto_log_atTop).comp tendsto_natCast_atTop_atTop
  obtain ⟨N1, hN1⟩ := (h1.eventually (Filter.eventually_gt_atTop C)).exists_forall_of_atTop
  obtain ⟨n1, hn1⟩ := exists_nat_ge (4 * D ^ 2 * ((max B 1 : Nat) : ℝ))
  refine ⟨max N1 1, max n1 1, fun N hN nb hnb na hna => ?_⟩
  have hNN := hN1 N (by omega)
  unfold uctExplore
  have e1 : (max N 1 : Nat) = N := by omega
  have e2 : (max na 1 : Nat) = na := by omega
  rw [e1, e2]
  have hL : 0 ≤ Real.log (N : ℝ) := Real.log_natCast_nonneg _
  have hb0 : (0:ℝ) < ((max nb 1 : Nat) : ℝ) := by exact_mod_cast (by omega : 0 < max nb 1)
  have hB0 : (0:ℝ) < ((max B 1 : Nat) : ℝ) := by exact_mod_cast (by omega : 0 < max B 1)
  have hbB : ((max nb 1 : Nat) : ℝ) ≤ ((max B 1 : Nat) : ℝ) := by exact_mod_cast (by omega : max nb 1 ≤ max B 1)
  have hna0 : (0:ℝ) < (na : ℝ) := by exact_mod_cast (by omega : 0 < na)
  have hna1 : 4 * D ^ 2 * ((max B 1 : Nat) : ℝ) ≤ na := le_trans hn1 (by exact_mod_cast (by omega : n1 ≤ na))
  have t1 : √(Real.log N) / √((max B 1 : Nat) : ℝ) ≤ √(Real.log N / ((max nb 1 : Nat) : ℝ)) := by
    rw [Real.sqrt_div hL]
    exact div_le_div_of_nonneg_left (Real.sqrt_nonneg _) (Real.sqrt_pos.2 hb0) (Real.sqrt_le_sqrt hbB)
  have t2 : D * √(Real.log N / na) ≤ √(Real.log N) / (2 * √((max B 1 : Nat) : ℝ)) := by
    rw [Real.sqrt_div hL]
    have hs : 2 * |D| * √((max B 1 : Nat) : ℝ) ≤ √(na : ℝ) := by
      apply Real.le_sqrt_of_sq_le
      rw [mul_pow, mul_pow, sq_abs, Real.sq_sqrt hB0.le]
      linarith
    have hp : 0 < √(na : ℝ) := Real.sqrt_pos.2 hna0
    have hq : 0 < √((max B 1 : Nat) : ℝ) := Real.sqrt_pos.2 hB0
    rw [mul_div_assoc', div_le_div_iff₀ hp (by positivity)]
    have hl := Real.sqrt_nonneg (Real.log N)
    have : D ≤ |D| := le_abs_self D
    nlinarith [mul_le_mul_of_nonneg_left hs hl, mul_nonneg hl hq.le, mul_le_mul_of_nonneg_right this (mul_nonneg hl hq.le)]
  have t3 : √(Real.log N) * (1 / (2 * √((max B 1 : Nat) : ℝ))) = √(Real.log N) / √((max B 1 : Nat) : ℝ) -
      √(Real.log N) / (2 * √((max B 1 : Nat) : ℝ)) := by
    have hq : √((max B 1 : Nat) : ℝ) ≠ 0 := (Real.sqrt_pos.2 hB0).ne'
    field_simp
    ring
  rw [t3] at hNN
  linarith

theorem puct_growing {p : ℝ} (hp : 0 < p) : Growing (puctTerm p) := by
  rw [puctTerm_eq]
  refine ⟨fun N n => ?_, fun B C D => ?_⟩
  · unfold puctExplore; positivity
  have hB0 : (0:ℝ) < ((max B 1 : Nat) : ℝ) := by exact_mod_cast (by omega : 0 < max B 1)
  have h1 : Filter.Tendsto (fun N : Nat => (N : ℝ) ^ p * (1 / (2 * ((max B 1 : Nat) : ℝ)))) Filter.atTop Filter.atTop := by
    apply Filter.Tendsto.atTop_mul_const (by positivity)
    exact (tendsto_rpow_atTop hp).comp tendsto_natCast_atTop_atTop
  obtain ⟨N1, hN1⟩ := (h1.eventually (Filter.eventually_gt_atTop C)).exists_forall_of_atTop
  obtain ⟨n1, hn1⟩ := exists_nat_ge (2 * |D| * ((max B 1 : Nat) : ℝ))
  refine ⟨max N1 1, max n1 1, fun N hN nb hnb na hna => ?_⟩
  have hNN := hN1 N (by omega)
  unfold puctExplore
  have e1 : (max N 1 : Nat) = N := by omega
  have e2 : (max na 1 : Nat) = na := by omega
  rw [e1, e2]
  have hL : 0 ≤ (N : ℝ) ^ p := by positivity
  have hb0 : (0:ℝ) < ((max nb 1 : Nat) : ℝ) := by exact_mod_cast (by omega : 0 < max nb 1)
  have hbB : ((max nb 1 : Nat) : ℝ) ≤ ((max B 1 : Nat) : ℝ) := by exact_mod_cast (by omega : max nb 1 ≤ max B 1)
  have hna0 : (0:ℝ) < (na : ℝ) := by exact_mod_cast (by omega : 0 < na)
  have hna1 : 2 * |D| * ((max B 1 : Nat) : ℝ) ≤ na := le_trans hn1 (by exact_mod_cast (by omega : n1 ≤ na))
  have t1 : (N : ℝ) ^ p / ((max B 1 : Nat) : ℝ) ≤ (N : ℝ) ^ p / ((max nb 1 : Nat) : ℝ) :=
    div_le_div_of_nonneg_left hL hb0 hbB
  have t2 : D * ((N : ℝ) ^ p / na) ≤ (N : ℝ) ^ p / (2 * ((max B 1 : Nat) : ℝ)) := by
    rw [mul_div_assoc', div_le_div_iff₀ hna0 (by positivity)]
    have : D ≤ |D| := le_abs_self D
    nlinarith [mul_le_mul_of_nonneg_left hna1 hL, mul_nonneg hL hB0.le, mul_le_mul_of_nonneg_right this (mul_nonneg hL hB0.le)]
  have t3 : (N : ℝ) ^ p * (1 / (2 * ((max B 1 : Nat) : ℝ))) = (N : ℝ) ^ p / ((max B 1 : Nat) : ℝ) -
      (N : ℝ) ^ p / (2 * ((max B 1 : Nat) : ℝ)) := by
    field_simp
    ring
  rw [t3] at hNN
  linarith

theorem uct_vanishing : Vanishing uctTerm := by
  rw [uctTerm_eq]
  intro c δ hc hδ
  have h1 : Filter.Tendsto (fun N : Nat => Real.log (N : ℝ) / N) Filter.atTop (nhds 0) := by
    have := (Real.isLittleO_log_id_atTop.tendsto_div_nhds_zero).comp tendsto_natCast_atTop_atTop
    exact this
  have hcd : 0 < c ^ 2 * δ := by positivity
  obtain ⟨N1, hN1⟩ := (h1.eventually (gt_mem_nhds hcd)).exists_forall_of_atTop
  refine ⟨max N1 1, fun N hN n hn => ?_⟩
  have hNN := hN1 N (by omega)
  have e1 : (max N 1 : Nat) = N := by omega
  have hN0 : (0:ℝ) < N := by exact_mod_cast (by omega : 0 < N)
  have hn0 : (0:ℝ) < n := lt_of_lt_of_le (by positivity) hn
  have e2 : (max n 1 : Nat) = n := by
    have : 0 < n := by exact_mod_cast hn0
    omega
  unfold uctExplore
  rw [e1, e2]
  rw [Real.sqrt_lt' hc, div_lt_iff₀ hn0]
  rw [div_lt_iff₀ hN0] at hNN
  nlinarith [mul_le_mul_of_nonneg_left hn (sq_nonneg c)]

theorem puct_vanishing {p : ℝ} (hp : p < 1) : Vanishing (puctTerm p) := by
  rw [puctTerm_eq]
  intro c δ hc hδ
  have h1 : Filter.Tendsto (fun N : Nat => (N : ℝ) ^ (-(1 - p))) Filter.atTop (nhds 0) :=
    (tendsto_rpow_neg_atTop (by linarith)).comp tendsto_natCast_atTop_atTop
  have hcd : 0 < c * δ := by positivity
  obtain ⟨N1, hN1⟩ := (h1.eventually (gt_mem_nhds hcd)).exists_forall_of_atTop
  refine ⟨max N1 1, fun N hN n hn => ?_⟩
  have hNN := hN1 N (by omega)
  have e1 : (max N 1 : Nat) = N := by omega
  have hN0 : (0:ℝ) < N := by exact_mod_cast (by omega : 0 < N)
  have hn0 : (0:ℝ) < n := lt_of_lt_of_le (by positivity) hn
  have e2 : (max n 1 : Nat) = n := by
    have : 0 < n := by exact_mod_cast hn0
    omega
  unfold puctExplore
  rw [e1, e2, div_lt_iff₀ hn0]
  have hpw : (N : ℝ) ^ p = (N : ℝ) ^ (-(1 - p)) * N := by
    conv_rhs => rw [← Real.rpow_one (N : ℝ)]
    rw [← Real.rpow_mul hN0.le, ← Real.rpow_add hN0]
    congr 1
    ring
  rw [hpw]
  calc (N : ℝ) ^ (-(1 - p)) * N < c * δ * N := by exact mul_lt_mul_of_pos_right hNN hN0
    _ = c * (δ * N) := by ring
    _ ≤ c * n := mul_le_mul_of_nonneg_left hn hc.le

/-! ## What a selection says -/

theorem trials_eq {S A : Type} (d : Nat) (h : List (Event S A ℝ)) : trialsThrough d h = h.countP (Event.selAt d) := by
  unfold trialsThrough
  apply countP_congr'
  intro e
  cases e <;> rfl

theorem list_bounds {α : Type} (f : α → ℝ) (l : List α) (h : ∀ a ∈ l, 0 < f a) :
    ∃ lo hi : ℝ, 0 < lo ∧ lo ≤ hi ∧ ∀ a ∈ l, lo ≤ f a ∧ f a ≤ hi := by
  induction l with
  | nil => exact ⟨1, 1, one_pos, le_refl _, by simp⟩
  | cons b l ih =>
    obtain ⟨lo, hi, h0, h01, h1⟩ := ih (fun a ha => h a (List.mem_cons_of_mem _ ha))
    refine ⟨min lo (f b), max hi (f b), lt_min h0 (h b (by simp)), ?_, ?_⟩
    · exact (min_le_left _ _).trans (h01.trans (le_max_left _ _))
    · intro a ha
      rcases List.mem_cons.1 ha with rfl | ha
      · exact ⟨min_le_right _ _, le_max_right _ _⟩
      · exact ⟨(min_le_left _ _).trans (h1 a ha).1, (h1 a ha).2.trans (le_max_left _ _)⟩

section
variable {S A : Type} [DecidableEq S] [DecidableEq A]
  {env : Env S A ℝ} {m : Manager S ℝ} {cfg : Cfg S A ℝ} {k : Nat} {s0 : S} {dp tm : Int}
  {tb : List ((Int × S) × Option Nat)} {st : St S A ℝ (Stats ℝ) (Stats ℝ)} {h : List (Event S A ℝ)}

/-- The prior weight of an action in a state. -/
noncomputable def priorOf (cfg : Cfg S A ℝ) (s : S) (a : A) : ℝ :=
  match cfg.prior with | none => 1 | some f => (find? a (f s)).getD 1

theorem priorOf_pos (F : Fair env cfg) (s : S) : ∀ a ∈ env.actions s, 0 < priorOf cfg s a := by
  intro a ha
  unfold priorOf
  cases hp : cfg.prior with
  | none => simp
  | some f =>
    obtain ⟨p, h1, h2⟩ := F.prior f hp s a ha
    simp [h1, h2]

theorem priorOf_is (F : Fair env cfg) (st : St S A ℝ (Stats ℝ) (Stats ℝ)) (nd : DNode S A ℝ (Stats ℝ)) :
    PriorIs cfg (viewOf env m st nd) (priorOf cfg nd.state) := by
  intro a ha
  unfold priorOf
  cases hp : cfg.prior with
  | none => simp
  | some f =>
    obtain ⟨p, h1, h2⟩ := F.prior f hp nd.state a ha
    simp only [viewOf, h1, Option.getD_some]

/-- A bound on all returns and averages of the search. -/
noncomputable def absBound (m : Manager S ℝ) (lo hi : ℝ) (dp : Int) : ℝ := (remaining m dp + 1) * max (-lo) hi

theorem absBound_nonneg {lo hi : ℝ} (hb : Bounded env m lo hi) (dp : Int) : 0 ≤ absBound m lo hi dp := by
  have := hb.hi0
  unfold absBound
  have : 0 ≤ max (-lo) hi := this.trans (le_max_right _ _)
  positivity

theorem within_abs {lo hi : ℝ} (hb : Bounded env m lo hi) {dep dp : Int} (hd : dp ≤ dep) {x : ℝ}
    (hx : Within lo hi (remaining m dep + 1) x) : |x| ≤ absBound m lo hi dp := by
  have hm : ((remaining m dep + 1 : Nat) : ℝ) ≤ remaining m dp + 1 := by
    have : remaining m dep ≤ remaining m dp := by unfold remaining; omega
    push_cast
    have : (remaining m dep : ℝ) ≤ remaining m dp := by exact_mod_cast this
    linarith
  have h0 : 0 ≤ max (-lo) hi := hb.hi0.trans (le_max_right _ _)
  have hn : (0:ℝ) ≤ ((remaining m dep + 1 : Nat) : ℝ) := by positivity
  have h1 : ((remaining m dep + 1 : Nat) : ℝ) * max (-lo) hi ≤ absBound m lo hi dp := mul_le_mul_of_nonneg_right hm h0
  rw [abs_le]
  constructor
  · have : ((remaining m dep + 1 : Nat) : ℝ) * (-lo) ≤ ((remaining m dep + 1 : Nat) : ℝ) * max (-lo) hi :=
      mul_le_mul_of_nonneg_left (le_max_left _ _) hn
    have := hx.1
    nlinarith
  · have : ((remaining m dep + 1 : Nat) : ℝ) * hi ≤ ((remaining m dep + 1 : Nat) : ℝ) * max (-lo) hi :=
      mul_le_mul_of_nonneg_left (le_max_right _ _) hn
    exact hx.2.trans (this.trans h1)

theorem bias_bounds (F : Fair env cfg) {v : View S A (Stats ℝ) (Stats ℝ)} {M : ℝ} (hM : ∀ a, |avgOf v a| ≤ M) :
    (if cfg.bias = -1 then 1 / 1000 else cfg.bias) ≤ biasOf cfg v ∧
    biasOf cfg v ≤ if cfg.bias = -1 then max (1 / 1000) M else cfg.bias := by
  have := bias_spec cfg v
  unfold BiasIs at this
  split at this
  · rename_i hbb
    rw [if_pos hbb, if_pos hbb]
    refine ⟨this.2 (by simp), ?_⟩
    rcases this.1 with h | ⟨a, _, _, h⟩
    · rw [Set.mem_singleton_iff] at h
      rw [h]; exact le_max_left _ _
    · rw [h]; exact (hM a).trans (le_max_right _ _)
  · rename_i hbb
    rw [if_neg hbb, if_neg hbb, this]
    exact ⟨le_refl _, le_refl _⟩

theorem bias0_pos (F : Fair env cfg) : 0 < (if cfg.bias = -1 then 1 / 1000 else cfg.bias) := by
  rcases F.bias with h | h
  · rw [if_pos h]; norm_num
  · split
    · norm_num
    · exact h

theorem selectable_spec (he : cfg.epsilon ≤ 0) {v : View S A (Stats ℝ) (Stats ℝ)} {a : A} (hs : selectable cfg v a = true) :
    a ∈ v.actions ∧
        ((cfg.prior = none ∧ ¬ Tried v a) ∨
         ∀ (prior : A → ℝ) (bias : ℝ), PriorIs cfg v prior → BiasIs cfg v bias →
          ∀ b ∈ v.actions, score cfg.term prior bias v b ≤ score cfg.term prior bias v a) := by
  obtain ⟨u, raw, iter, _, _, hi, hsel⟩ := (selectable_iff cfg v a).1 hs
  refine ⟨(selectAction_mem hi hsel).1, ?_⟩
  by_cases hpr : cfg.prior = none
  · by_cases ht : Tried v a
    · right
      intro prior bias hp hb
      exact (c29_argmax hi hp hb (.inr (c28_untried_first_at_node hpr he hsel ht)) (.inl he) hsel).2
    · exact .inl ⟨hpr, ht⟩
  · right
    intro prior bias hp hb
    exact (c29_argmax hi hp hb (.inl hpr) (.inl he) hsel).2

theorem avgOf_view (T : Tree env m s0 dp tm st) {d : Nat} {nd nd' : DNode S A ℝ (Stats ℝ)} (hd : st.dn[d]? = some nd)
    (hk : nd'.kids = nd.kids) (a : A) :
    avgOf (viewOf env m st nd') a = ((childC st d a).bind fun c => (st.cn[c]?).map fun nc => nc.y.avg).getD 0 ∧
    visitsOf (viewOf env m st nd') a = ((childC st d a).bind fun c => (st.cn[c]?).map fun nc => nc.visits).getD 0 := by
  have h1 := find?_kidsY T hd hk a
  have h2 : childC st d a = find? a nd.kids := by simp [childC, hd]
  unfold avgOf visitsOf viewOf
  simp only [h1, h2]
  cases find? a nd.kids with
  | none => simp
  | some c =>
    simp only [Option.bind_some]
    generalize st.cn[c]? = x
    cases x <;> simp

theorem avgOf_bound {lo hi : ℝ} (hb : Bounded env m lo hi) (htb : Leftover tb) (hr : Reachable env m (uct cfg m) k s0 dp tm tb st h)
    {d : Nat} {nd nd' : DNode S A ℝ (Stats ℝ)} (hd : st.dn[d]? = some nd) (hk : nd'.kids = nd.kids) (a : A) :
    |avgOf (viewOf env m st nd') a| ≤ absBound m lo hi dp := by
  have I := reach_inv (uct_valid cfg m) htb hr
  rw [(avgOf_view I.tree hd hk a).1]
  have h0 := absBound_nonneg hb dp
  cases hc : childC st d a with
  | none => simpa using h0
  | some c =>
    obtain ⟨nd1, nc, g1, g2, _, _, _, g3, _⟩ := childC_facts I.tree hc
    simp only [Option.bind_some, g2, Option.map_some, Option.getD_some]
    have hdep := (I.tree.heap.dTime d nd1.skel (by simp [g1])).2
    simp only [DNode.skel] at hdep
    exact within_abs hb (by omega) ((c40_uct_averages_bounded hb htb hr).2 c nc g2)

theorem timesSelected_eq (I : Inv env m s0 dp tm st h) (C : Cnt m (uct cfg m) st h) {d c : Nat} {a : A} (hc : childC st d a = some c) :
    timesSelected d a h = h.countP (Event.selVia c) := by
  unfold timesSelected
  apply List.countP_congr
  intro e he
  cases e <;> simp [Event.selVia]
  rename_i w d' a' c'
  have h1 := C.evSel w d' a' c' he
  constructor
  · rintro ⟨rfl, rfl⟩
    rw [hc] at h1; simp at h1; exact h1.symm
  · rintro rfl
    obtain ⟨nd1, nc1, g1, g2, g3, g4, g5, _⟩ := childC_facts I.tree hc
    obtain ⟨nd2, nc2, k1, k2, k3, k4, k5, _⟩ := childC_facts I.tree h1
    have e1 := I.tree.heap.dUniq d' d nd2.skel nd1.skel a' a c' (by simp [k1]) (by simp [g1]) k3 g3
    subst e1
    exact ⟨rfl, by rw [g2] at k2; simp at k2; subst k2; rw [← k5, g5]⟩

theorem timesSelected_none (C : Cnt m (uct cfg m) st h) {d : Nat} {a : A} (hc : childC st d a = none) :
    timesSelected d a h = 0 := by
  unfold timesSelected
  apply countP_zero_of
  intro e he
  cases e <;> simp
  rename_i w d' a' c'
  have h1 := C.evSel w d' a' c' he
  rintro rfl rfl
  rw [hc] at h1; simp at h1

/-- The visit count of an action's child is its number of selections, up to the trials that are just being made. -/
theorem visits_near (htb : Leftover tb) (hr : Reachable env m (uct cfg m) k s0 dp tm tb st h)
    {d : Nat} {nd nd' : DNode S A ℝ (Stats ℝ)} (hd : st.dn[d]? = some nd) (hk : nd'.kids = nd.kids) (a : A) :
    visitsOf (viewOf env m st nd') a ≤ timesSelected d a h ∧ timesSelected d a h ≤ visitsOf (viewOf env m st nd') a + k := by
  obtain ⟨I, C⟩ := reach_both (uct_valid cfg m) htb hr
  rw [(avgOf_view I.tree hd hk a).2]
  cases hc : childC st d a with
  | none => rw [timesSelected_none C hc]; simp
  | some c =>
    obtain ⟨nd1, nc, g1, g2, _⟩ := childC_facts I.tree hc
    rw [timesSelected_eq I C hc]
    simp only [Option.bind_some, g2, Option.map_some, Option.getD_some]
    rw [C.v2 c nc g2, C.v3 c]
    have := List.countP_le_length (p := Phase.inSamp c) (l := st.ws)
    have := reach_len hr
    omega

/-- At a selection: the state before, the node, and what its view says. -/
theorem selected_at (F : Fair env cfg) (htb : Leftover tb) (hr : Reachable env m (uct cfg m) k s0 dp tm tb st h)
    {h2 h1 : List (Event S A ℝ)} {w d c : Nat} {a : A} (hh : h = h2 ++ .selected w d a c :: h1) :
    ∃ s1 nd nd', Reachable env m (uct cfg m) k s0 dp tm tb s1 h1 ∧ s1.dn[d]? = some nd ∧ st.dn[d]? = some nd' ∧
      nd'.state = nd.state ∧ nd'.depth = nd.depth ∧ nd'.time = nd.time ∧ isLeaf env m nd = false ∧ a ∈ env.actions nd.state ∧
      ∀ v : View S A (Stats ℝ) (Stats ℝ), v = viewOf env m s1 { nd with visits := nd.visits + 1 } →
        (visitsOf v a = 0 ∧ cfg.prior = none ∧ childC s1 d a = none) ∨
         ∀ b ∈ env.actions nd.state, score cfg.term (priorOf cfg nd.state) (biasOf cfg v) v b ≤
           score cfg.term (priorOf cfg nd.state) (biasOf cfg v) v a := by
  obtain ⟨s1, s2, w', g1, _, E, g2, L⟩ := reach_prefix hr hh
  have I := reach_inv (uct_valid cfg m) htb g1
  have L' : Le s1 st := (le_eff E).trans L
  have hex : ∃ nd : DNode S A ℝ (Stats ℝ), s1.dn[d]? = some nd ∧ isLeaf env m nd = false ∧
      selectable cfg (viewOf env m s1 { nd with visits := nd.visits + 1 }) a = true := by
    cases E with
    | @selOld cur path rs new nd a c hw hd hl hm ha hf => exact ⟨nd, hd, hl, ha⟩
    | @selNew cur path rs new nd a hw hd hl hm ha hf => exact ⟨nd, hd, hl, ha⟩
  obtain ⟨nd, hd, hl, hs⟩ := hex
  obtain ⟨nd', k1, k2, k3, k4, _⟩ := L'.d d nd hd
  obtain ⟨q1, q2⟩ := selectable_spec F.eps hs
  refine ⟨s1, nd, nd', g1, hd, k1, k2, k3, k4, hl, q1, ?_⟩
  rintro v rfl
  rcases q2 with ⟨q2, q3⟩ | q2
  · left
    have hn : childC s1 d a = none := by
      cases hc : childC s1 d a with
      | none => rfl
      | some c =>
        refine absurd ?_ q3
        unfold Tried viewOf
        rw [mem_kidsY_keys I.tree hd (nd' := { nd with visits := nd.visits + 1 }) rfl]
        exact ⟨c, by simpa [childC, hd] using hc⟩
    refine ⟨?_, q2, hn⟩
    rw [(avgOf_view I.tree hd (nd' := { nd with visits := nd.visits + 1 }) rfl a).2, hn]
    simp
  · right
    exact q2 _ _ (priorOf_is F s1 { nd with visits := nd.visits + 1 }) (bias_spec cfg _)

/-! ## No action is starved -/

/-- If `b` has had few visits when `a` is selected, late enough, then so has `a`. -/
theorem starve_step {lo hi : ℝ} (F : Fair env cfg) (hb : Bounded env m lo hi) (hg : Growing cfg.term) (dp : Int) (s : S) (B : Nat) :
    ∃ N1 n1 : Nat, ∀ (k : Nat) (s0 : S) (tm : Int) (tb : List ((Int × S) × Option Nat)) (st : St S A ℝ (Stats ℝ) (Stats ℝ))
      (h : List (Event S A ℝ)), Leftover tb → Reachable env m (uct cfg m) k s0 dp tm tb st h →
      ∀ (h2 h1 : List (Event S A ℝ)) (w d c : Nat) (a b : A) (nd : DNode S A ℝ (Stats ℝ)), h = h2 ++ .selected w d a c :: h1 →
        st.dn[d]? = some nd → nd.state = s → b ∈ env.actions s → N1 ≤ trialsThrough d h1 →
        timesSelected d b h1 < B → timesSelected d a h1 ≤ n1 + k := by
  obtain ⟨plo, phi, hp0, hp1, hp⟩ := list_bounds (priorOf cfg s) (env.actions s) (priorOf_pos F s)
  set M := absBound m lo hi dp with hMdef
  have hM0 : 0 ≤ M := absBound_nonneg hb dp
  set β0 : ℝ := if cfg.bias = -1 then 1 / 1000 else cfg.bias with hβdef
  have hβ0 : 0 < β0 := bias0_pos F
  obtain ⟨N1, n1, hN⟩ := hg.2 B (2 * M / (β0 * plo)) (phi / plo)
  refine ⟨N1, n1, ?_⟩
  intro k s0 tm tb st h htb hr h2 h1 w d c a b nd hh hd hs hbm hN1 hB
  obtain ⟨s1, nd1, nd', r1, d1, d2, e1, e2, e3, hl, ha, hsc⟩ := selected_at F htb hr hh
  rw [hd] at d2; simp at d2; subst d2
  rw [hs] at e1
  rw [← e1] at ha
  obtain ⟨va1, va2⟩ := visits_near htb r1 d1 (nd' := { nd1 with visits := nd1.visits + 1 }) rfl a
  obtain ⟨vb1, vb2⟩ := visits_near htb r1 d1 (nd' := { nd1 with visits := nd1.visits + 1 }) rfl b
  obtain ⟨I, C⟩ := reach_both (uct_valid cfg m) htb r1
  rcases hsc _ rfl with ⟨h0, _, _⟩ | hsc
  · omega
  · by_contra hcon
    have hv := hsc b (by rw [← e1]; exact hbm)
    set v := viewOf env m s1 { nd1 with visits := nd1.visits + 1 } with hvdef
    have hvis : N1 ≤ v.visits := by
      have := C.v1 d nd1 d1
      have h3 := trials_eq d h1
      simp only [hvdef, viewOf]
      omega
    have hex := hN v.visits hvis (visitsOf v b) (by omega) (visitsOf v a) (by omega)
    have avA : |avgOf v a| ≤ M := avgOf_bound hb htb r1 d1 (nd' := { nd1 with visits := nd1.visits + 1 }) rfl a
    have avB : |avgOf v b| ≤ M := avgOf_bound hb htb r1 d1 (nd' := { nd1 with visits := nd1.visits + 1 }) rfl b
    have hbias := (bias_bounds F (v := v) (M := M)
      (fun a => avgOf_bound hb htb r1 d1 (nd' := { nd1 with visits := nd1.visits + 1 }) rfl a)).1
    rw [← hβdef] at hbias
    unfold score at hv
    rw [← e1] at hv
    have hta := hg.1 v.visits (visitsOf v a)
    have htb' := hg.1 v.visits (visitsOf v b)
    obtain ⟨pa1, pa2⟩ := hp a ha
    obtain ⟨pb1, pb2⟩ := hp b hbm
    set β := biasOf cfg v
    set ta := cfg.term v.visits (visitsOf v a)
    set tb' := cfg.term v.visits (visitsOf v b)
    have hβ : 0 < β := lt_of_lt_of_le hβ0 hbias
    have hsig : ∀ x : ℝ, |x| ≤ M → |(if v.opp then -1 else 1) * x| ≤ M := by
      intro x hx
      split
      · simpa using hx
      · simpa using hx
    have s1 := abs_le.1 (hsig _ avA)
    have s2 := abs_le.1 (hsig _ avB)
    have key : β * (plo * tb' - phi * ta) ≤ 2 * M := by
      have q1 : β * (plo * tb') ≤ priorOf cfg s b * β * tb' := by
        have := mul_le_mul_of_nonneg_right pb1 (mul_nonneg hβ.le htb')
        nlinarith
      have q2 : priorOf cfg s a * β * ta ≤ β * (phi * ta) := by
        have := mul_le_mul_of_nonneg_right pa2 (mul_nonneg hβ.le hta)
        nlinarith
      nlinarith
    have hx : 2 * M / (β0 * plo) < (plo * tb' - phi * ta) / plo := by
      have : (plo * tb' - phi * ta) / plo = tb' - phi / plo * ta := by field_simp
      rw [this]; exact hex
    rw [div_lt_div_iff₀ (by positivity) hp0] at hx
    have hpos : 2 * M < β0 * (plo * tb' - phi * ta) := by
      have : 2 * M * plo < (β0 * (plo * tb' - phi * ta)) * plo := by nlinarith
      exact lt_of_mul_lt_mul_right this hp0.le
    have hnn : 0 ≤ plo * tb' - phi * ta := by
      by_contra hneg
      have : β0 * (plo * tb' - phi * ta) < 0 := by
        apply mul_neg_of_pos_of_neg hβ0
        linarith
      linarith
    have := mul_le_mul_of_nonneg_right hbias hnn
    linarith

/-- As long as some action has been selected fewer than `B` times, no action has been selected very often. -/
theorem starve_bound {lo hi : ℝ} (F : Fair env cfg) (hb : Bounded env m lo hi) (hg : Growing cfg.term) (dp : Int) (s : S) (B k : Nat) :
    ∃ K : Nat, ∀ (s0 : S) (tm : Int) (tb : List ((Int × S) × Option Nat)) (st : St S A ℝ (Stats ℝ) (Stats ℝ))
      (h : List (Event S A ℝ)), Leftover tb → Reachable env m (uct cfg m) k s0 dp tm tb st h →
      ∀ (d : Nat) (nd : DNode S A ℝ (Stats ℝ)), st.dn[d]? = some nd → nd.state = s → ∀ b ∈ env.actions s, timesSelected d b h < B →
        ∀ a, timesSelected d a h ≤ K := by
  obtain ⟨N1, n1, hN⟩ := starve_step F hb hg dp s B
  refine ⟨max N1 (n1 + k) + 1, ?_⟩
  intro s0 tm tb st h htb hr d nd hd hs b hbm hB a
  have gen : ∀ h1 h2 : List (Event S A ℝ), h = h2 ++ h1 → timesSelected d b h1 < B → timesSelected d a h1 ≤ max N1 (n1 + k) + 1 := by
    intro h1
    induction h1 with
    | nil => intro h2 _ _; simp [timesSelected]
    | cons e h1 ih =>
      intro h2 hh hlt
      have hmono : ∀ x : A, timesSelected d x h1 ≤ timesSelected d x (e :: h1) := by
        intro x; unfold timesSelected; rw [List.countP_cons]; omega
      have ih' := ih (h2 ++ [e]) (by simp [hh]) (lt_of_le_of_lt (hmono b) hlt)
      by_cases he : ∃ w c, e = .selected w d a c
      · obtain ⟨w, c, rfl⟩ := he
        have hc : timesSelected d a (.selected w d a c :: h1) = timesSelected d a h1 + 1 := by
          unfold timesSelected; rw [List.countP_cons]; simp
        rw [hc]
        by_cases hn : N1 ≤ trialsThrough d h1
        · have := hN k s0 tm tb st h htb hr h2 h1 w d c a b nd hh hd hs hbm hn (lt_of_le_of_lt (hmono b) hlt)
          omega
        · have : timesSelected d a h1 ≤ trialsThrough d h1 := by
            unfold timesSelected trialsThrough
            apply List.countP_mono_left
            intro e _
            cases e <;> simp
            intro h _; exact h
          omega
      · have hc : timesSelected d a (e :: h1) = timesSelected d a h1 := by
          unfold timesSelected
          rw [List.countP_cons, if_neg]
          · rfl
          · intro hx
            cases e <;> simp at hx
            obtain ⟨rfl, rfl⟩ := hx
            exact he ⟨_, _, rfl⟩
        rw [hc]; exact ih'
  exact gen h [] (by simp) hB

theorem sum_le_of {α : Type} (f : α → Nat) (K : Nat) (l : List α) (h : ∀ a ∈ l, f a ≤ K) : (l.map f).sum ≤ l.length * K := by
  induction l with
  | nil => simp
  | cons a l ih =>
    have := ih (fun b hb => h b (List.mem_cons_of_mem _ hb))
    have := h a (by simp)
    simp only [List.map_cons, List.sum_cons, List.length_cons]
    rw [Nat.add_mul]
    omega

/-- The trials through a node are the selections of its actions. -/
theorem trials_sum (I : Inv env m s0 dp tm st h) (C : Cnt m (uct cfg m) st h) {d : Nat} {nd : DNode S A ℝ (Stats ℝ)}
    (hd : st.dn[d]? = some nd) : trialsThrough d h = (nd.kids.map (fun p => timesSelected d p.1 h)).sum := by
  have h1 := sel_partition I C hd
  rw [trials_eq, h1]
  congr 1
  apply List.map_congr_left
  rintro ⟨a, c⟩ hp
  exact (timesSelected_eq I C (childC_of_mem I.tree hd hp)).symm

theorem kids_le (I : Inv env m s0 dp tm st h) {d : Nat} {nd : DNode S A ℝ (Stats ℝ)} (hd : st.dn[d]? = some nd) :
    nd.kids.length ≤ (env.actions nd.state).length := by
  have h1 := I.tree.heap.dNodup d nd.skel (by simp [hd])
  have h2 := I.tree.heap.dAct d nd.skel
  have : (nd.kids.map Prod.fst).length ≤ (env.actions nd.state).length := by
    apply List.Subperm.length_le
    apply List.Nodup.subperm h1
    intro a ha
    obtain ⟨⟨a', c⟩, hp, rfl⟩ := List.mem_map.1 ha
    exact h2 _ _ (by simp [hd]) hp
  simpa using this

end

end Verif.Uct
