import Verif.Proofs.Uct
import Verif.Proofs.SearchPrefix
import Verif.Spec.UctToy
import Mathlib.Tactic.NormNum

/-!
# Properties of UCT and PUCT: C27 – C30

Exact arithmetic: `𝕜` is any linearly ordered field (ℝ for the theorems naming the logarithm and the square root).
-/

set_option linter.unusedSectionVars false
set_option linter.unusedSimpArgs false

namespace Verif.Uct

open Verif.Search Verif.Sampling Verif.Spec

variable {S A 𝕜 : Type} [DecidableEq S] [DecidableEq A] [Field 𝕜] [LinearOrder 𝕜] [IsStrictOrderedRing 𝕜]
  {env : Env S A 𝕜} {m : Manager S 𝕜} {cfg : Cfg S A 𝕜} {k : Nat} {s0 : S} {dp tm : Int}
  {tb : List ((Int × S) × Option Nat)} {st : St S A 𝕜 (Stats 𝕜) (Stats 𝕜)} {h : List (Event S A 𝕜)}

/-! ## C27 -/

/-- C27.  With `p` pseudo trials (none without a heuristic function), the number of backups of a decision node is `p` plus the
number of trials backed up through it, and its value is the average of `p` times its heuristic value and of those trials'
returns after the node.  (What the return after a node is, is C11.) -/
theorem c27_decision_average (hr : Reachable env m (uct cfg m) k s0 dp tm tb st h) {d : Nat}
    {nd : DNode S A 𝕜 (Stats 𝕜)} (hd : st.dn[d]? = some nd) {p : Nat} (hp : p = if m.heuristic.isSome then cfg.pseudo else 0) :
    nd.x.n = p + (returnsD d h).length ∧
    (0 < p + (returnsD d h).length →
      nd.x.avg = (p * nd.heur + (returnsD d h).sum) / ((p + (returnsD d h).length : Nat) : 𝕜)) := by
  subst hp
  obtain ⟨h1, h2, _⟩ := (avg_reach hr).d d nd hd
  refine ⟨h1, fun h0 => ?_⟩
  have h1' : nd.x.n = (if m.heuristic.isSome then cfg.pseudo else 0) + (returnsD d h).length := h1
  have h2' : (nd.x.n : 𝕜) * nd.x.avg = ((if m.heuristic.isSome then cfg.pseudo else 0 : Nat) : 𝕜) * nd.heur + (returnsD d h).sum := h2
  rw [eq_div_iff (by exact_mod_cast h0.ne'), ← h1', mul_comm, h2']

/-- C27.  The value of a chance node is the average of the returns after it. -/
theorem c27_chance_average (hr : Reachable env m (uct cfg m) k s0 dp tm tb st h) {c : Nat}
    {nc : CNode S A 𝕜 (Stats 𝕜)} (hc : st.cn[c]? = some nc) :
    nc.y.n = (returnsC c h).length ∧
    (returnsC c h ≠ [] → nc.y.avg = (returnsC c h).sum / ((returnsC c h).length : 𝕜)) := by
  obtain ⟨h1, h2, _⟩ := (avg_reach hr).c c nc hc
  refine ⟨h1, fun h0 => ?_⟩
  have : ((returnsC c h).length : 𝕜) ≠ 0 := by
    rw [Nat.cast_ne_zero]; exact fun hc => h0 (List.length_eq_zero_iff.1 hc)
  rw [eq_div_iff this, ← h1, mul_comm, h2]

/-- C27.  Without pseudo trials the heuristic has no influence on the value of a node that has been backed up. -/
theorem c27_heuristic_vanishes (hr : Reachable env m (uct cfg m) k s0 dp tm tb st h) (h0 : cfg.pseudo = 0) {d : Nat}
    {nd : DNode S A 𝕜 (Stats 𝕜)} (hd : st.dn[d]? = some nd) (hb : returnsD d h ≠ []) :
    nd.x.avg = (returnsD d h).sum / ((returnsD d h).length : 𝕜) := by
  have hl : 0 < (returnsD d h).length := List.length_pos_iff.2 hb
  have := (c27_decision_average hr hd (p := 0) (by simp [h0])).2 (by omega)
  simpa using this

/-- C27.  When no trial is running, every visit of a chance node has been backed up, and every visit of a decision node
(pseudo trials aside) except those of trials that ended there. -/
theorem c27_every_trial_backed_up (htb : Leftover tb) (hr : Reachable env m (uct cfg m) k s0 dp tm tb st h) (hq : Quiescent st) :
    (∀ (d : Nat) (nd : DNode S A 𝕜 (Stats 𝕜)), st.dn[d]? = some nd → nd.x.n + trialsEndedAt d h = nd.visits) ∧
    (∀ (c : Nat) (nc : CNode S A 𝕜 (Stats 𝕜)), st.cn[c]? = some nc → nc.y.n = nc.visits) := by
  obtain ⟨_, C⟩ := reach_both (uct_valid cfg m) htb hr
  obtain ⟨B, _⟩ := reach_bk hr
  constructor
  · intro d nd hd
    have h1 := (c27_decision_average hr hd rfl).1
    have h2 := C.v1 d nd hd
    have h3 := B.d d
    rw [sum_idle hq _ rfl] at h3
    have h4 : trialsEndedAt d h = h.countP (Event.endAt d) := rfl
    have h5 : (uct cfg m).initVisits = if m.heuristic.isSome then cfg.pseudo else 0 := rfl
    omega
  · intro c nc hc
    have h1 := (c27_chance_average hr hc).1
    have h2 := C.v2 c nc hc
    have h3 := B.c c
    rw [sum_idle hq _ rfl] at h3
    omega

/-- The root of the toy search after two interleaved trials (and half of a third): two pseudo trials of 100, returns 102 and 107. -/
example : ∃ st h, Reachable Toy.env Toy.mgr (uct (Toy.cfg 1 2) Toy.mgr) 2 0 0 0 [] st h ∧
    (st.dn[0]?.any (fun nd => decide (nd.x = ⟨4, 409 / 4⟩)) && decide (returnsD 0 h = [102, 107])) = true :=
  Toy.run 1 2 1 _ (by decide +kernel)

/-! ## C28 -/

/-- C28.  Without prior and without epsilon exploration, an action that has a child is selected only if every valid action has
a child: at one node, for every random draw and map order. -/
theorem c28_untried_first_at_node {v : View S A (Stats 𝕜) (Stats 𝕜)} {u : 𝕜} {raw : Nat} {iter : List (A × 𝕜) → List (A × 𝕜)}
    (hp : cfg.prior = none) (he : cfg.epsilon ≤ 0) {a : A} (hs : selectAction cfg v u raw iter = some a) (ht : Tried v a) :
    ∀ b ∈ v.actions, Tried v b := by
  intro b hb
  rw [selectAction, if_neg (fun hc => absurd hc.1 (not_lt.2 he)), selectUcb] at hs
  by_cases hu : 0 < (untried v).length
  · rw [if_pos ⟨by simp [hasPrior, hp], hu⟩] at hs
    have h1 := (sampleUniform_mem hs).1
    rw [untried, List.mem_filter] at h1
    rw [← kid_some_iff] at ht
    simp [Option.isNone_iff_eq_none] at h1
    rw [h1.2] at ht
    simp at ht
  · have h0 : untried v = [] := List.length_eq_zero_iff.1 (by omega)
    rw [untried, List.filter_eq_nil_iff] at h0
    have := h0 b hb
    rw [← kid_some_iff]
    cases hk : kid v b with
    | none => rw [hk] at this; simp at this
    | some _ => rfl

/-- C28.  In every history of every concurrent search: when an action already selected at node `d` is selected there again, every
valid action of `d` has been selected at `d` before. -/
theorem c28_untried_first (hp : cfg.prior = none) (he : cfg.epsilon ≤ 0) (htb : Leftover tb)
    (hr : Reachable env m (uct cfg m) k s0 dp tm tb st h) {h2 h1 : List (Event S A 𝕜)} {w d c : Nat} {a : A}
    (hh : h = h2 ++ .selected w d a c :: h1) {w' c' : Nat} (hrep : .selected w' d a c' ∈ h1) {s : S} (hst : stateOf st d = some s)
    {b : A} (hb : b ∈ env.actions s) : ∃ w c, .selected w d b c ∈ h1 := by
  obtain ⟨s1, s2, _, g1, _, E, _, g2⟩ := reach_prefix hr hh
  obtain ⟨I1, C1⟩ := reach_both (uct_valid cfg m) htb g1
  have hchild := C1.evSel _ _ _ _ hrep
  obtain ⟨nd, nc, hd, _⟩ := childC_facts I1.tree hchild
  have hf : find? a nd.kids = some c' := by simpa [childC, hd] using hchild
  have hlt : d < s1.dn.length := (List.getElem?_eq_some_iff.1 hd).1
  have hst1 : nd.state = s := by
    have e1 : stateOf s1 d = some nd.state := by simp [stateOf, hd]
    have e2 := ((le_eff E).trans g2).stateOf e1
    rw [hst] at e2
    simpa using e2.symm
  have hex : ∃ nd', s2.dn[d]? = some nd' := by
    have hlen : s1.dn.length ≤ s2.dn.length := by cases E <;> simp
    exact ⟨_, List.getElem?_eq_getElem (Nat.lt_of_lt_of_le hlt hlen)⟩
  obtain ⟨nd', hd'⟩ := hex
  rcases dn_chg E hd' with ⟨nd0, hd0, hchg⟩ | ⟨h0, _⟩
  · rw [hd] at hd0
    simp only [Option.some.injEq] at hd0
    subst hd0
    cases hchg with
    | same h0 => simp [Event.touchesD] at h0
    | selNew hl ha hf' => rw [hf] at hf'; simp at hf'
    | selOld hl ha hf' =>
      obtain ⟨u, raw, iter, _, _, _, hsel⟩ := (selectable_iff cfg _ a).1 ha
      have hall := c28_untried_first_at_node hp he hsel
        (by rw [Tried]; exact (mem_kidsY_keys I1.tree hd rfl a).2 ⟨c', hf⟩)
      have hbt := hall b (by simpa [viewOf, hst1] using hb)
      rw [Tried] at hbt
      obtain ⟨cb, hcb⟩ := (mem_kidsY_keys I1.tree hd rfl b).1 hbt
      obtain ⟨w2, hw2⟩ := reach_selKid g1 d nd b cb hd (find?_mem hcb)
      exact ⟨w2, cb, hw2⟩
  · omega

/-- In the toy search the third trial repeats action 1 at the root, after actions 0 and 1 have been tried. -/
example : ∃ st h, Reachable Toy.env Toy.mgr (uct (Toy.cfg 1 0) Toy.mgr) 2 0 0 0 [] st h ∧
    ((h[1]? == some (.selected 0 0 1 1)) && (stateOf st 0 == some 0) &&
     ((h.drop 2).contains (.selected 0 0 0 0)) && ((h.drop 2).contains (.selected 1 0 1 1))) = true :=
  Toy.run 1 0 1 _ (by decide +kernel)

/-- Repeating an action while the other one is untried is not a possible schedule. -/
example : execFrom Toy.env Toy.mgr (uct (Toy.cfg 1 0) Toy.mgr) (init Toy.env Toy.mgr (uct (Toy.cfg 1 0) Toy.mgr) 2 0 0 0 []) []
    [(0, .go), (1, .go), (0, .act 0), (1, .act 0)] = none := by decide +kernel

/-! ## C29 -/

/-- C29.  With a prior, or when every valid action has been tried, the selected action maximises the UCB formula (outside epsilon
exploration). -/
theorem c29_argmax {v : View S A (Stats 𝕜) (Stats 𝕜)} {u : 𝕜} {raw : Nat} {iter : List (A × 𝕜) → List (A × 𝕜)} {prior : A → 𝕜}
    {bias : 𝕜} (hi : IterOk iter) (hp : PriorIs cfg v prior) (hb : BiasIs cfg v bias)
    (hall : cfg.prior ≠ none ∨ ∀ b ∈ v.actions, Tried v b) (hu : cfg.epsilon ≤ 0 ∨ cfg.epsilon ≤ u) {a : A}
    (hs : selectAction cfg v u raw iter = some a) :
    a ∈ v.actions ∧ ∀ b ∈ v.actions, score cfg.term prior bias v b ≤ score cfg.term prior bias v a := by
  have hbias : bias = biasOf cfg v := by
    have := bias_spec cfg v
    unfold BiasIs at hb this
    split at hb
    · rename_i hc
      rw [if_pos hc] at this
      exact hb.unique this
    · rename_i hc
      rw [if_neg hc] at this
      rw [hb, this]
  subst hbias
  refine ⟨(selectAction_mem hi hs).1, ?_⟩
  rw [selectAction, if_neg (fun hc => by rcases hu with h | h; exacts [absurd hc.1 (not_lt.2 h), absurd hc.2 (not_lt.2 h)]),
    selectUcb, if_neg ?_, fill_eq cfg v hp _ (fun _ h => h)] at hs
  · simp only [Option.bind_some] at hs
    obtain ⟨h1, _⟩ := getMaxKey_some hs
    rw [isBest_iter hi] at h1
    obtain ⟨val, hval, hbest⟩ := h1
    simp only [List.mem_map, Prod.mk.injEq] at hval
    obtain ⟨a', _, rfl, rfl⟩ := hval
    intro b hb
    exact hbest (b, score cfg.term prior (biasOf cfg v) v b) (List.mem_map.2 ⟨b, hb, rfl⟩)
  · rintro ⟨h1, h2⟩
    rcases hall with h | h
    · simp [hasPrior] at h1; exact h h1
    · obtain ⟨b, hb⟩ := List.exists_mem_of_length_pos h2
      rw [untried, List.mem_filter] at hb
      have := (kid_some_iff v b).2 (h b hb.1)
      simp [Option.isNone_iff_eq_none] at hb
      rw [hb.2] at this
      simp at this

/-- C29.  Selection succeeds for every draw, and every maximiser is selected for some draw, provided the best value is at
least `numeric_limits<double>::lowest()`. -/
theorem c29_selection_total {v : View S A (Stats 𝕜) (Stats 𝕜)} {prior : A → 𝕜} {bias : 𝕜}
    (hp : PriorIs cfg v prior) (hb : BiasIs cfg v bias)
    (hall : cfg.prior ≠ none ∨ ∀ b ∈ v.actions, Tried v b) (he : cfg.epsilon ≤ 0)
    (hlow : ∃ b ∈ v.actions, cfg.low ≤ score cfg.term prior bias v b) :
    (∀ u raw iter, IterOk iter → ∃ a, selectAction cfg v u raw iter = some a) ∧
    (∀ a ∈ v.actions, (∀ b ∈ v.actions, score cfg.term prior bias v b ≤ score cfg.term prior bias v a) →
      ∃ u raw iter, 0 ≤ u ∧ u < 1 ∧ IterOk iter ∧ selectAction cfg v u raw iter = some a) := by
  have hbias : bias = biasOf cfg v := by
    have := bias_spec cfg v
    unfold BiasIs at hb this
    split at hb
    · rename_i hc
      rw [if_pos hc] at this
      exact hb.unique this
    · rename_i hc
      rw [if_neg hc] at this
      rw [hb, this]
  subst hbias
  have hnot : ¬ (hasPrior cfg = false ∧ 0 < (untried v).length) := by
    rintro ⟨h1, h2⟩
    rcases hall with h | h
    · simp [hasPrior] at h1; exact h h1
    · obtain ⟨b, hb⟩ := List.exists_mem_of_length_pos h2
      rw [untried, List.mem_filter] at hb
      have := (kid_some_iff v b).2 (h b hb.1)
      simp [Option.isNone_iff_eq_none] at hb
      rw [hb.2] at this
      simp at this
  have heq : ∀ u raw iter, selectAction cfg v u raw iter =
      getMaxKey cfg.low (iter (v.actions.map fun a => (a, score cfg.term prior (biasOf cfg v) v a))) raw := by
    intro u raw iter
    rw [selectAction, if_neg (fun hc => absurd hc.1 (not_lt.2 he)), selectUcb, if_neg hnot, fill_eq cfg v hp _ (fun _ h => h)]
    rfl
  obtain ⟨b, hb, hlb⟩ := hlow
  have hmem : (b, score cfg.term prior (biasOf cfg v) v b) ∈ v.actions.map (fun a => (a, score cfg.term prior (biasOf cfg v) v a)) :=
    List.mem_map.2 ⟨b, hb, rfl⟩
  constructor
  · intro u raw iter hi
    obtain ⟨a, h1, _⟩ := c22_returns_maximiser cfg.low (iter (v.actions.map fun a => (a, score cfg.term prior (biasOf cfg v) v a))) raw
      ⟨_, (hi _ _).2 hmem, hlb⟩
    exact ⟨a, by rw [heq, h1]⟩
  · intro a ha hmax
    obtain ⟨raw, _, h1⟩ := c22_every_maximiser cfg.low (v.actions.map fun a => (a, score cfg.term prior (biasOf cfg v) v a)) a
      ⟨score cfg.term prior (biasOf cfg v) v a, List.mem_map.2 ⟨a, ha, rfl⟩, by
        intro p hp
        obtain ⟨c, hc, rfl⟩ := List.mem_map.1 hp
        exact hmax c hc⟩ ⟨_, hmem, hlb⟩
    exact ⟨0, raw, id, le_refl _, one_pos, iterOk_id, by rw [heq]; exact h1⟩

theorem uctTerm_eq : uctTerm = uctExplore := by
  funext N n
  unfold uctTerm uctExplore
  rcases Nat.eq_zero_or_pos N with rfl | hN <;> rcases Nat.eq_zero_or_pos n with rfl | hn
  · simp
  · simp [hn, Nat.max_eq_left hn]
  · simp [hN, Nat.max_eq_left hN]
  · simp [hn, Nat.max_eq_left hn, hN, Nat.max_eq_left hN]

theorem puctTerm_eq (p : ℝ) : puctTerm p = puctExplore p := by
  have hs : ∀ x : ℝ, (if p ≠ 1 / 2 then x ^ p else √x) = x ^ p := by
    intro x
    split
    · rfl
    · rename_i h
      rw [not_not] at h
      rw [h, Real.sqrt_eq_rpow]
  funext N n
  unfold puctTerm puctExplore
  have hN : (if N > 0 then (N : ℝ) else 1) = ((max N 1 : Nat) : ℝ) := by
    rcases Nat.eq_zero_or_pos N with rfl | hN
    · simp
    · simp [hN, Nat.max_eq_left hN]
  have hn : (if n > 0 then (n : ℝ) else 1) = ((max n 1 : Nat) : ℝ) := by
    rcases Nat.eq_zero_or_pos n with rfl | hn
    · simp
    · simp [hn, Nat.max_eq_left hn]
  simp only [hN, hn]
  rw [← hs]
  split <;> rfl

section real
variable {cfg : Cfg S A ℝ} {v : View S A (Stats ℝ) (Stats ℝ)} {u : ℝ} {raw : Nat} {iter : List (A × ℝ) → List (A × ℝ)} {prior : A → ℝ} {bias : ℝ}

/-- C29 for UCT: the exploration term is `sqrt(log N / n)`. -/
theorem c29_uct_argmax (hterm : cfg.term = uctTerm) (hi : IterOk iter) (hp : PriorIs cfg v prior) (hb : BiasIs cfg v bias)
    (hall : cfg.prior ≠ none ∨ ∀ b ∈ v.actions, Tried v b) (hu : cfg.epsilon ≤ 0 ∨ cfg.epsilon ≤ u) {a : A}
    (hs : selectAction cfg v u raw iter = some a) :
    a ∈ v.actions ∧ ∀ b ∈ v.actions, score uctExplore prior bias v b ≤ score uctExplore prior bias v a := by
  rw [← uctTerm_eq, ← hterm]
  exact c29_argmax hi hp hb hall hu hs

/-- C29 for PUCT: the exploration term is `N^p / n`. -/
theorem c29_puct_argmax {p : ℝ} (hterm : cfg.term = puctTerm p) (hi : IterOk iter) (hp : PriorIs cfg v prior) (hb : BiasIs cfg v bias)
    (hall : cfg.prior ≠ none ∨ ∀ b ∈ v.actions, Tried v b) (hu : cfg.epsilon ≤ 0 ∨ cfg.epsilon ≤ u) {a : A}
    (hs : selectAction cfg v u raw iter = some a) :
    a ∈ v.actions ∧ ∀ b ∈ v.actions, score (puctExplore p) prior bias v b ≤ score (puctExplore p) prior bias v a := by
  rw [← puctTerm_eq, ← hterm]
  exact c29_argmax hi hp hb hall hu hs

end real

/-- C29 in a search: whenever an action is selected at a node, in any concurrent history, then (with `s1` the state of the search
just before, and the visit being made counted) either it is an untried action of a node without prior, or it maximises
the UCB formula; and its child exists afterwards. -/
theorem c29_every_selection (he : cfg.epsilon ≤ 0) (htb : Leftover tb) (hr : Reachable env m (uct cfg m) k s0 dp tm tb st h)
    {h2 h1 : List (Event S A 𝕜)} {w d c : Nat} {a : A} (hh : h = h2 ++ .selected w d a c :: h1) :
    childC st d a = some c ∧
    ∃ s1 nd, Reachable env m (uct cfg m) k s0 dp tm tb s1 h1 ∧ s1.dn[d]? = some nd ∧
      ∀ v : View S A (Stats 𝕜) (Stats 𝕜), v = viewOf env m s1 { nd with visits := nd.visits + 1 } →
        a ∈ v.actions ∧
        ((cfg.prior = none ∧ ¬ Tried v a) ∨
         ∀ (prior : A → 𝕜) (bias : 𝕜), PriorIs cfg v prior → BiasIs cfg v bias →
          ∀ b ∈ v.actions, score cfg.term prior bias v b ≤ score cfg.term prior bias v a) := by
  obtain ⟨I, C⟩ := reach_both (uct_valid cfg m) htb hr
  refine ⟨C.evSel w d a c (by rw [hh]; simp), ?_⟩
  obtain ⟨s1, s2, w', g1, _, E, g2, _⟩ := reach_prefix hr hh
  have hall : ∀ nd : DNode S A 𝕜 (Stats 𝕜), selectable cfg (viewOf env m s1 { nd with visits := nd.visits + 1 }) a = true →
      ∀ v : View S A (Stats 𝕜) (Stats 𝕜), v = viewOf env m s1 { nd with visits := nd.visits + 1 } →
        a ∈ v.actions ∧
        ((cfg.prior = none ∧ ¬ Tried v a) ∨
         ∀ (prior : A → 𝕜) (bias : 𝕜), PriorIs cfg v prior → BiasIs cfg v bias →
          ∀ b ∈ v.actions, score cfg.term prior bias v b ≤ score cfg.term prior bias v a) := by
    intro nd hs v hv
    rw [← hv] at hs
    obtain ⟨u, raw, iter, _, _, hi, hsel⟩ := (selectable_iff cfg v a).1 hs
    refine ⟨(selectAction_mem hi hsel).1, ?_⟩
    by_cases hpr : cfg.prior = none
    · by_cases ht : Tried v a
      · right
        intro prior bias hp hb
        exact (c29_argmax hi hp hb (.inr (c28_untried_first_at_node hpr he hsel ht)) (.inl he) hsel).2
      · exact .inl ⟨hpr, ht⟩
    · right
      intro prior bias hp hb
      exact (c29_argmax hi hp hb (.inl hpr) (.inl he) hsel).2
  cases E with
  | @selOld cur path rs new nd a c hw hd hl hm ha hf => exact ⟨s1, nd, g1, hd, hall nd ha⟩
  | @selNew cur path rs new nd a hw hd hl hm ha hf => exact ⟨s1, nd, g1, hd, hall nd ha⟩

/-- At the root of the toy search with bias 1, `N = 3`, `n = 1` for both actions and average returns 102 and 107: action 1 must be
chosen, and action 0 cannot be; with bias 100 action 1 is still the choice. -/
example : (Toy.final 1 0 1).isSome = true ∧ (Toy.final 1 0 0).isSome = false := by decide +kernel

/-- The hypotheses of `c29_uct_argmax` and `c29_puct_argmax` are met by a node with two tried actions, automatic bias and an
opponent to move; there the selected action is the one with the lower average. -/
noncomputable def exCfg (term : Nat → Nat → ℝ) : Cfg Unit Bool ℝ :=
  { bias := -1, pseudo := 0, mostVisited := true, epsilon := 0, prior := none, term := term, low := -1000000 }

def exView : View Unit Bool (Stats ℝ) (Stats ℝ) :=
  { state := (), depth := 0, time := 1, opp := true, visits := 2, x := ⟨2, 0⟩, actions := [false, true],
    kids := [(true, 1, ⟨1, 3⟩), (false, 1, ⟨1, -7⟩)] }

theorem exView_prior (term : Nat → Nat → ℝ) : PriorIs (exCfg term) exView (fun _ => 1) := by
  intro a _; simp [exCfg]

theorem exView_bias (term : Nat → Nat → ℝ) : BiasIs (exCfg term) exView 7 := by
  simp only [BiasIs, exCfg, if_true]
  constructor
  · right; exact ⟨false, by simp [exView], by simp [Tried, exView], by simp [avgOf, exView, find?]⟩
  · rintro x (hx | ⟨a, -, -, rfl⟩)
    · simp only [Set.mem_singleton_iff] at hx; subst hx; norm_num
    · cases a <;> simp [avgOf, exView, find?]
      norm_num

theorem exView_tried : ∀ b ∈ exView.actions, Tried exView b := by
  intro b _; cases b <;> simp [Tried, exView]

example : ∃ a, selectAction (exCfg uctTerm) exView 0 0 id = some a ∧
    ∀ b ∈ exView.actions, score uctExplore (fun _ => 1) 7 exView b ≤ score uctExplore (fun _ => 1) 7 exView a := by
  obtain ⟨h1, _⟩ := c29_selection_total (cfg := exCfg uctTerm) (exView_prior _) (exView_bias _) (.inr exView_tried) (le_refl _)
    ⟨false, by simp [exView], by
      simp only [exCfg, score, exView, avgOf, visitsOf, find?]
      have : (0 : ℝ) ≤ uctTerm 2 1 := Real.sqrt_nonneg _
      norm_num
      linarith⟩
  obtain ⟨a, ha⟩ := h1 0 0 id iterOk_id
  exact ⟨a, ha, (c29_uct_argmax rfl iterOk_id (exView_prior _) (exView_bias _) (.inr exView_tried) (.inl (le_refl _)) ha).2⟩

/-! ## C30 -/

/-- C30, `recommend_most_visited`: the recommendation is defined and valid; if some action has a child, it is a tried action
with the largest visit count. -/
theorem c30_most_visited {lowI : Int} (hlow : lowI ≤ 0) {v : View S A (Stats 𝕜) (Stats 𝕜)} (hm : cfg.mostVisited = true)
    (hne : v.actions ≠ []) (hk : ∀ a, Tried v a → a ∈ v.actions) (raw : Nat) (iter : List (A × 𝕜) → List (A × 𝕜))
    {iterI : List (A × Int) → List (A × Int)} (hi : IterOk iterI) :
    ∃ a, recommend cfg lowI v raw iter iterI = some a ∧ a ∈ v.actions ∧ ((∃ b, Tried v b) → Tried v a) ∧
      ∀ b, Tried v b → visitsOf v b ≤ visitsOf v a := by
  rw [recommend, if_pos hm, recommendVisited]
  have hmem : ∀ b, Tried v b → (b, (visitsOf v b : Int)) ∈ v.actions.filterMap fun a => (kid v a).map fun y => (a, (y.1 : Int)) := by
    intro b hb
    refine List.mem_filterMap.2 ⟨b, hk b hb, ?_⟩
    have := (kid_some_iff v b).2 hb
    obtain ⟨y, hy⟩ := Option.isSome_iff_exists.1 this
    unfold kid at hy ⊢
    simp [hy, visitsOf]
  by_cases hex : ∃ b, Tried v b
  · obtain ⟨b, hb⟩ := hex
    have hl := List.length_pos_of_mem (hmem b hb)
    rw [if_neg (by omega)]
    obtain ⟨a, h1, val, h2, h3⟩ := c22_returns_maximiser lowI (iterI _) raw ⟨_, (hi _ _).2 (hmem b hb), by simp; omega⟩
    rw [hi, List.mem_filterMap] at h2
    obtain ⟨a', ha', h4⟩ := h2
    cases hka : kid v a' with
    | none => rw [hka] at h4; simp at h4
    | some y =>
      rw [hka] at h4
      simp at h4
      obtain ⟨rfl, rfl⟩ := h4
      refine ⟨a', h1, ha', fun _ => (kid_some_iff v a').1 (by rw [hka]; rfl), ?_⟩
      intro b' hb'
      have := h3 _ ((hi _ _).2 (hmem b' hb'))
      dsimp only at this
      have hva : visitsOf v a' = y.1 := by unfold kid at hka; simp [visitsOf, hka]
      rw [hva]
      exact_mod_cast this
  · have hnil : (v.actions.filterMap fun a => (kid v a).map fun y => (a, (y.1 : Int))) = [] := by
      rw [List.filterMap_eq_nil_iff]
      intro a _
      cases hka : kid v a with
      | none => rfl
      | some y => exact absurd ⟨a, (kid_some_iff v a).1 (by rw [hka]; rfl)⟩ hex
    rw [hnil, if_pos List.length_nil]
    obtain ⟨a, ha⟩ := sampleUniform_defined v.actions raw hne
    exact ⟨a, ha, (sampleUniform_mem ha).1, fun h => absurd h hex, fun b hb => absurd ⟨b, hb⟩ hex⟩

/-- C30, otherwise: the recommendation is defined and valid; if some action has a child, it is a tried action with the best average
return for the player to move. -/
theorem c30_best_average (lowI : Int) {v : View S A (Stats 𝕜) (Stats 𝕜)} (hm : cfg.mostVisited = false)
    (hlow : ∀ b, Tried v b → cfg.low ≤ (if v.opp then -1 else 1) * avgOf v b)
    (hne : v.actions ≠ []) (hk : ∀ a, Tried v a → a ∈ v.actions) (raw : Nat) {iter : List (A × 𝕜) → List (A × 𝕜)} (hi : IterOk iter)
    (iterI : List (A × Int) → List (A × Int)) :
    ∃ a, recommend cfg lowI v raw iter iterI = some a ∧ a ∈ v.actions ∧ ((∃ b, Tried v b) → Tried v a) ∧
      ∀ b, Tried v b → (if v.opp then -1 else 1) * avgOf v b ≤ (if v.opp then -1 else 1) * avgOf v a := by
  rw [recommend, if_neg (by simp [hm]), recommendBest]
  have hmem : ∀ b, Tried v b → (b, (if v.opp then -1 else 1) * avgOf v b) ∈
      v.actions.filterMap fun a => (kid v a).map fun y => (a, oppCoeff v * y.2.avg) := by
    intro b hb
    refine List.mem_filterMap.2 ⟨b, hk b hb, ?_⟩
    have := (kid_some_iff v b).2 hb
    obtain ⟨y, hy⟩ := Option.isSome_iff_exists.1 this
    unfold kid at hy ⊢
    simp only [hy, avgOf, oppCoeff, Option.map_some, Option.getD_some]
  by_cases hex : ∃ b, Tried v b
  · obtain ⟨b, hb⟩ := hex
    have hl := List.length_pos_of_mem (hmem b hb)
    rw [if_neg (by omega)]
    obtain ⟨a, h1, val, h2, h3⟩ := c22_returns_maximiser cfg.low (iter _) raw ⟨_, (hi _ _).2 (hmem b hb), hlow b hb⟩
    rw [hi, List.mem_filterMap] at h2
    obtain ⟨a', ha', h4⟩ := h2
    cases hka : kid v a' with
    | none => rw [hka] at h4; simp at h4
    | some y =>
      rw [hka] at h4
      simp only [Option.map_some, Option.some.injEq, Prod.mk.injEq] at h4
      obtain ⟨rfl, rfl⟩ := h4
      refine ⟨a', h1, ha', fun _ => (kid_some_iff v a').1 (by rw [hka]; rfl), ?_⟩
      intro b' hb'
      have := h3 _ ((hi _ _).2 (hmem b' hb'))
      have hva : avgOf v a' = y.2.avg := by unfold kid at hka; simp [avgOf, hka]
      rw [hva]
      exact this
  · have hnil : (v.actions.filterMap fun a => (kid v a).map fun y => (a, oppCoeff v * y.2.avg)) = [] := by
      rw [List.filterMap_eq_nil_iff]
      intro a _
      cases hka : kid v a with
      | none => rfl
      | some y => exact absurd ⟨a, (kid_some_iff v a).1 (by rw [hka]; rfl)⟩ hex
    rw [hnil, if_pos List.length_nil]
    obtain ⟨a, ha⟩ := sampleUniform_defined v.actions raw hne
    exact ⟨a, ha, (sampleUniform_mem ha).1, fun h => absurd h hex, fun b hb => absurd ⟨b, hb⟩ hex⟩

/-- C30 for the nodes of a search: the recommendation of any node of any reachable tree whose state has actions is valid and among
the actions selected at that node, if there are any. -/
theorem c30_recommends_selected_actions {lowI : Int} (hlowI : lowI ≤ 0) (htb : Leftover tb)
    (hr : Reachable env m (uct cfg m) k s0 dp tm tb st h) {d : Nat} {nd : DNode S A 𝕜 (Stats 𝕜)} (hd : st.dn[d]? = some nd)
    (hne : env.actions nd.state ≠ [])
    (hlow : ∀ a c nc, childC st d a = some c → st.cn[c]? = some nc → cfg.low ≤ (if isOpponent m nd.time then -1 else 1) * nc.y.avg)
    (raw : Nat) {iter : List (A × 𝕜) → List (A × 𝕜)} (hi : IterOk iter) {iterI : List (A × Int) → List (A × Int)} (hiI : IterOk iterI) :
    ∃ a, recommend cfg lowI (viewOf env m st nd) raw iter iterI = some a ∧ a ∈ env.actions nd.state ∧
      ((∃ w b c, .selected w d b c ∈ h) → ∃ w c, .selected w d a c ∈ h) := by
  obtain ⟨I, C⟩ := reach_both (uct_valid cfg m) htb hr
  have htr : ∀ a, Tried (viewOf env m st nd) a ↔ ∃ w c, .selected w d a c ∈ h := by
    intro a
    rw [Tried]
    show a ∈ (kidsY st nd).map Prod.fst ↔ _
    rw [mem_kidsY_keys I.tree hd rfl]
    constructor
    · rintro ⟨c, hc⟩
      obtain ⟨w, hw⟩ := reach_selKid hr d nd a c hd (find?_mem hc)
      exact ⟨w, c, hw⟩
    · rintro ⟨w, c, hw⟩
      have := C.evSel w d a c hw
      exact ⟨c, by simpa [childC, hd] using this⟩
  have hk : ∀ a, Tried (viewOf env m st nd) a → a ∈ (viewOf env m st nd).actions := by
    intro a ha
    obtain ⟨w, c, hw⟩ := (htr a).1 ha
    obtain ⟨nd', nc, h1, h2, h3⟩ := childC_facts I.tree (C.evSel w d a c hw)
    rw [hd] at h1
    simp at h1
    subst h1
    exact h3.2.2.2.2.2
  have conv : ∀ a, ((∃ b, Tried (viewOf env m st nd) b) → Tried (viewOf env m st nd) a) →
      ((∃ w b c, .selected w d b c ∈ h) → ∃ w c, .selected w d a c ∈ h) := by
    rintro a ha ⟨w, b, c, hw⟩
    exact (htr a).1 (ha ⟨b, (htr b).2 ⟨w, c, hw⟩⟩)
  cases hm : cfg.mostVisited with
  | true =>
    obtain ⟨a, h1, h2, h3, _⟩ := c30_most_visited hlowI hm hne hk raw iter hiI
    exact ⟨a, h1, h2, conv a h3⟩
  | false =>
    have hl : ∀ b, Tried (viewOf env m st nd) b →
        cfg.low ≤ (if (viewOf env m st nd).opp then -1 else 1) * avgOf (viewOf env m st nd) b := by
      intro b hb
      obtain ⟨w, c, hw⟩ := (htr b).1 hb
      have hc := C.evSel w d b c hw
      obtain ⟨nd', nc, h1, h2, h3⟩ := childC_facts I.tree hc
      have hfk := find?_kidsY I.tree hd rfl b
      have hf : find? b nd.kids = some c := by simpa [childC, hd] using hc
      rw [hf] at hfk
      simp only [Option.bind_some, h2, Option.map_some] at hfk
      have : avgOf (viewOf env m st nd) b = nc.y.avg := by
        unfold avgOf
        show ((find? b (kidsY st nd)).map fun y => y.2.avg).getD 0 = _
        rw [hfk]; rfl
      rw [this]
      exact hlow b c nc hc h2
    obtain ⟨a, h1, h2, h3, _⟩ := c30_best_average lowI hm hl hne hk raw hi iterI
    exact ⟨a, h1, h2, conv a h3⟩

/-- A node with unequal children: most visited and best average differ, and depend on the player. -/
example :
    let v (o : Bool) : View Unit Nat (Stats ℚ) (Stats ℚ) :=
      { state := (), depth := 0, time := 0, opp := o, visits := 9, x := ⟨9, 0⟩, actions := [0, 1, 2, 3],
        kids := [(2, 4, ⟨4, 5⟩), (0, 3, ⟨3, 8⟩), (1, 2, ⟨2, -6⟩)] }
    let cfg (mv : Bool) : Cfg Unit Nat ℚ :=
      { bias := -1, pseudo := 0, mostVisited := mv, epsilon := 0, prior := none, term := fun _ _ => 0, low := -1000 }
    recommend (cfg true) (-1000) (v false) 0 id id = some 2 ∧ recommend (cfg false) (-1000) (v false) 0 id id = some 0 ∧
    recommend (cfg false) (-1000) (v true) 0 id id = some 1 := by
  decide +kernel

end Verif.Uct
