import Verif.Proofs.UctStoch

/-! # Convergence of UCT in stochastic games (C102): typical searches solve the game, and searches are typical with high probability -/

namespace Verif.Uct

open Verif.Search Verif.Backups Verif.Random

set_option linter.unusedSectionVars false
set_option linter.unusedSimpArgs false

section
variable {S A : Type} [DecidableEq S] [DecidableEq A] {env : Env S A ℝ} {m : Manager S ℝ} {cfg : Cfg S A ℝ} {k : Nat} {dp : Int}
  {st : St S A ℝ (Stats ℝ) (Stats ℝ)} {h : List (Event S A ℝ)} {obs : S → A → List (S × ℝ)} {lo hi : ℝ}

theorem SolvableS.growing (G : SolvableS env m cfg obs lo hi) : Growing cfg.term := by
  rcases G.term with h | ⟨p, h1, _, h⟩ | h
  · rw [h]; exact uct_growing
  · rw [h]; exact puct_growing h1
  · exact h.1

theorem SolvableS.vanishing (G : SolvableS env m cfg obs lo hi) : Vanishing cfg.term := by
  rcases G.term with h | ⟨p, _, h2, h⟩ | h
  · rw [h]; exact uct_vanishing
  · rw [h]; exact puct_vanishing h2
  · exact h.2

/-! ## Typical searches -/

/-- Something holds at the nodes of state `s` at time `t` with `n + 1` moves to go from which enough trials went on, in all searches with typical samples. -/
def Eventually (env : Env S A ℝ) (m : Manager S ℝ) (cfg : Cfg S A ℝ) (k : Nat) (dp : Int) (obs : S → A → List (S × ℝ)) (n : Nat) (t : Int) (s : S)
    (P : St S A ℝ (Stats ℝ) (Stats ℝ) → List (Event S A ℝ) → Nat → DNode S A ℝ (Stats ℝ) → Prop) (η : ℝ) : Prop :=
  ∀ K0 : ℝ, 0 ≤ K0 → ∃ N : Nat, ∀ (st : St S A ℝ (Stats ℝ) (Stats ℝ)) (h : List (Event S A ℝ)), Typ env m cfg k dp obs η K0 st h →
    ∀ (d : Nat) nd, st.dn[d]? = some nd → nd.state = s → nd.time = t → remaining m nd.depth = n + 1 → N ≤ trialsThrough d h → P st h d nd

section
variable {n : Nat} {t : Int} {s : S} {η : ℝ}

theorem Eventually.and {P Q : St S A ℝ (Stats ℝ) (Stats ℝ) → List (Event S A ℝ) → Nat → DNode S A ℝ (Stats ℝ) → Prop}
    (hP : Eventually env m cfg k dp obs n t s P η) (hQ : Eventually env m cfg k dp obs n t s Q η) :
    Eventually env m cfg k dp obs n t s (fun st h d nd => P st h d nd ∧ Q st h d nd) η := by
  intro K0 hK0
  obtain ⟨N1, h1⟩ := hP K0 hK0
  obtain ⟨N2, h2⟩ := hQ K0 hK0
  exact ⟨max N1 N2, fun st h R d nd e1 e2 e3 e4 e5 =>
    ⟨h1 st h R d nd e1 e2 e3 e4 (le_trans (le_max_left _ _) e5), h2 st h R d nd e1 e2 e3 e4 (le_trans (le_max_right _ _) e5)⟩⟩

theorem Eventually.all {α : Type} (l : List α) {P : α → St S A ℝ (Stats ℝ) (Stats ℝ) → List (Event S A ℝ) → Nat → DNode S A ℝ (Stats ℝ) → Prop}
    (hP : ∀ a ∈ l, Eventually env m cfg k dp obs n t s (P a) η) :
    Eventually env m cfg k dp obs n t s (fun st h d nd => ∀ a ∈ l, P a st h d nd) η := by
  intro K0 hK0
  obtain ⟨N, hN⟩ := uniformN l (fun a N => ∀ (st : St S A ℝ (Stats ℝ) (Stats ℝ)) (h : List (Event S A ℝ)), Typ env m cfg k dp obs η K0 st h →
      ∀ (d : Nat) nd, st.dn[d]? = some nd → nd.state = s → nd.time = t → remaining m nd.depth = n + 1 → N ≤ trialsThrough d h → P a st h d nd)
    (fun a K K' hK H st h R d nd e1 e2 e3 e4 e5 => H st h R d nd e1 e2 e3 e4 (hK.trans e5)) (fun a ha => hP a ha K0 hK0)
  exact ⟨N, fun st h R d nd e1 e2 e3 e4 e5 a ha => hN a ha st h R d nd e1 e2 e3 e4 e5⟩

theorem ev_action (G : SolvableS env m cfg obs lo hi) {ε : ℝ} (hε : 0 < ε) {a : A} (ha : a ∈ env.actions s)
    (H : DevCS env m cfg k dp obs η (ε / 2) n t s a) :
    Eventually env m cfg k dp obs n t s (fun st _ d _ => ∃ c nc, childC st d a = some c ∧ st.cn[c]? = some nc ∧
      |nc.y.avg - actionValue env m obs n t s a| ≤ ε) η := by
  intro K0 hK0
  obtain ⟨B, hB0, hB⟩ := avg_closeS H (by linarith) hK0
  obtain ⟨N, hN⟩ := backed_often G.fair G.bounded G.growing k dp s (B + 2 * k)
  refine ⟨N, ?_⟩
  intro st h R d nd hd hs ht hrem hn
  obtain ⟨c, nc, h1, h2, h3, _⟩ := (hN st h R.1 d nd hd hs hn a ha).2 (by omega)
  have := hB st h R d nd c nc hd hs ht hrem h1 h2 (by omega)
  exact ⟨c, nc, h1, h2, by linarith⟩

theorem ev_node (G : SolvableS env m cfg obs lo hi) {ε : ℝ} (hε : 0 < ε) (hsink : env.isSink s = false)
    (H : DevDS env m cfg k dp obs η (ε / 2) (n + 1) t s) :
    Eventually env m cfg k dp obs n t s (fun _ _ _ nd => |nd.x.avg - expValue env m obs (n + 1) t s| ≤ ε) η := by
  intro K0 hK0
  obtain ⟨K, hK, hD⟩ := H K0 hK0
  set V := expValue env m obs (n + 1) t s with hV
  set M := absBound m lo hi dp with hM
  have hM0 : 0 ≤ M := absBound_nonneg G.bounded dp
  set p : Nat := if m.heuristic.isSome then cfg.pseudo else 0 with hp
  set K' : ℝ := ε / 2 * ((k + 1 : Nat) : ℝ) + K + ((k + 1 : Nat) : ℝ) * (M + |V|) with hK'
  obtain ⟨L, hL⟩ := exists_nat_ge ((p * |heurOf env m s - V| + K') / (ε / 2))
  refine ⟨L + 1 + (k + 1) + 2 * k * (env.actions s).length, ?_⟩
  intro st h T d nd hd hs ht hrem hn
  obtain ⟨s0, tm, tb, htb, hr⟩ := T.1
  have R : Run env m cfg k dp st h := ⟨s0, tm, tb, htb, hr⟩
  have I := reach_inv (uct_valid cfg m) htb hr
  have hl : isLeaf env m nd = false := by
    unfold isLeaf
    rw [hs, hsink]
    simp only [Bool.false_or, decide_eq_false_iff_not]
    unfold remaining at hrem
    omega
  have hends := ends_le_one (uct_valid cfg m) htb G.noTable hr hd hl
  have hheur : nd.heur = heurOf env m s := by
    have : nd.heur = heurOf env m nd.state := I.tree.heap.dHeur d nd.skel (by simp [hd])
    rw [this, hs]
  obtain ⟨q, hq, hfl⟩ := flow_decision (uct_valid cfg m) htb G.noTable hr hd
  have hfl' : (returnsD d h : Multiset ℝ) + (q + Multiset.replicate (h.countP (Event.endAt d)) nd.heur) = below d nd h := by
    rw [← add_assoc, hfl]; rfl
  have hcard : (q + Multiset.replicate (h.countP (Event.endAt d)) nd.heur).card ≤ k + 1 := by
    rw [Multiset.card_add, Multiset.card_replicate]; omega
  have h1 := dev_transfer hfl' hcard (by linarith : (0:ℝ) ≤ ε / 2) hM0
    (fun x hx => below_abs G.bounded R hd x (by rw [← hfl']; exact Multiset.mem_add.2 (.inr hx)))
    (hD st h T d nd hd hs ht hrem)
  simp only [Multiset.sum_coe, Multiset.coe_card] at h1
  rw [← hK'] at h1
  have h2 := below_card R hd
  rw [hs] at h2
  have h3 : (below d nd h).card ≤ (returnsD d h).length + (k + 1) := by
    rw [← hfl', Multiset.card_add (returnsD d h : Multiset ℝ), Multiset.coe_card]; omega
  have h4 : L + 1 ≤ (returnsD d h).length := by omega
  have h5 := (c27_decision_average hr hd hp).2 (by omega)
  rw [hheur] at h5
  have hlen : (L : ℝ) + 1 ≤ (returnsD d h).length := by exact_mod_cast h4
  have hL0 : (0:ℝ) ≤ L := by positivity
  have hp0 : (0:ℝ) ≤ p := by positivity
  have hden : (0 : ℝ) < p + (returnsD d h).length := by linarith
  have e1 : nd.x.avg - V = (p * (heurOf env m s - V) + ((returnsD d h).sum - (returnsD d h).length * V)) /
      (p + (returnsD d h).length) := by
    rw [h5]
    push_cast
    field_simp
    ring
  rw [e1, abs_div, abs_of_pos hden, div_le_iff₀ hden]
  refine (abs_add_le _ _).trans ?_
  rw [abs_mul, Nat.abs_cast]
  rw [div_le_iff₀ (by linarith)] at hL
  nlinarith

/-- The sign of the player to move, and what is best for them. -/
theorem best_action (hsink : env.isSink s = false) (hemp : env.actions s ≠ []) :
    (∃ a ∈ env.actions s, actionValue env m obs n t s a = expValue env m obs (n + 1) t s) ∧
    ∀ b ∈ env.actions s, (if isOpponent m t then (-1 : ℝ) else 1) * actionValue env m obs n t s b ≤
      (if isOpponent m t then (-1 : ℝ) else 1) * expValue env m obs (n + 1) t s := by
  obtain ⟨hmem, hbest⟩ := bestOf_spec (opp := isOpponent m t) (l := (env.actions s).map fun a => actionValue env m obs n t s a)
    (by intro h0; rw [List.map_eq_nil_iff] at h0; exact hemp h0)
  have hV : expValue env m obs (n + 1) t s = bestOf (isOpponent m t) ((env.actions s).map fun a => actionValue env m obs n t s a) := by
    simp [expValue, hsink, actionValue]
  rw [← hV] at hmem hbest
  obtain ⟨a, ha, haV⟩ := List.mem_map.1 hmem
  exact ⟨⟨a, ha, haV⟩, fun b hb => hbest _ (List.mem_map.2 ⟨b, hb, rfl⟩)⟩

/-- Actions that are not optimal are worse by a gap. -/
theorem gap_exists (hsink : env.isSink s = false) (hemp : env.actions s ≠ []) :
    ∃ g : ℝ, 0 < g ∧ ∀ b ∈ env.actions s, actionValue env m obs n t s b ≠ expValue env m obs (n + 1) t s →
      g ≤ (if isOpponent m t then (-1 : ℝ) else 1) * expValue env m obs (n + 1) t s -
        (if isOpponent m t then (-1 : ℝ) else 1) * actionValue env m obs n t s b := by
  obtain ⟨_, hbest⟩ := best_action (m := m) (obs := obs) (n := n) (t := t) hsink hemp
  refine uniformE (env.actions s) (fun b g => actionValue env m obs n t s b ≠ expValue env m obs (n + 1) t s →
      g ≤ (if isOpponent m t then (-1 : ℝ) else 1) * expValue env m obs (n + 1) t s -
        (if isOpponent m t then (-1 : ℝ) else 1) * actionValue env m obs n t s b) (fun a e e' he H hne => he.trans (H hne)) ?_
  intro b hb
  by_cases hq : actionValue env m obs n t s b = expValue env m obs (n + 1) t s
  · exact ⟨1, one_pos, fun hne => absurd hq hne⟩
  · refine ⟨_, ?_, fun _ => le_refl _⟩
    have := hbest b hb
    rcases lt_or_eq_of_le this with h | h
    · linarith
    · exfalso
      apply hq
      split at h <;> linarith

theorem ev_share (G : SolvableS env m cfg obs lo hi) {a b : A} (ha : a ∈ env.actions s) (hb : b ∈ env.actions s) {g : ℝ} (hg : 0 < g)
    (hab : g ≤ (if isOpponent m t then (-1 : ℝ) else 1) * actionValue env m obs n t s a -
      (if isOpponent m t then (-1 : ℝ) else 1) * actionValue env m obs n t s b)
    (H : ∀ a ∈ env.actions s, DevCS env m cfg k dp obs η (g / 8) n t s a) {δ : ℝ} (hδ : 0 < δ) :
    Eventually env m cfg k dp obs n t s (fun _ h d _ => timesSelected d b h ≤ δ * trialsThrough d h) η := by
  intro K0 hK0
  obtain ⟨K, hK, hR⟩ := rareS hK0 G.fair G.bounded G.growing G.vanishing G.noTable ha hb ((H a ha).mono (by linarith)) ((H b hb).mono (by linarith))
    (lt_of_lt_of_le hg hab) rfl (δ := δ / 2) (by linarith)
  obtain ⟨N, hN⟩ := exists_nat_ge (K / (δ / 2))
  refine ⟨N, ?_⟩
  intro st h R d nd hd hs ht hrem hn
  have h1 := hR st h R d nd hd hs ht hrem
  rw [div_le_iff₀ (by linarith)] at hN
  have h2 : (N : ℝ) ≤ trialsThrough d h := by exact_mod_cast hn
  nlinarith

end

/-- What a trial through the node tells about its actions. -/
theorem tried_base (R : Run env m cfg k dp st h) {d : Nat} {nd : DNode S A ℝ (Stats ℝ)} (hd : st.dn[d]? = some nd) (hn : 1 ≤ trialsThrough d h) :
    env.actions nd.state ≠ [] ∧ (∀ a, Tried (viewOf env m st nd) a → a ∈ env.actions nd.state) := by
  obtain ⟨s0, tm, tb, htb, hr⟩ := R
  obtain ⟨I, C⟩ := reach_both (uct_valid cfg m) htb hr
  have hact : ∀ p ∈ nd.kids, p.1 ∈ env.actions nd.state := by
    intro p hp
    have := I.tree.heap.dAct d nd.skel p.1 p.2 (by simp [hd]) hp
    simpa only [DNode.skel] using this
  constructor
  · intro h0
    have h1 := trials_sum I C hd
    have h2 := kids_le I hd
    rw [h0] at h2
    have h3 : nd.kids = [] := List.length_eq_zero_iff.1 (by simpa using h2)
    rw [h3] at h1
    simp at h1
    omega
  · intro a ha
    obtain ⟨c, hc⟩ := (tried_iff I hd a).1 ha
    obtain ⟨nd1, nc, g1, g2, g3, _⟩ := childC_facts I.tree hc
    rw [hd] at g1; simp at g1; subst g1
    exact hact _ g3

/-- If suboptimal actions are rarely selected and the values of all actions are close to the truth, the recommendation is optimal. -/
theorem recommend_of (hb : Bounded env m lo hi) (R : Run env m cfg k dp st h) {d : Nat} {nd : DNode S A ℝ (Stats ℝ)} (hd : st.dn[d]? = some nd)
    {lowI : Int} (hlowI : lowI ≤ 0)
    (hlow : cfg.low ≤ (remaining m dp + 1 : Nat) * lo ∧ cfg.low ≤ -((remaining m dp + 1 : Nat) * hi)) {Q : A → ℝ} {V g : ℝ} (hg : 0 < g)
    (hn : 2 * (env.actions nd.state).length * k + 1 ≤ trialsThrough d h)
    (hV : ∃ a ∈ env.actions nd.state, Q a = V)
    (hgap : ∀ b ∈ env.actions nd.state, Q b ≠ V →
      g ≤ (if isOpponent m nd.time then (-1 : ℝ) else 1) * V - (if isOpponent m nd.time then (-1 : ℝ) else 1) * Q b)
    (hshare : ∀ b ∈ env.actions nd.state, Q b ≠ V →
      timesSelected d b h ≤ 1 / (2 * (((env.actions nd.state).length : ℝ) + 1)) * trialsThrough d h)
    (havg : ∀ a ∈ env.actions nd.state, ∃ c nc, childC st d a = some c ∧ st.cn[c]? = some nc ∧ |nc.y.avg - Q a| ≤ g / 3)
    (raw : Nat) {iter : List (A × ℝ) → List (A × ℝ)} {iterI : List (A × Int) → List (A × Int)} (hit : IterOk iter) (hitI : IterOk iterI) :
    ∃ a, recommend cfg lowI (viewOf env m st nd) raw iter iterI = some a ∧ a ∈ env.actions nd.state ∧ Q a = V := by
  obtain ⟨b1, b2⟩ := tried_base R hd (by omega)
  obtain ⟨s0, tm, tb, htb, hr⟩ := R
  obtain ⟨I, C⟩ := reach_both (uct_valid cfg m) htb hr
  set L := (env.actions nd.state).length with hL
  cases hmv : cfg.mostVisited with
  | true =>
    obtain ⟨b, g1, g2, g3, g4⟩ := c30_most_visited hlowI (v := viewOf env m st nd) hmv b1 b2 raw iter hitI
    have g2' : b ∈ env.actions nd.state := g2
    refine ⟨b, g1, g2', ?_⟩
    by_contra hne
    have h1 := hshare b g2' hne
    have h2 := (visits_near htb hr hd (nd' := nd) rfl b).1
    have h3 : ∀ p ∈ nd.kids, timesSelected d p.1 h ≤ timesSelected d b h + k := by
      intro p hp
      have q1 := (visits_near htb hr hd (nd' := nd) rfl p.1).2
      have q2 := g4 p.1 ((tried_iff I hd p.1).2 ⟨p.2, childC_of_mem I.tree hd hp⟩)
      omega
    have h4 := sum_le_of (fun p : A × Nat => timesSelected d p.1 h) _ nd.kids h3
    rw [← trials_sum I C hd] at h4
    have h5 := kids_le I hd
    rw [← hL] at h5
    have h6 : trialsThrough d h ≤ L * (timesSelected d b h + k) := h4.trans (Nat.mul_le_mul_right _ h5)
    have h7 : (trialsThrough d h : ℝ) ≤ L * (timesSelected d b h + k) := by exact_mod_cast h6
    have h8 : (2 * L * k + 1 : ℝ) ≤ trialsThrough d h := by exact_mod_cast hn
    have hL0 : (0 : ℝ) ≤ L := by positivity
    have h9 : (L : ℝ) * timesSelected d b h ≤ trialsThrough d h / 2 := by
      have e : (L : ℝ) * (1 / (2 * (L + 1)) * trialsThrough d h) ≤ trialsThrough d h / 2 := by
        have : (L : ℝ) * (1 / (2 * (L + 1))) ≤ 1 / 2 := by
          rw [mul_one_div, div_le_div_iff₀ (by positivity) (by norm_num)]
          linarith
        have hT : (0:ℝ) ≤ trialsThrough d h := by positivity
        nlinarith
      exact (mul_le_mul_of_nonneg_left h1 hL0).trans e
    nlinarith
  | false =>
    have hl : ∀ b, Tried (viewOf env m st nd) b →
        cfg.low ≤ (if (viewOf env m st nd).opp then -1 else 1) * avgOf (viewOf env m st nd) b := by
      intro b _
      have h1 := avgOf_bound hb htb hr hd (nd' := nd) rfl b
      have h2 : cfg.low ≤ -absBound m lo hi dp := by
        obtain ⟨l1, l2⟩ := hlow
        push_cast at l1 l2
        unfold absBound
        rcases max_choice (-lo) hi with h | h <;> rw [h]
        · linarith
        · linarith
      rw [abs_le] at h1
      split <;> linarith [h1.1, h1.2]
    obtain ⟨b, g1, g2, g3, g4⟩ := c30_best_average lowI (v := viewOf env m st nd) hmv hl b1 b2 raw hit iterI
    have g2' : b ∈ env.actions nd.state := g2
    refine ⟨b, g1, g2', ?_⟩
    by_contra hne
    obtain ⟨a, ha, haV⟩ := hV
    have hgb := hgap b g2' hne
    obtain ⟨ca, nca, a1, a2, a3⟩ := havg a ha
    obtain ⟨cb, ncb, c1, c2, c3⟩ := havg b g2'
    have t3 := g4 a ((tried_iff I hd a).2 ⟨ca, a1⟩)
    rw [(avgOf_view I.tree hd (nd' := nd) rfl a).1, (avgOf_view I.tree hd (nd' := nd) rfl b).1, a1, c1] at t3
    simp only [Option.bind_some, a2, c2, Option.map_some, Option.getD_some] at t3
    have hopp : (viewOf env m st nd).opp = isOpponent m nd.time := rfl
    rw [hopp] at t3
    rw [haV, abs_le] at a3
    rw [abs_le] at c3
    split at t3 <;> rename_i hx <;> simp only [hx, if_true, if_false, Bool.false_eq_true] at hgb <;> linarith [a3.1, a3.2, c3.1, c3.2]

/-- In a search with typical samples, a node from which enough trials went on has solved the game. -/
theorem solved_typ (G : SolvableS env m cfg obs lo hi) {ε : ℝ} (hε : 0 < ε) (k : Nat) {dp : Int} (n : Nat) (t : Int) {s : S}
    (hsink : env.isSink s = false) {lowI : Int} (hlowI : lowI ≤ 0)
    (hlow : cfg.low ≤ (remaining m dp + 1 : Nat) * lo ∧ cfg.low ≤ -((remaining m dp + 1 : Nat) * hi)) :
    ∃ η0 : ℝ, 0 < η0 ∧ ∀ η : ℝ, 0 < η → η ≤ η0 →
      Eventually env m cfg k dp obs n t s (fun st h d _ => SolvedAt env m cfg obs lowI ε st h d) η := by
  by_cases hemp : env.actions s = []
  · refine ⟨1, one_pos, fun η _ _ K0 _ => ⟨1, ?_⟩⟩
    intro st h R d nd hd hs ht hrem hn
    exact absurd (by rw [hs]; exact hemp) (tried_base R.1 hd hn).1
  obtain ⟨g, hg, hgap⟩ := gap_exists (m := m) (obs := obs) (n := n) (t := t) hsink hemp
  obtain ⟨⟨a, ha, haV⟩, _⟩ := best_action (m := m) (obs := obs) (n := n) (t := t) hsink hemp
  set V := expValue env m obs (n + 1) t s with hV
  set L := (env.actions s).length with hL
  set e := min ε (g / 4) with he
  have he0 : 0 < e := lt_min hε (by linarith)
  have he1 : e ≤ ε := min_le_left _ _
  have he2 : e ≤ g / 4 := min_le_right _ _
  obtain ⟨η1, hη1, H1⟩ := devC_allS (k := k) (dp := dp) (obs := obs) G.fair G.bounded G.growing G.vanishing G.noTable n t s (ε := e / 2) (by linarith)
  obtain ⟨η2, hη2, H2⟩ := dev_allS (k := k) (dp := dp) (obs := obs) G.fair G.bounded G.growing G.vanishing G.noTable (n + 1) t s (ε := ε / 2) (by linarith)
  refine ⟨min η1 η2, lt_min hη1 hη2, fun η h0 h1 => ?_⟩
  have HC := H1 η h0 (h1.trans (min_le_left _ _))
  have HD := H2 η h0 (h1.trans (min_le_right _ _))
  set δ := min ε (1 / (2 * ((L : ℝ) + 1))) with hδ
  have hδ0 : 0 < δ := lt_min hε (by positivity)
  have E1 := ev_node G hε hsink HD
  have E2 := Eventually.all (env.actions s) fun b hb => ev_action G he0 hb (HC b hb)
  have E3 : Eventually env m cfg k dp obs n t s (fun _ h d _ => ∀ b ∈ env.actions s, actionValue env m obs n t s b ≠ V →
      timesSelected d b h ≤ δ * trialsThrough d h) η := by
    refine Eventually.all (env.actions s) fun b hb => ?_
    by_cases hq : actionValue env m obs n t s b = V
    · exact fun K0 _ => ⟨0, fun st h R d nd _ _ _ _ _ hne => absurd hq hne⟩
    · have hgb := hgap b hb hq
      rw [← haV] at hgb
      intro K0 hK0
      obtain ⟨N, hN⟩ := ev_share G ha hb hg hgb (fun a ha => (HC a ha).mono (by linarith)) hδ0 K0 hK0
      exact ⟨N, fun st h R d nd e1 e2 e3 e4 e5 _ => hN st h R d nd e1 e2 e3 e4 e5⟩
  intro K0 hK0
  obtain ⟨N, hN⟩ := (E1.and (E2.and E3)) K0 hK0
  refine ⟨max N (2 * L * k + 1), ?_⟩
  intro st h R d nd hd hs ht hrem hn
  obtain ⟨x1, x2, x3⟩ := hN st h R d nd hd hs ht hrem (le_trans (le_max_left _ _) hn)
  have hrem' : remaining m (nd.depth + 1) = n := by unfold remaining at hrem ⊢; omega
  have hT : (0 : ℝ) ≤ trialsThrough d h := by positivity
  unfold SolvedAt
  refine ⟨nd, hd, ?_, ?_, ?_, ?_⟩
  · rw [hrem, ht, hs]; exact x1
  · rw [hrem', ht, hs]
    intro b hb
    obtain ⟨c, nc, y1, y2, y3⟩ := x2 b hb
    exact ⟨c, nc, y1, y2, y3.trans he1⟩
  · rw [hrem, hrem', ht, hs]
    intro b hb hne
    exact (x3 b hb hne).trans (mul_le_mul_of_nonneg_right (min_le_left _ _) hT)
  · intro raw iter iterI hit hitI
    rw [hrem, hrem', ht]
    refine recommend_of G.bounded R.1 hd hlowI hlow hg (Q := fun b => actionValue env m obs n t nd.state b) (V := expValue env m obs (n + 1) t nd.state)
      ?_ ?_ ?_ ?_ ?_ raw hit hitI <;> rw [hs]
    · exact le_trans (le_max_right _ _) hn
    · exact ⟨a, ha, haV⟩
    · rw [ht]; exact hgap
    · intro b hb hne
      exact (x3 b hb hne).trans (mul_le_mul_of_nonneg_right (min_le_right _ _) hT)
    · intro b hb
      obtain ⟨c, nc, y1, y2, y3⟩ := x2 b hb
      exact ⟨c, nc, y1, y2, by linarith⟩

end

end Verif.Uct
