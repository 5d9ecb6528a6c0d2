import Verif.Props.Explore

/-! # Property C76: UCT and PUCT find the value of a deterministic game, and recommend an optimal action

`gameValue` (`Verif.Spec.Tree`) is the minimax value of the game; it does not mention the search. -/

namespace Verif.Uct

open Verif.Search Verif.Backups

set_option linter.unusedSectionVars false

section
variable {S A : Type} [DecidableEq S] [DecidableEq A] {env : Env S A ℝ} {m : Manager S ℝ} {cfg : Cfg S A ℝ} {lo hi : ℝ} {next : S → A → S}

theorem uniformN {α : Type} (l : List α) (P : α → Nat → Prop) (hmono : ∀ a K K', K ≤ K' → P a K → P a K')
    (H : ∀ a ∈ l, ∃ K, P a K) : ∃ K, ∀ a ∈ l, P a K := by
  induction l with
  | nil => exact ⟨0, by simp⟩
  | cons a l ih =>
    obtain ⟨K1, h2⟩ := ih (fun b hb => H b (by simp [hb]))
    obtain ⟨K2, h4⟩ := H a (by simp)
    refine ⟨max K1 K2, ?_⟩
    intro b hb
    rcases List.mem_cons.1 hb with rfl | hb
    · exact hmono _ _ _ (le_max_right _ _) h4
    · exact hmono _ _ _ (le_max_left _ _) (h2 b hb)

theorem devC_all (G : Solvable env m cfg next lo hi) (k : Nat) (dp : Int) (n : Nat) (t : Int) (s : S) (a : A) :
    DevC env m cfg k dp next n t s a :=
  devC_of G.det G.noTable G.bounded (dev_all G.det G.fair G.bounded G.growing G.vanishing G.noTable n (t + 1) (next s a))

/-- C76, actions.  In every search and at every moment, at a node of state `s`, time `t` and `n + 1` moves before the depth limit, through
which enough trials went on, every action's value estimate is within `ε` of the action's value in the game.  How many trials are
enough depends neither on the schedule nor on the random draws. -/
theorem c76_action_values (G : Solvable env m cfg next lo hi) {ε : ℝ} (hε : 0 < ε) (k : Nat) (dp : Int) (n : Nat) (t : Int) (s : S) :
    ∃ N : Nat, ∀ {s0 : S} {tm : Int} {tb : List ((Int × S) × Option Nat)} {st : St S A ℝ (Stats ℝ) (Stats ℝ)} {h : List (Event S A ℝ)},
      Leftover tb → Reachable env m (uct cfg m) k s0 dp tm tb st h → ∀ {d : Nat} {nd}, st.dn[d]? = some nd → nd.state = s → nd.time = t →
      remaining m nd.depth = n + 1 → N ≤ trialsThrough d h → ∀ a ∈ env.actions s, ∃ c nc, childC st d a = some c ∧ st.cn[c]? = some nc ∧
        |nc.y.avg - (env.reward s a (next s a) + gameValue env m next n (t + 1) (next s a))| ≤ ε := by
  obtain ⟨N, hN⟩ := uniformN (env.actions s) (fun a N => ∀ {s0 : S} {tm : Int} {tb : List ((Int × S) × Option Nat)}
      {st : St S A ℝ (Stats ℝ) (Stats ℝ)} {h : List (Event S A ℝ)},
      Leftover tb → Reachable env m (uct cfg m) k s0 dp tm tb st h → ∀ {d : Nat} {nd}, st.dn[d]? = some nd → nd.state = s → nd.time = t →
      remaining m nd.depth = n + 1 → N ≤ trialsThrough d h → ∃ c nc, childC st d a = some c ∧ st.cn[c]? = some nc ∧
        |nc.y.avg - (env.reward s a (next s a) + gameValue env m next n (t + 1) (next s a))| ≤ ε)
    (fun a K K' hK H s0 tm tb st h e1 e2 d nd e3 e4 e5 e6 e7 => H e1 e2 e3 e4 e5 e6 (hK.trans e7)) (by
      intro a ha
      obtain ⟨B, hB0, hB⟩ := avg_close (devC_all G k dp n t s a) hε
      obtain ⟨N, hN⟩ := backed_often G.fair G.bounded G.growing k dp s (B + 2 * k)
      refine ⟨N, ?_⟩
      intro s0 tm tb st h htb hr d nd hd hs ht hrem hn
      have R : Run env m cfg k dp st h := ⟨s0, tm, tb, htb, hr⟩
      obtain ⟨c, nc, h1, h2, h3, _⟩ := (hN st h R d nd hd hs hn a ha).2 (by omega)
      exact ⟨c, nc, h1, h2, hB st h R d nd c nc hd hs ht hrem h1 h2 (by omega)⟩)
  exact ⟨N, fun htb hr d nd hd hs ht hrem hn a ha => hN a ha htb hr hd hs ht hrem hn⟩

theorem below_card {k : Nat} {dp : Int} {st : St S A ℝ (Stats ℝ) (Stats ℝ)} {h : List (Event S A ℝ)} (R : Run env m cfg k dp st h)
    {d : Nat} {nd : DNode S A ℝ (Stats ℝ)} (hd : st.dn[d]? = some nd) :
    trialsThrough d h ≤ (below d nd h).card + 2 * k * (env.actions nd.state).length := by
  obtain ⟨s0, tm, tb, htb, hr⟩ := R
  obtain ⟨I, C⟩ := reach_both (uct_valid cfg m) htb hr
  rw [trials_sum I C hd]
  have : ∀ l : List (A × Nat), (∀ p ∈ l, childC st d p.1 = some p.2) →
      (l.map fun p => timesSelected d p.1 h).sum ≤ (l.map fun p => (returnsC p.2 h).length).sum + 2 * k * l.length := by
    intro l hl
    induction l with
    | nil => simp
    | cons p l ih =>
      have i1 := ih (fun q hq => hl q (by simp [hq]))
      have i2 := timesSelected_eq I C (hl p (by simp))
      have i3 := (returns_near (uct_valid cfg m) htb hr p.2).2
      simp only [List.map_cons, List.sum_cons, List.length_cons]
      have : 2 * k * (l.length + 1) = 2 * k * l.length + 2 * k := by ring
      omega
  have h4 := this nd.kids (fun p hp => childC_of_mem I.tree hd (show (p.1, p.2) ∈ nd.kids from hp))
  have h5 : (below d nd h).card = (nd.kids.map fun p => (returnsC p.2 h).length).sum + h.countP (Event.endAt d) := by
    unfold below
    rw [Multiset.card_add, coe_card_list, Multiset.card_replicate]
    simp
  have h6 := Nat.mul_le_mul_left (2 * k) (kids_le I hd)
  omega

/-- C76, nodes.  The value estimate of the node itself is within `ε` of the value of the game. -/
theorem c76_node_value (G : Solvable env m cfg next lo hi) {ε : ℝ} (hε : 0 < ε) (k : Nat) (dp : Int) (n : Nat) (t : Int) {s : S}
    (hsink : env.isSink s = false) :
    ∃ N : Nat, ∀ {s0 : S} {tm : Int} {tb : List ((Int × S) × Option Nat)} {st : St S A ℝ (Stats ℝ) (Stats ℝ)} {h : List (Event S A ℝ)},
      Leftover tb → Reachable env m (uct cfg m) k s0 dp tm tb st h → ∀ {d : Nat} {nd}, st.dn[d]? = some nd → nd.state = s → nd.time = t →
      remaining m nd.depth = n + 1 → N ≤ trialsThrough d h → |nd.x.avg - gameValue env m next (n + 1) t s| ≤ ε := by
  obtain ⟨K, hK, hD⟩ := dev_all (k := k) (dp := dp) G.det G.fair G.bounded G.growing G.vanishing G.noTable (n + 1) t s (ε / 2) (by linarith)
  set V := gameValue env m next (n + 1) t s with hV
  set M := absBound m lo hi dp with hM
  have hM0 : 0 ≤ M := absBound_nonneg G.bounded dp
  set p : Nat := if m.heuristic.isSome then cfg.pseudo else 0 with hp
  set K' : ℝ := ε / 2 * ((k + 1 : Nat) : ℝ) + K + ((k + 1 : Nat) : ℝ) * (M + |V|) with hK'
  obtain ⟨L, hL⟩ := exists_nat_ge ((p * |heurOf env m s - V| + K') / (ε / 2))
  refine ⟨L + 1 + (k + 1) + 2 * k * (env.actions s).length, ?_⟩
  intro s0 tm tb st h htb hr d nd hd hs ht hrem hn
  have R : Run env m cfg k dp st h := ⟨s0, tm, tb, htb, hr⟩
  have I := reach_inv (uct_valid cfg m) htb hr
  have hl : isLeaf env m nd = false := by
    unfold isLeaf
    rw [hs, hsink]
    simp only [Bool.false_or, decide_eq_false_iff_not]
    unfold remaining at hrem
    omega
  have hends := ends_le_one (uct_valid cfg m) htb G.noTable hr hd hl
  have hheur : nd.heur = heurOf env m s := by
    have : nd.heur = heurOf env m nd.state := I.tree.heap.dHeur d nd.skel (by simp [hd])
    rw [this, hs]
  obtain ⟨q, hq, hfl⟩ := flow_decision (uct_valid cfg m) htb G.noTable hr hd
  have hfl' : (returnsD d h : Multiset ℝ) + (q + Multiset.replicate (h.countP (Event.endAt d)) nd.heur) = below d nd h := by
    rw [← add_assoc, hfl]; rfl
  have hcard : (q + Multiset.replicate (h.countP (Event.endAt d)) nd.heur).card ≤ k + 1 := by
    rw [Multiset.card_add, Multiset.card_replicate]; omega
  have h1 := dev_transfer hfl' hcard (by linarith : (0:ℝ) ≤ ε / 2) hM0
    (fun x hx => below_abs G.bounded R hd x (by rw [← hfl']; exact Multiset.mem_add.2 (.inr hx)))
    (hD st h R d nd hd hs ht hrem)
  simp only [Multiset.sum_coe, Multiset.coe_card] at h1
  rw [← hK'] at h1
  have h2 := below_card R hd
  rw [hs] at h2
  have h3 : (below d nd h).card ≤ (returnsD d h).length + (k + 1) := by
    rw [← hfl', Multiset.card_add (returnsD d h : Multiset ℝ), Multiset.coe_card]; omega
  have h4 : L + 1 ≤ (returnsD d h).length := by omega
  have h5 := (c27_decision_average hr hd hp).2 (by omega)
  rw [hheur] at h5
  have hlen : (L : ℝ) + 1 ≤ (returnsD d h).length := by exact_mod_cast h4
  have hL0 : (0:ℝ) ≤ L := by positivity
  have hp0 : (0:ℝ) ≤ p := by positivity
  have hden : (0 : ℝ) < p + (returnsD d h).length := by linarith
  have e1 : nd.x.avg - V = (p * (heurOf env m s - V) + ((returnsD d h).sum - (returnsD d h).length * V)) /
      (p + (returnsD d h).length) := by
    rw [h5]
    push_cast
    field_simp
    ring
  rw [e1, abs_div, abs_of_pos hden, div_le_iff₀ hden]
  refine (abs_add_le _ _).trans ?_
  rw [abs_mul, Nat.abs_cast]
  rw [div_le_iff₀ (by linarith)] at hL
  nlinarith

/-- C76, selections.  An action that is not optimal gets at most a fraction `δ` of the selections. -/
theorem c76_suboptimal_share (G : Solvable env m cfg next lo hi) {δ : ℝ} (hδ : 0 < δ) (k : Nat) (dp : Int) (n : Nat) (t : Int) {s : S}
    (hsink : env.isSink s = false) :
    ∃ N : Nat, ∀ {s0 : S} {tm : Int} {tb : List ((Int × S) × Option Nat)} {st : St S A ℝ (Stats ℝ) (Stats ℝ)} {h : List (Event S A ℝ)},
      Leftover tb → Reachable env m (uct cfg m) k s0 dp tm tb st h → ∀ {d : Nat} {nd}, st.dn[d]? = some nd → nd.state = s → nd.time = t →
      remaining m nd.depth = n + 1 → N ≤ trialsThrough d h → ∀ b ∈ env.actions s,
        env.reward s b (next s b) + gameValue env m next n (t + 1) (next s b) ≠ gameValue env m next (n + 1) t s →
          timesSelected d b h ≤ δ * trialsThrough d h := by
  obtain ⟨N, hN⟩ := uniformN (env.actions s) (fun b N => ∀ {s0 : S} {tm : Int} {tb : List ((Int × S) × Option Nat)}
      {st : St S A ℝ (Stats ℝ) (Stats ℝ)} {h : List (Event S A ℝ)},
      Leftover tb → Reachable env m (uct cfg m) k s0 dp tm tb st h → ∀ {d : Nat} {nd}, st.dn[d]? = some nd → nd.state = s → nd.time = t →
      remaining m nd.depth = n + 1 → N ≤ trialsThrough d h →
        env.reward s b (next s b) + gameValue env m next n (t + 1) (next s b) ≠ gameValue env m next (n + 1) t s →
          timesSelected d b h ≤ δ * trialsThrough d h)
    (fun a K K' hK H s0 tm tb st h e1 e2 d nd e3 e4 e5 e6 e7 => H e1 e2 e3 e4 e5 e6 (hK.trans e7)) (by
      intro b hb
      by_cases hq : actValue env m next n t s b = gameValue env m next (n + 1) t s
      · exact ⟨0, fun _ _ _ _ _ _ _ _ _ hne => absurd hq hne⟩
      · obtain ⟨hmem, hbest⟩ := bestOf_spec (opp := isOpponent m t) (l := (env.actions s).map fun a => actValue env m next n t s a)
          (by intro h0; rw [List.map_eq_nil_iff] at h0; rw [h0] at hb; simp at hb)
        have hV : gameValue env m next (n + 1) t s =
            bestOf (isOpponent m t) ((env.actions s).map fun a => actValue env m next n t s a) := by
          simp [gameValue, hsink, actValue]
        rw [← hV] at hmem hbest
        obtain ⟨a, ha, haV⟩ := List.mem_map.1 hmem
        have hle := hbest _ (List.mem_map.2 ⟨b, hb, rfl⟩)
        have hlt : (if isOpponent m t then -1 else 1) * actValue env m next n t s b <
            (if isOpponent m t then -1 else 1) * actValue env m next n t s a := by
          rw [haV]
          refine lt_of_le_of_ne hle ?_
          intro h0
          apply hq
          split at h0 <;> linarith
        obtain ⟨K, hK, hR⟩ := rare (k := k) (dp := dp) G.fair G.bounded G.growing G.vanishing G.noTable
          (fun a _ => devC_all G k dp n t s a) ha hb hlt (δ := δ / 2) (by linarith)
        obtain ⟨N, hN⟩ := exists_nat_ge (K / (δ / 2))
        refine ⟨N, ?_⟩
        intro s0 tm tb st h htb hr d nd hd hs ht hrem hn _
        have h1 := hR st h ⟨s0, tm, tb, htb, hr⟩ d nd hd hs ht hrem
        rw [div_le_iff₀ (by linarith)] at hN
        have h2 : (N : ℝ) ≤ trialsThrough d h := by exact_mod_cast hn
        nlinarith)
  exact ⟨N, fun htb hr d nd hd hs ht hrem hn b hb => hN b hb htb hr hd hs ht hrem hn⟩

theorem tried_iff {s0 : S} {dp tm : Int} {st : St S A ℝ (Stats ℝ) (Stats ℝ)}
    {h : List (Event S A ℝ)} (I : Inv env m s0 dp tm st h) {d : Nat} {nd : DNode S A ℝ (Stats ℝ)} (hd : st.dn[d]? = some nd) (a : A) :
    Tried (viewOf env m st nd) a ↔ ∃ c, childC st d a = some c := by
  rw [Tried]
  show a ∈ (kidsY st nd).map Prod.fst ↔ _
  rw [mem_kidsY_keys I.tree hd rfl]
  simp [childC, hd]

/-- C76, recommendations.  Whichever of the two criteria is configured, the recommended action is optimal in the game. -/
theorem c76_recommendation (G : Solvable env m cfg next lo hi) (k : Nat) {dp : Int} (n : Nat) (t : Int) {s : S}
    (hsink : env.isSink s = false) {lowI : Int} (hlowI : lowI ≤ 0)
    (hlow : cfg.low ≤ (remaining m dp + 1 : Nat) * lo ∧ cfg.low ≤ -((remaining m dp + 1 : Nat) * hi)) :
    ∃ N : Nat, ∀ {s0 : S} {tm : Int} {tb : List ((Int × S) × Option Nat)} {st : St S A ℝ (Stats ℝ) (Stats ℝ)} {h : List (Event S A ℝ)},
      Leftover tb → Reachable env m (uct cfg m) k s0 dp tm tb st h → ∀ {d : Nat} {nd}, st.dn[d]? = some nd → nd.state = s → nd.time = t →
      remaining m nd.depth = n + 1 → N ≤ trialsThrough d h →
      ∀ (raw : Nat) {iter : List (A × ℝ) → List (A × ℝ)} {iterI : List (A × Int) → List (A × Int)}, IterOk iter → IterOk iterI →
        ∃ a, recommend cfg lowI (viewOf env m st nd) raw iter iterI = some a ∧ a ∈ env.actions s ∧
          env.reward s a (next s a) + gameValue env m next n (t + 1) (next s a) = gameValue env m next (n + 1) t s := by
  have hV : gameValue env m next (n + 1) t s = bestOf (isOpponent m t) ((env.actions s).map fun a => actValue env m next n t s a) := by
    simp [gameValue, hsink, actValue]
  set V := gameValue env m next (n + 1) t s with hVdef
  set L := (env.actions s).length with hL
  -- what suffices, for either criterion
  have base : ∀ {s0 : S} {tm : Int} {tb : List ((Int × S) × Option Nat)} {st : St S A ℝ (Stats ℝ) (Stats ℝ)} {h : List (Event S A ℝ)},
      Leftover tb → Reachable env m (uct cfg m) k s0 dp tm tb st h → ∀ {d : Nat} {nd : DNode S A ℝ (Stats ℝ)}, st.dn[d]? = some nd →
      nd.state = s → 1 ≤ trialsThrough d h →
      env.actions s ≠ [] ∧ (∀ a, Tried (viewOf env m st nd) a → a ∈ env.actions s) := by
    intro s0 tm tb st h htb hr d nd hd hs hn
    obtain ⟨I, C⟩ := reach_both (uct_valid cfg m) htb hr
    have hact : ∀ p ∈ nd.kids, p.1 ∈ env.actions s := by
      intro p hp
      have := I.tree.heap.dAct d nd.skel p.1 p.2 (by simp [hd]) hp
      simp only [DNode.skel] at this
      rwa [hs] at this
    constructor
    · intro h0
      have h1 := trials_sum I C hd
      have h2 := kids_le I hd
      rw [hs, h0] at h2
      have h3 : nd.kids = [] := List.length_eq_zero_iff.1 (by simpa using h2)
      rw [h3] at h1
      simp at h1
      omega
    · intro a ha
      obtain ⟨c, hc⟩ := (tried_iff I hd a).1 ha
      obtain ⟨nd1, nc, g1, g2, g3, _⟩ := childC_facts I.tree hc
      rw [hd] at g1; simp at g1; subst g1
      exact hact _ g3
  by_cases hemp : env.actions s = []
  · refine ⟨1, ?_⟩
    intro s0 tm tb st h htb hr d nd hd hs ht hrem hn
    exact absurd hemp (base htb hr hd hs hn).1
  obtain ⟨hmem, hbest⟩ := bestOf_spec (opp := isOpponent m t) (l := (env.actions s).map fun a => actValue env m next n t s a)
    (by intro h0; rw [List.map_eq_nil_iff] at h0; exact hemp h0)
  rw [← hV] at hmem hbest
  obtain ⟨a, ha, haV⟩ := List.mem_map.1 hmem
  cases hmv : cfg.mostVisited with
  | true =>
    obtain ⟨N1, hN1⟩ := c76_suboptimal_share G (δ := 1 / (2 * (L + 1))) (by positivity) k dp n t hsink
    refine ⟨max N1 (2 * L * k + 1), ?_⟩
    intro s0 tm tb st h htb hr d nd hd hs ht hrem hn raw iter iterI hi hiI
    obtain ⟨I, C⟩ := reach_both (uct_valid cfg m) htb hr
    obtain ⟨b1, b2⟩ := base htb hr hd hs (by omega)
    obtain ⟨b, g1, g2, g3, g4⟩ := c30_most_visited hlowI (v := viewOf env m st nd) hmv
      (by show env.actions nd.state ≠ []; rw [hs]; exact b1) (by intro x hx; show x ∈ env.actions nd.state; rw [hs]; exact b2 x hx) raw iter hiI
    have g2' : b ∈ env.actions s := by rw [← hs]; exact g2
    refine ⟨b, g1, g2', ?_⟩
    by_contra hne
    have h1 := hN1 htb hr hd hs ht hrem (by omega) b g2' hne
    have h2 := (visits_near htb hr hd (nd' := nd) rfl b).1
    have h3 : ∀ p ∈ nd.kids, timesSelected d p.1 h ≤ timesSelected d b h + k := by
      intro p hp
      have q1 := (visits_near htb hr hd (nd' := nd) rfl p.1).2
      have q2 := g4 p.1 ((tried_iff I hd p.1).2 ⟨p.2, childC_of_mem I.tree hd hp⟩)
      omega
    have h4 := sum_le_of (fun p : A × Nat => timesSelected d p.1 h) _ nd.kids h3
    rw [← trials_sum I C hd] at h4
    have h5 := kids_le I hd
    rw [hs, ← hL] at h5
    have h6 : trialsThrough d h ≤ L * (timesSelected d b h + k) := h4.trans (Nat.mul_le_mul_right _ h5)
    have h7 : (trialsThrough d h : ℝ) ≤ L * (timesSelected d b h + k) := by exact_mod_cast h6
    have h8 : (2 * L * k + 1 : ℝ) ≤ trialsThrough d h := by exact_mod_cast (le_trans (le_max_right _ _) hn)
    have hL0 : (0 : ℝ) ≤ L := by positivity
    have h9 : (L : ℝ) * timesSelected d b h ≤ trialsThrough d h / 2 := by
      have e : (L : ℝ) * (1 / (2 * (L + 1)) * trialsThrough d h) ≤ trialsThrough d h / 2 := by
        have : (L : ℝ) * (1 / (2 * (L + 1))) ≤ 1 / 2 := by
          rw [mul_one_div, div_le_div_iff₀ (by positivity) (by norm_num)]
          linarith
        have hT : (0:ℝ) ≤ trialsThrough d h := by positivity
        nlinarith
      exact (mul_le_mul_of_nonneg_left h1 hL0).trans e
    nlinarith
  | false =>
    obtain ⟨N, hN⟩ := uniformN (env.actions s) (fun b N => ∀ {s0 : S} {tm : Int} {tb : List ((Int × S) × Option Nat)}
        {st : St S A ℝ (Stats ℝ) (Stats ℝ)} {h : List (Event S A ℝ)},
        Leftover tb → Reachable env m (uct cfg m) k s0 dp tm tb st h → ∀ {d : Nat} {nd}, st.dn[d]? = some nd → nd.state = s → nd.time = t →
        remaining m nd.depth = n + 1 → N ≤ trialsThrough d h → actValue env m next n t s b ≠ V → Tried (viewOf env m st nd) a ∧
          (if isOpponent m t then -1 else 1) * avgOf (viewOf env m st nd) b <
            (if isOpponent m t then -1 else 1) * avgOf (viewOf env m st nd) a)
      (fun a K K' hK H s0 tm tb st h e1 e2 d nd e3 e4 e5 e6 e7 => H e1 e2 e3 e4 e5 e6 (hK.trans e7)) (by
        intro b hb
        by_cases hq : actValue env m next n t s b = V
        · exact ⟨0, fun _ _ _ _ _ _ _ _ _ hne => absurd hq hne⟩
        · have hle := hbest _ (List.mem_map.2 ⟨b, hb, rfl⟩)
          set σ : ℝ := if isOpponent m t then -1 else 1 with hσ
          have hσabs : ∀ x : ℝ, |σ * x| = |x| := by
            intro x; rw [hσ]; split <;> simp
          have hlt : σ * actValue env m next n t s b < σ * V := by
            refine lt_of_le_of_ne hle ?_
            intro h0
            apply hq
            rw [hσ] at h0
            split at h0 <;> linarith
          set Δ := σ * V - σ * actValue env m next n t s b with hΔ
          obtain ⟨N, hN⟩ := c76_action_values G (ε := Δ / 3) (by linarith) k dp n t s
          refine ⟨N, ?_⟩
          intro s0 tm tb st h htb hr d nd hd hs ht hrem hn _
          have I := reach_inv (uct_valid cfg m) htb hr
          obtain ⟨ca, nca, a1, a2, a3⟩ := hN htb hr hd hs ht hrem hn a ha
          obtain ⟨cb, ncb, b1, b2, b3⟩ := hN htb hr hd hs ht hrem hn b hb
          refine ⟨(tried_iff I hd a).2 ⟨ca, a1⟩, ?_⟩
          rw [(avgOf_view I.tree hd (nd' := nd) rfl a).1, (avgOf_view I.tree hd (nd' := nd) rfl b).1, a1, b1]
          simp only [Option.bind_some, a2, b2, Option.map_some, Option.getD_some]
          have haV' : env.reward s a (next s a) + gameValue env m next n (t + 1) (next s a) = V := haV
          rw [haV', ← hσabs, mul_sub, abs_le] at a3
          rw [← hσabs, mul_sub, abs_le] at b3
          have e : σ * (env.reward s b (next s b) + gameValue env m next n (t + 1) (next s b)) = σ * actValue env m next n t s b := rfl
          rw [e] at b3
          linarith [a3.1, b3.2])
    refine ⟨max N 1, ?_⟩
    intro s0 tm tb st h htb hr d nd hd hs ht hrem hn raw iter iterI hit hitI
    obtain ⟨I, C⟩ := reach_both (uct_valid cfg m) htb hr
    obtain ⟨b1, b2⟩ := base htb hr hd hs (by omega)
    have hl : ∀ b, Tried (viewOf env m st nd) b →
        cfg.low ≤ (if (viewOf env m st nd).opp then -1 else 1) * avgOf (viewOf env m st nd) b := by
      intro b _
      have h1 := avgOf_bound G.bounded htb hr hd (nd' := nd) rfl b
      have h2 : cfg.low ≤ -absBound m lo hi dp := by
        obtain ⟨l1, l2⟩ := hlow
        push_cast at l1 l2
        unfold absBound
        rcases max_choice (-lo) hi with h | h <;> rw [h]
        · linarith
        · linarith
      rw [abs_le] at h1
      split <;> linarith [h1.1, h1.2]
    obtain ⟨b, g1, g2, g3, g4⟩ := c30_best_average lowI (v := viewOf env m st nd) hmv hl
      (by show env.actions nd.state ≠ []; rw [hs]; exact b1) (by intro x hx; show x ∈ env.actions nd.state; rw [hs]; exact b2 x hx) raw hit iterI
    have g2' : b ∈ env.actions s := by rw [← hs]; exact g2
    refine ⟨b, g1, g2', ?_⟩
    by_contra hne
    obtain ⟨t1, t2⟩ := hN b g2' htb hr hd hs ht hrem (by omega) hne
    have t3 := g4 a t1
    have hopp : (viewOf env m st nd).opp = isOpponent m t := by rw [← ht]; rfl
    rw [hopp] at t3
    linarith

/-! ## At the root, in terms of completed trials -/

/-- C76.  After enough completed trials the root's value is within `ε` of the value of the game, every action's within `ε` of its value,
and the recommended action is optimal: in every search from state `s`, under every schedule and for all random draws. -/
theorem c76_root (G : Solvable env m cfg next lo hi) {ε : ℝ} (hε : 0 < ε) (k : Nat) {dp : Int} (tm : Int) {s : S}
    (hsink : env.isSink s = false) (hdp : dp < m.maxDepth) {lowI : Int} (hlowI : lowI ≤ 0)
    (hlow : cfg.low ≤ (remaining m dp + 1 : Nat) * lo ∧ cfg.low ≤ -((remaining m dp + 1 : Nat) * hi)) :
    ∃ N : Nat, ∀ {tb : List ((Int × S) × Option Nat)} {st : St S A ℝ (Stats ℝ) (Stats ℝ)} {h : List (Event S A ℝ)},
      Leftover tb → Reachable env m (uct cfg m) k s dp tm tb st h → N ≤ trialsCompleted h →
      ∃ nd, st.dn[st.root]? = some nd ∧ |nd.x.avg - gameValue env m next (remaining m dp) tm s| ≤ ε ∧
        (∀ a ∈ env.actions s, ∃ c nc, childC st st.root a = some c ∧ st.cn[c]? = some nc ∧
          |nc.y.avg - (env.reward s a (next s a) + gameValue env m next (remaining m (dp + 1)) (tm + 1) (next s a))| ≤ ε) ∧
        ∀ (raw : Nat) {iter : List (A × ℝ) → List (A × ℝ)} {iterI : List (A × Int) → List (A × Int)}, IterOk iter → IterOk iterI →
          ∃ a, recommend cfg lowI (viewOf env m st nd) raw iter iterI = some a ∧ a ∈ env.actions s ∧
            env.reward s a (next s a) + gameValue env m next (remaining m (dp + 1)) (tm + 1) (next s a) =
              gameValue env m next (remaining m dp) tm s := by
  have hrem : remaining m dp = remaining m (dp + 1) + 1 := by unfold remaining; omega
  obtain ⟨N1, h1⟩ := c76_node_value G hε k dp (remaining m (dp + 1)) tm hsink
  obtain ⟨N2, h2⟩ := c76_action_values G hε k dp (remaining m (dp + 1)) tm s
  obtain ⟨N3, h3⟩ := c76_recommendation G k (dp := dp) (remaining m (dp + 1)) tm hsink hlowI hlow
  refine ⟨max N1 (max N2 N3), ?_⟩
  intro tb st h htb hr hn
  obtain ⟨nd, e1, e2, e3, e4, e5⟩ := root_trials htb hr hsink hdp
  have e6 : remaining m nd.depth = remaining m (dp + 1) + 1 := by rw [e3, hrem]
  rw [hrem]
  exact ⟨nd, e1, h1 htb hr e1 e2 e4 e6 (by omega), h2 htb hr e1 e2 e4 e6 (by omega),
    fun raw iter iterI hi hiI => h3 htb hr e1 e2 e4 e6 (by omega) raw hi hiI⟩

end

/-! ## A game -/

namespace Game

theorem value : gameValue env mgr next 2 0 0 = 3 ∧ gameValue env mgr next 1 1 1 = 3 ∧ gameValue env mgr next 1 1 2 = 0 := by
  refine ⟨?_, ?_, ?_⟩ <;>
    norm_num [gameValue, env, mgr, next, bestOf, isOpponent, heurOf, List.max?, List.min?]

/-- The hypotheses of `c76_root` hold for this game with UCT and with PUCT with a prior, and with either criterion for the recommendation:
there is a number of trials after which two workers always recommend move 0; and searches of that many trials exist. -/
example (mv : Bool) {prior : Option (Nat → List (Nat × ℝ))} {term : Nat → Nat → ℝ}
    (hp : prior = none ∨ prior = some (fun _ => [(0, 1 / 4), (1, 3 / 4)])) (ht : term = uctTerm ∨ term = puctTerm (1 / 2)) :
    ∃ N, (∀ {st : St Nat Nat ℝ (Stats ℝ) (Stats ℝ)} {h : List (Event Nat Nat ℝ)},
        Reachable env mgr (uct (cfg mv prior term) mgr) 2 0 0 0 [] st h → N ≤ trialsCompleted h →
        ∃ nd, st.dn[st.root]? = some nd ∧ |nd.x.avg - 3| ≤ 1 / 100 ∧ recommend (cfg mv prior term) (-1) (viewOf env mgr st nd) 0 id id = some 0) ∧
      ∃ (st : St Nat Nat ℝ (Stats ℝ) (Stats ℝ)) (h : List (Event Nat Nat ℝ)),
        Reachable env mgr (uct (cfg mv prior term) mgr) 2 0 0 0 [] st h ∧ N ≤ trialsCompleted h := by
  obtain ⟨N, hN⟩ := c76_root (solvable mv hp ht) (ε := 1 / 100) (by norm_num) 2 (dp := 0) 0 (s := 0) (by simp [env]) (by simp [mgr])
    (lowI := -1) (by norm_num) (uctOk mv hp ht).low
  obtain ⟨v1, v2, v3⟩ := value
  refine ⟨N, ?_, ?_⟩
  · intro st h hr hn
    obtain ⟨nd, h1, h2, _, h3⟩ := hN (by simp [Leftover]) hr hn
    have e : remaining mgr 0 = 2 := rfl
    have e' : remaining mgr (0 + 1) = 1 := rfl
    rw [e, v1] at h2 h3
    refine ⟨nd, h1, h2, ?_⟩
    obtain ⟨a, g1, g2, g3⟩ := h3 0 (iter := id) (iterI := id) (fun _ _ => Iff.rfl) (fun _ _ => Iff.rfl)
    rw [g1]
    have ha : a = 0 ∨ a = 1 := by simpa [env] using g2
    rcases ha with rfl | rfl
    · rfl
    · exfalso
      rw [e'] at g3
      have e2 : next 0 1 = 2 := rfl
      rw [e2, show (0:Int) + 1 = 1 from rfl, v3] at g3
      norm_num [env] at g3
  · have hr0 : Reachable env mgr (uct (cfg mv prior term) mgr) 2 0 0 0 [] (init env mgr (uct (cfg mv prior term) mgr) 2 0 0 0 []) [] :=
      ⟨[], rfl⟩
    obtain ⟨st, ext, h1, h2⟩ := c74_any_number_of_trials live (uct_valid _ _) (by simp [Leftover]) (by simp [TableOk, mgr])
      (c74_uct_selects (uctOk mv hp ht) live (by simp [Leftover])) (by simp [mgr]) hr0 (w := 0) (by norm_num) N
    exact ⟨st, ext, by simpa using h1, h2⟩

end Game

end Verif.Uct
