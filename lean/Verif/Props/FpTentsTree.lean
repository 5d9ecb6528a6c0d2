import Verif.Proofs.FpTentsTree
import Verif.Props.FpSoftTree

/-!
# C96: the values of whole TENTS searches are accurate in floating point
-/

namespace Verif.Fp

open Verif.Search Verif.Backups Verif.Spec Verif.Props
open Verif.Sampling (Draw)
open Verif.Tents (TXV TErr MapsHold sparseMax sparseMax_close)
open Verif.Ments (sgn softWeight)
open Verif.Uct (IterOk)

set_option linter.unusedSectionVars false

section
variable {S A : Type} [DecidableEq S] [DecidableEq A]
  {env : Env S A ℚ} {m : Manager S ℚ} {alg : Alg S A ℚ (Except TErr (TXF A)) SoftF} {sq lg : ℚ → ℚ} {cfg : MentsCfg} {lr : S → A → ℚ}
  {k : Nat} {s0 : S} {dp tm : Int} {tb : List ((Int × S) × Option Nat)} {st : St S A ℚ (Except TErr (TXF A)) SoftF} {h : List (Event S A ℚ)}
  {ρ M : ℚ} {K n D : Nat} {next : S → A → S}

/-- TENTS with doubles only selects valid actions. -/
theorem tentsF_valid (sq lg : ℚ → ℚ) (cfg : MentsCfg) (env : Env S A ℚ) (m : Manager S ℚ) (lr : S → A → ℚ) : (tentsF sq lg cfg env m lr).Valid := by
  intro v ctx a h
  have h' : tentsFCanSelect lg cfg v a = true := h
  unfold tentsFCanSelect at h'
  obtain ⟨u, iter, _, _, _, hp, hs⟩ := @of_decide_eq_true _ (Classical.propDecidable _) h'
  unfold selectTents at hs
  split at hs
  · cases hs
  · rename_i ws sum hw
    unfold sampleFrom at hs
    have := sampleLoop_mem hs
    rw [(hp _).map Prod.fst |>.mem_iff] at this
    obtain ⟨p, hp1, rfl⟩ := List.mem_map.1 this
    have hp2 := (List.mem_filter.1 hp1).1
    unfold mixtureW at hp2
    obtain ⟨p', hp3, rfl⟩ := List.mem_map.1 hp2
    have hws : ws.map Prod.fst = v.actions := by
      unfold tentsWeights at hw
      dsimp only at hw
      split at hw
      · cases hw
      · split at hw <;> · cases hw; simp [Function.comp_def]
    rw [← hws]
    exact List.mem_map.2 ⟨p', hp3, rfl⟩

/-- TENTS is one of the algorithms meant. -/
theorem tentsF_hasFpTents (sq lg : ℚ → ℚ) (cfg : MentsCfg) (env : Env S A ℚ) (m : Manager S ℚ) (lr : S → A → ℚ) :
    HasFpTents (tentsF sq lg cfg env m lr) env m sq cfg lr :=
  ⟨fun _ _ _ _ => rfl, fun _ _ _ _ => rfl, fun _ _ => rfl, fun _ => rfl, fun _ _ _ => rfl, fun _ _ _ => rfl, fun _ _ _ _ _ => rfl⟩

/-- C96 (a).  Whenever no trial is running (no transposition table), the value of every decision node is the sparse value of the tree below it in real arithmetic, up to
`sparseError` per level. -/
theorem c96_tree_value (hsq : GoodSq sq) (F : SparseFits env m cfg lr ρ M K n D dp h) (hv : alg.Valid) (H : HasFpTents alg env m sq cfg lr)
    (hu : m.useTable = false) (htb : Leftover tb) (hr : Reachable env m alg k s0 dp tm tb st h) (hq : Quiescent st)
    {d : Nat} {nd : DNode S A ℚ (Except TErr (TXF A))} (hd : st.dn[d]? = some nd) :
    ∃ v, softDF softOfF st d = some v ∧ |(v : ℝ) - sparseTreeR cfg env m lr st h (remaining m nd.depth) d| ≤ remaining m nd.depth * sparseError K n cfg.temp M :=
  ⟨_, by simp [softDF, hd], (treeT_near hsq F hv H hu htb hr hq (remaining m nd.depth) d nd (le_trans (depth_le hv htb hr hd) F.depth) hd (le_refl _)).2⟩

/-- C96 (a), chance nodes: the reward plus the mean of the sparse values of the trees below, weighted by trials. -/
theorem c96_chance_value (hsq : GoodSq sq) (F : SparseFits env m cfg lr ρ M K n D dp h) (hv : alg.Valid) (H : HasFpTents alg env m sq cfg lr)
    (hu : m.useTable = false) (htb : Leftover tb) (hr : Reachable env m alg k s0 dp tm tb st h) (hq : Quiescent st)
    {d c : Nat} {a : A} {nd : DNode S A ℚ (Except TErr (TXF A))} (hd : st.dn[d]? = some nd) (hc : childC st d a = some c) :
    ∃ nc v, st.cn[c]? = some nc ∧ softCF id st c = some v ∧
      |(v : ℝ) - chanceSoftR env m lr st h (sparseTreeR cfg env m lr st h (remaining m (nd.depth + 1))) nc| ≤ remaining m nd.depth * sparseError K n cfg.temp M := by
  have hrem := inner_node hv htb hr hd hc
  have hD : remaining m nd.depth ≤ D := le_trans (depth_le hv htb hr hd) F.depth
  obtain ⟨nc, h1, _, h3⟩ := chanceT_near F hv H hu htb hr hq (j := remaining m (nd.depth + 1))
    (fun d nd hj hd hn => treeT_near hsq F hv H hu htb hr hq _ d nd hj hd hn) (by omega) hd (by unfold remaining at hrem ⊢; omega) hc
  refine ⟨nc, _, h1, by simp only [softCF, h1, Option.map_some]; rfl, le_trans h3 ?_⟩
  have h5 : (8 * (K : ℝ) + 3) * (unit * M) ≤ sparseError K n cfg.temp M := by
    have hu0 : (0 : ℝ) < unit := by exact_mod_cast unit_pos
    have hM' : (0 : ℝ) ≤ M := by have := F.one; exact_mod_cast (by linarith : (0 : ℚ) ≤ M)
    have ht : (0 : ℝ) < cfg.temp := by exact_mod_cast F.temp.2
    have e1 : (0 : ℝ) ≤ 111 * (n * n) * (unit * (M * M / cfg.temp)) := by positivity
    have e2 : (0 : ℝ) ≤ unit * M := by positivity
    unfold sparseError
    linarith
  rw [hrem]
  push_cast
  linarith

theorem sparseR_game (hdet : ∀ s a, a ∈ env.actions s → env.succ s a = [next s a])
    (hlr : ∀ s a, a ∈ env.actions s → lr s a = env.reward s a (next s a)) (hne : ∀ s, env.isSink s = false → env.actions s ≠ [])
    (hv : alg.Valid) (htb : Leftover tb) (hr : Reachable env m alg k s0 dp tm tb st h) (hq : Quiescent st) (hx : Exhausted env m st)
    (hnd : ∀ s, (env.actions s).Nodup) (ht : 0 < cfg.temp) :
    ∀ (j d : Nat) nd, st.dn[d]? = some nd → (m.maxDepth - nd.depth).toNat = j →
      |sparseTreeR cfg env m lr st h j d - gameValue env m next j nd.time nd.state| ≤ j * (cfg.temp / 2) := by
  have I := reach_inv hv htb hr
  have ht' : (0 : ℝ) < cfg.temp := by exact_mod_cast ht
  have leafKids : ∀ (d : Nat) nd, st.dn[d]? = some nd → isLeaf env m nd = true → nd.kids = [] := by
    intro d nd hd hl
    rw [isLeaf_skel] at hl
    exact I.tree.heap.dLeaf d nd.skel (by simp [hd]) hl
  have hheur : ∀ (d : Nat) nd, st.dn[d]? = some nd → nd.heur = heurOf env m nd.state := by
    intro d nd hd
    exact I.tree.heap.dHeur d nd.skel (by simp [hd])
  intro j
  induction j with
  | zero =>
    intro d nd hd hn
    simp [sparseTreeR, hd, gameValue, hheur d nd hd]
  | succ j ih =>
    intro d nd hd hn
    simp only [sparseTreeR, hd, Option.elim_some, gameValue]
    by_cases hs : env.isSink nd.state = true
    · have hk := leafKids d nd hd (by simp [isLeaf, hs])
      rw [if_pos hk, if_pos hs, hheur d nd hd]
      have : heurOf env m nd.state = 0 := by
        unfold heurOf
        split
        · rfl
        · simp [hs]
      rw [this]
      simp only [sub_zero, abs_zero, Rat.cast_zero]
      positivity
    · have hs' : env.isSink nd.state = false := by simpa using hs
      have hl : isLeaf env m nd = false := by
        simp [isLeaf, hs']
        omega
      obtain ⟨a0, ha0⟩ := List.exists_mem_of_ne_nil _ (hne _ hs')
      obtain ⟨c0, hc0⟩ := hx d nd hd hl a0 ha0
      obtain ⟨nd1, _, f1, _, f3, _⟩ := childC_facts I.tree hc0
      rw [hd] at f1
      obtain rfl := Option.some.inj f1
      rw [if_neg (List.ne_nil_of_mem f3), if_neg hs]
      set opp := isOpponent m nd.time
      let q : A → ℝ := fun a => (find? a nd.kids).elim (cfg.defaultQ : ℝ) fun c => (st.cn[c]?).elim 0 (chanceSoftR env m lr st h (sparseTreeR cfg env m lr st h j))
      have e1 := sparseMax_close ht' opp q (hnd _) (hne _ hs')
      have e2 : |bestOf opp ((env.actions nd.state).map q) - bestOf opp ((env.actions nd.state).map fun a => (moveValue env m next j nd.time nd.state a : ℝ))| ≤
          j * (cfg.temp / 2) := by
        refine bestOf_near (hne _ hs') ?_
        intro a ha
        obtain ⟨c, hc⟩ := hx d nd hd hl a ha
        have hf : find? a nd.kids = some c := by simpa [childC, hd] using hc
        obtain ⟨nd1, nc, f1, f2, _⟩ := childC_facts I.tree hc
        simp only [q, hf, Option.elim_some, f2]
        exact chanceR_det hdet hlr hne hv htb hr hq hx ih hd hc f2 hn
      have e3 : ((bestOf opp ((env.actions nd.state).map fun a => env.reward nd.state a (next nd.state a) +
          gameValue env m next j (nd.time + 1) (next nd.state a)) : ℚ) : ℝ) =
          bestOf opp ((env.actions nd.state).map fun a => (moveValue env m next j nd.time nd.state a : ℝ)) := bestOf_cast (hne _ hs')
      rw [e3]
      have e4 := abs_sub_le (sgn opp * sparseMax (cfg.temp : ℝ) (fun a => sgn opp * q a) (env.actions nd.state)) (bestOf opp ((env.actions nd.state).map q))
        (bestOf opp ((env.actions nd.state).map fun a => (moveValue env m next j nd.time nd.state a : ℝ)))
      refine le_trans e4 ?_
      push_cast
      linarith

/-- C96 (b).  In a deterministic environment, when everything has been tried and no trial is running, the value of every decision node is the value of the game from its
state on, up to `sparseError` and half the temperature per move to go. -/
theorem c96_game_value (hsq : GoodSq sq) (F : SparseFits env m cfg lr ρ M K n D dp h) (hdet : ∀ s a, a ∈ env.actions s → env.succ s a = [next s a])
    (hlr : ∀ s a, a ∈ env.actions s → lr s a = env.reward s a (next s a)) (hne : ∀ s, env.isSink s = false → env.actions s ≠ [])
    (hv : alg.Valid) (H : HasFpTents alg env m sq cfg lr)
    (hu : m.useTable = false) (htb : Leftover tb) (hr : Reachable env m alg k s0 dp tm tb st h) (hq : Quiescent st) (hx : Exhausted env m st)
    {d : Nat} {nd : DNode S A ℚ (Except TErr (TXF A))} (hd : st.dn[d]? = some nd) :
    ∃ v, softDF softOfF st d = some v ∧ |(v : ℝ) - gameValue env m next (remaining m nd.depth) nd.time nd.state| ≤
      remaining m nd.depth * (sparseError K n cfg.temp M + cfg.temp / 2) := by
  obtain ⟨v, h1, h2⟩ := c96_tree_value hsq F hv H hu htb hr hq hd
  refine ⟨v, h1, ?_⟩
  have h3 := sparseR_game (cfg := cfg) hdet hlr hne hv htb hr hq hx F.nodup F.temp.2 (remaining m nd.depth) d nd hd rfl
  have := abs_sub_le (v : ℝ) (sparseTreeR cfg env m lr st h (remaining m nd.depth) d) ((gameValue env m next (remaining m nd.depth) nd.time nd.state : ℚ) : ℝ)
  linarith

/-- C96 (b), actions. -/
theorem c96_action_value (hsq : GoodSq sq) (F : SparseFits env m cfg lr ρ M K n D dp h) (hdet : ∀ s a, a ∈ env.actions s → env.succ s a = [next s a])
    (hlr : ∀ s a, a ∈ env.actions s → lr s a = env.reward s a (next s a)) (hne : ∀ s, env.isSink s = false → env.actions s ≠ [])
    (hv : alg.Valid) (H : HasFpTents alg env m sq cfg lr)
    (hu : m.useTable = false) (htb : Leftover tb) (hr : Reachable env m alg k s0 dp tm tb st h) (hq : Quiescent st) (hx : Exhausted env m st)
    {d c : Nat} {a : A} {nd : DNode S A ℚ (Except TErr (TXF A))} (hd : st.dn[d]? = some nd) (hc : childC st d a = some c) :
    ∃ v, softCF id st c = some v ∧ |(v : ℝ) - moveValue env m next (remaining m (nd.depth + 1)) nd.time nd.state a| ≤
      remaining m nd.depth * sparseError K n cfg.temp M + remaining m (nd.depth + 1) * (cfg.temp / 2) := by
  have hrem := inner_node hv htb hr hd hc
  obtain ⟨nc, v, h1, h2, h3⟩ := c96_chance_value hsq F hv H hu htb hr hq hd hc
  refine ⟨v, h2, ?_⟩
  have h4 := chanceR_det hdet hlr hne hv htb hr hq hx
    (sparseR_game (cfg := cfg) hdet hlr hne hv htb hr hq hx F.nodup F.temp.2 (remaining m (nd.depth + 1))) hd hc h1 hrem
  have := abs_sub_le (v : ℝ) (chanceSoftR env m lr st h (sparseTreeR cfg env m lr st h (remaining m (nd.depth + 1))) nc)
    (moveValue env m next (remaining m (nd.depth + 1)) nd.time nd.state a)
  linarith

/-- C96 (c).  And the action recommended by value (threshold at most one visit) at any node that is not a leaf is nearly optimal: within twice the error of the actions'
values. -/
theorem c96_recommends (hsq : GoodSq sq) (F : SparseFits env m cfg lr ρ M K n D dp h) (hdet : ∀ s a, a ∈ env.actions s → env.succ s a = [next s a])
    (hlr : ∀ s a, a ∈ env.actions s → lr s a = env.reward s a (next s a)) (hne : ∀ s, env.isSink s = false → env.actions s ≠ [])
    (hv : alg.Valid) (H : HasFpTents alg env m sq cfg lr)
    (hu : m.useTable = false) (htb : Leftover tb) (hr : Reachable env m alg k s0 dp tm tb st h) (hq : Quiescent st) (hx : Exhausted env m st)
    {d : Nat} {nd : DNode S A ℚ (Except TErr (TXF A))} (hd : st.dn[d]? = some nd) (hleaf : isLeaf env m nd = false) (hth : cfg.threshold ≤ 1) {ε : ℝ}
    (hε : ε = remaining m nd.depth * sparseError K n cfg.temp M + remaining m (nd.depth + 1) * (cfg.temp / 2))
    (hlow : ∀ a ∈ env.actions nd.state, cfg.low + ε ≤ sgn (isOpponent m nd.time) * moveValue env m next (remaining m (nd.depth + 1)) nd.time nd.state a)
    (raw : Nat) {iter : List (A × ℚ) → List (A × ℚ)} (hi : IterOk iter) :
    ∃ a ∈ env.actions nd.state, recommendSoftF cfg id (viewOf env m st nd) raw iter = some a ∧ ∀ b ∈ env.actions nd.state,
      sgn (isOpponent m nd.time) * (moveValue env m next (remaining m (nd.depth + 1)) nd.time nd.state b : ℝ) ≤
        sgn (isOpponent m nd.time) * moveValue env m next (remaining m (nd.depth + 1)) nd.time nd.state a + 2 * ε :=
  recommend_near (mv := fun a => (moveValue env m next (remaining m (nd.depth + 1)) nd.time nd.state a : ℝ)) hne hv htb hr hq hx hd hleaf hth
    (fun a c hc => by rw [hε]; exact c96_action_value hsq F hdet hlr hne hv H hu htb hr hq hx hd hc) hlow raw hi

/-- C96 (d).  In every reachable state, whatever the values, the schedule and the transposition table: no update of the maps has failed, every node's maps hold one value per
action, and that of an action without outstanding backup is its current value over the temperature, rounded. -/
theorem c96_maps_sound (H : HasFpTents alg env m sq cfg lr) (hv : alg.Valid) (hnd : ∀ s, (env.actions s).Nodup) (htb : Leftover tb)
    (hr : Reachable env m alg k s0 dp tm tb st h) {d : Nat} {nd : DNode S A ℚ (Except TErr (TXF A))} (hd : st.dn[d]? = some nd) :
    ∃ t z, nd.x = .ok t ∧ MapsHold (env.actions nd.state) z t.byVal t.byAct ∧
      ∀ a ∈ env.actions nd.state, Settled st h d a → z a = qOverTemp cfg (viewOf env m st nd) a := by
  obtain ⟨t, z, h1, h2⟩ := tentsF_reach H hv hnd htb hr d nd hd
  exact ⟨t, z, h1, h2, fun a ha hS => storedF_reach H hv hnd htb hr hd ha hS h1 h2⟩

/-- The probability of exploration is a double between 0 and 1. -/
theorem mentsLambda_ok {X Y : Type} (hme : IsDouble cfg.maxExplore) (h0 : 0 ≤ cfg.maxExplore) (h1 : cfg.maxExplore ≤ 1) (he : 0 ≤ cfg.epsilon)
    (hlg : ∀ n : Nat, 0 ≤ lg (n + 1)) (v : View S A X Y) : IsDouble (mentsLambda lg cfg v) ∧ 0 ≤ mentsLambda lg cfg v ∧ mentsLambda lg cfg v ≤ 1 := by
  have hl : ∀ e : ℚ, 0 ≤ e → IsDouble (exploreProb e (lg (v.visits + 1)) cfg.maxExplore) ∧ 0 ≤ exploreProb e (lg (v.visits + 1)) cfg.maxExplore ∧
      exploreProb e (lg (v.visits + 1)) cfg.maxExplore ≤ 1 := by
    intro e he
    unfold exploreProb
    dsimp only
    split
    · exact ⟨hme, h0, h1⟩
    · rename_i h2
      refine ⟨isDouble_fl _, ?_, le_trans (not_lt.1 h2) h1⟩
      have : fl 0 ≤ fl (e / lg (v.visits + 1)) := fl_mono (div_nonneg he (hlg _))
      rwa [fl_zero] at this
  unfold mentsLambda
  dsimp only
  split
  · exact ⟨hme, h0, h1⟩
  · refine hl _ ?_
    split
    · rename_i h3; exact h3.2.le
    · exact he

/-- C96 (e).  A worker that selects at a node without outstanding backups finds the policy of the current values: the probabilities it computes are those of the sparsemax
of the current values over the temperature, mixed with the uniform distribution, up to rounding, if these values are not too large. -/
theorem c96_settled_policy (H : HasFpTents alg env m sq cfg lr) (hv : alg.Valid) (hnd : ∀ s, (env.actions s).Nodup) (htb : Leftover tb)
    (hr : Reachable env m alg k s0 dp tm tb st h) {d : Nat} {nd : DNode S A ℚ (Except TErr (TXF A))} (hd : st.dn[d]? = some nd) (hne : env.actions nd.state ≠ [])
    (hS : ∀ a ∈ env.actions nd.state, Settled st h d a) (hn : (env.actions nd.state).length ≤ 1000) {B : ℚ} (hB : 1 ≤ B)
    (hval : ∀ a ∈ env.actions nd.state, |qOverTemp cfg (viewOf env m st nd) a| ≤ B) (hsmall : (env.actions nd.state).length ^ 4 * (unit * B) ≤ 1 / 1000)
    (hme : IsDouble cfg.maxExplore) (h0 : 0 ≤ cfg.maxExplore) (h1 : cfg.maxExplore ≤ 1) (he : 0 ≤ cfg.epsilon) (hlg : ∀ n : Nat, 0 ≤ lg (n + 1)) :
    let v := viewOf env m st { nd with visits := nd.visits + 1, x := tentsFVisit false nd.x }
    ∃ ws sum, ∃ prob : A → ℚ, ∃ p : A → ℝ,
      tentsWeights (qOverTemp cfg v) (byValOfF v.x).reverse (env.actions nd.state) = some (ws, sum) ∧
      mixtureW (mentsLambda lg cfg v) sum ws = (env.actions nd.state).map (fun a => (a, prob a)) ∧
      Tents.IsSparsemax (env.actions nd.state) (fun a => (qOverTemp cfg v a : ℝ)) p ∧
      ∀ a ∈ env.actions nd.state, |(prob a : ℝ) - ((1 - mentsLambda lg cfg v) * p a +
        mentsLambda lg cfg v / (env.actions nd.state).length)| ≤ 56 * (env.actions nd.state).length ^ 4 * (unit * B) := by
  intro v
  obtain ⟨t, z, g1, MH, g3⟩ := c96_maps_sound H hv hnd htb hr hd
  obtain ⟨l1, l2, l3⟩ := mentsLambda_ok hme h0 h1 he hlg v
  have hx : v.x = .ok t := by simp only [v, viewOf, g1]; rfl
  have hz : ∀ a ∈ env.actions nd.state, z a = qOverTemp cfg (viewOf env m st nd) a := fun a ha => g3 a ha (hS a ha)
  have hlen : t.byVal.length = (env.actions nd.state).length := by rw [MH.val.length_eq, List.length_map]
  have hmem : ∀ p ∈ t.byVal, p.2 ∈ env.actions nd.state ∧ p.1 = z p.2 := by
    intro p hp
    obtain ⟨a, ha, rfl⟩ := List.mem_map.1 (MH.val.mem_iff.1 hp)
    exact ⟨ha, rfl⟩
  obtain ⟨ws, sum, prob, f1, f2, f3⟩ := c88_policy_everywhere_partial (q := qOverTemp cfg (viewOf env m st nd)) (B := B) (desc := t.byVal.reverse)
    (actions := env.actions nd.state) (lam := mentsLambda lg cfg v) hB (by
      intro h
      have := congrArg List.length h
      simp [hlen] at this
      exact hne this) (by rw [List.pairwise_reverse]; exact MH.sorted) (by
      rw [List.map_reverse]
      refine (List.reverse_perm _).trans ?_
      have := MH.val.map Prod.snd
      simpa [List.map_map, Function.comp_def] using this) (by
      intro p hp
      obtain ⟨m1, m2⟩ := hmem p (List.mem_reverse.1 hp)
      rw [m2, hz _ m1]) (by rw [List.length_reverse, hlen]; exact hn) (by
      intro p hp
      obtain ⟨m1, m2⟩ := hmem p (List.mem_reverse.1 hp)
      rw [m2, hz _ m1]
      exact ⟨isDouble_fl _, hval _ m1⟩) (by rw [List.length_reverse, hlen]; exact hsmall) l1 l2 l3
  rw [List.length_reverse, hlen] at f3
  refine ⟨ws, sum, prob, fun a => ((sparsemaxOf ((support 0 0 t.byVal.reverse).map Prod.fst) (qOverTemp cfg (viewOf env m st nd) a) : ℚ) : ℝ), by rw [hx]; exact f1, f2, ?_, ?_⟩
  · refine sparsemax_maps (bv := t.byVal) (ba := t.byAct) ⟨?_, ?_, MH.sorted⟩ hne
    · have e : (env.actions nd.state).map (fun a => (a, qOverTemp cfg v a)) = (env.actions nd.state).map fun a => (a, z a) :=
        List.map_congr_left fun a ha => by rw [hz a ha]; rfl
      rw [e]
      exact MH.act
    · have e : (env.actions nd.state).map (fun a => (qOverTemp cfg v a, a)) = (env.actions nd.state).map fun a => (z a, a) :=
        List.map_congr_left fun a ha => by rw [hz a ha]; rfl
      rw [e]
      exact MH.val
  · intro a ha
    have := (Rat.cast_le (K := ℝ)).2 (f3 a ha)
    push_cast at this
    exact this

/-- C96 (e).  With one worker this is so whenever it selects an action. -/
theorem c96_single_worker_policy (H : HasFpTents alg env m sq cfg lr) (hv : alg.Valid) (hnd : ∀ s, (env.actions s).Nodup) (htb : Leftover tb)
    (hr : Reachable env m alg 1 s0 dp tm tb st h) {w cur : Nat} {path : List (Nat × Nat)} {rs : List ℚ} {new : Bool}
    (hw : st.ws[w]? = some (.sel cur path rs new)) {nd : DNode S A ℚ (Except TErr (TXF A))} (hd : st.dn[cur]? = some nd) (hne : env.actions nd.state ≠ [])
    (hn : (env.actions nd.state).length ≤ 1000) {B : ℚ} (hB : 1 ≤ B)
    (hval : ∀ a ∈ env.actions nd.state, |qOverTemp cfg (viewOf env m st nd) a| ≤ B) (hsmall : (env.actions nd.state).length ^ 4 * (unit * B) ≤ 1 / 1000)
    (hme : IsDouble cfg.maxExplore) (h0 : 0 ≤ cfg.maxExplore) (h1 : cfg.maxExplore ≤ 1) (he : 0 ≤ cfg.epsilon) (hlg : ∀ n : Nat, 0 ≤ lg (n + 1)) :
    let v := viewOf env m st { nd with visits := nd.visits + 1, x := tentsFVisit false nd.x }
    ∃ ws sum, ∃ prob : A → ℚ, ∃ p : A → ℝ, tentsWeights (qOverTemp cfg v) (byValOfF v.x).reverse (env.actions nd.state) = some (ws, sum) ∧
      mixtureW (mentsLambda lg cfg v) sum ws = (env.actions nd.state).map (fun a => (a, prob a)) ∧
      Tents.IsSparsemax (env.actions nd.state) (fun a => (qOverTemp cfg v a : ℝ)) p ∧
      ∀ a ∈ env.actions nd.state, |(prob a : ℝ) - ((1 - mentsLambda lg cfg v) * p a + mentsLambda lg cfg v / (env.actions nd.state).length)| ≤
        56 * (env.actions nd.state).length ^ 4 * (unit * B) := by
  have hlen : st.ws.length = 1 := by
    refine reach_induct (fun (st : St S A ℚ (Except TErr (TXF A)) SoftF) _ => st.ws.length = 1) (by simp [init]) ?_ hr
    intro st h w e st' _ ih _ E
    rw [eff_len E]
    exact ih
  exact c96_settled_policy H hv hnd htb hr hd hne (fun a _ => settled_single (reach_inv hv htb hr) hlen hw a) hn hB hval hsmall hme h0 h1 he hlg

end

/-! ## A concrete search -/

/-- TENTS backups with doubles and an arbitrary choice of actions. -/
noncomputable def freeTentsF {S A : Type} [DecidableEq S] [DecidableEq A] (sq lg : ℚ → ℚ) (cfg : MentsCfg) (env : Env S A ℚ) (m : Manager S ℚ) (lr : S → A → ℚ) :
    Alg S A ℚ (Except TErr (TXF A)) SoftF :=
  { tentsF sq lg cfg env m lr with canSelect := fun v _ a => decide (a ∈ v.actions) }

theorem toy_tents_fits {h : List (Event Nat Nat ℚ)} (ht : trialsBegun h ≤ 6) : SparseFits Toy.env Toy.mgr toyCfg Toy.lr 1 4 1 2 2 0 h where
  nodup s := by simp [Toy.env]
  temp := by decide +kernel
  default := by norm_num [toyCfg]
  heur s := (toy_heur s).2
  local_ s a ha := toy_reward s a _ ha
  succs s a _ := by simp [Toy.env]
  few := by norm_num
  acts s := by simp [Toy.env]
  small := by norm_num
  depth := by decide
  trials := by omega
  one := by norm_num
  above := by norm_num [toyCfg]
  below := by norm_num [toyCfg]
  range := by
    have h2 : (unit : ℝ) ≤ 1 / 10 ^ 6 := by
      have : unit ≤ 1 / 10 ^ 6 := by rw [unit_eq]; norm_num
      have := (Rat.cast_le (K := ℝ)).2 this
      push_cast at this
      exact this
    unfold sparseError toyCfg
    push_cast
    linarith

/-- The hypotheses of C96 hold in the run of C94, with TENTS backups: the value of the root is that of the game up to 0.2. -/
example : ∃ sq st h v, GoodSq sq ∧ Reachable Toy.env Toy.mgr (freeTentsF sq id toyCfg Toy.env Toy.mgr Toy.lr) 2 0 0 0 [] st h ∧ st.dn.length = 7 ∧
    softDF softOfF st st.root = some v ∧ |(v : ℝ) - gameValue Toy.env Toy.mgr Toy.next 2 0 0| ≤ 1 / 5 := by
  obtain ⟨st, h, h1, h2, h3, h4, h5⟩ := toy_run (freeTentsF (fun x => fl (x ^ 2)) id toyCfg Toy.env Toy.mgr Toy.lr) (fun _ _ _ => rfl) rfl
  have hv : (freeTentsF (fun x => fl (x ^ 2)) id toyCfg Toy.env Toy.mgr Toy.lr).Valid := by
    intro v _ a h
    simpa [freeTentsF] using h
  obtain ⟨nd, r1, r2, r3, r4⟩ := root_node (reach_inv hv (by intro p hp; simp at hp) h1).tree
  obtain ⟨v, g1, g2⟩ := c96_game_value (next := Toy.next) goodSq_fl (toy_tents_fits h5)
    (fun _ _ _ => rfl) (fun _ _ _ => rfl) (fun _ _ => by simp [Toy.env]) hv
    ⟨fun _ _ _ _ => rfl, fun _ _ _ _ => rfl, fun _ _ => rfl, fun _ => rfl, fun _ _ _ => rfl, fun _ _ _ => rfl, fun _ _ _ _ _ => rfl⟩
    rfl (by intro p hp; simp at hp) h1 h2 h3 r1
  rw [r2, r3, r4] at g2
  refine ⟨_, st, h, v, goodSq_fl, h1, h4, g1, le_trans g2 ?_⟩
  have q2 : (unit : ℝ) ≤ 1 / 10 ^ 9 := by
    have : unit ≤ 1 / 10 ^ 9 := by rw [unit_eq]; norm_num
    have := (Rat.cast_le (K := ℝ)).2 this
    push_cast at this
    exact this
  have q4 : remaining Toy.mgr 0 = 2 := by decide
  rw [q4]
  unfold sparseError toyCfg
  push_cast
  linarith

/-- The hypotheses on the policy hold at the root of any search that has not begun. -/
example : ∃ (v : View Nat Nat (Except TErr (TXF Nat)) SoftF) (ws : List (Nat × ℚ)) (sum : ℚ) (prob : Nat → ℚ) (p : Nat → ℝ), v.actions = [0, 1] ∧
    tentsWeights (qOverTemp toyCfg v) (byValOfF v.x).reverse v.actions = some (ws, sum) ∧
    mixtureW (mentsLambda (fun _ => 1) toyCfg v) sum ws = v.actions.map (fun a => (a, prob a)) ∧ Tents.IsSparsemax v.actions (fun a => (qOverTemp toyCfg v a : ℝ)) p := by
  have hv : (freeTentsF (fun x => fl (x ^ 2)) (fun _ => 1) toyCfg Toy.env Toy.mgr Toy.lr).Valid := by
    intro v _ a h
    simpa [freeTentsF] using h
  let st0 := init Toy.env Toy.mgr (freeTentsF (fun x => fl (x ^ 2)) (fun _ => 1) toyCfg Toy.env Toy.mgr Toy.lr) 2 0 0 0 []
  have hr : Reachable Toy.env Toy.mgr (freeTentsF (fun x => fl (x ^ 2)) (fun _ => 1) toyCfg Toy.env Toy.mgr Toy.lr) 2 0 0 0 [] st0 [] := ⟨[], rfl⟩
  obtain ⟨ws, sum, prob, p, h1, h2, h3, _⟩ := c96_settled_policy (lg := fun _ => 1) (B := 1) (sq := fun x => fl (x ^ 2)) (lr := Toy.lr)
    ⟨fun _ _ _ _ => rfl, fun _ _ _ _ => rfl, fun _ _ => rfl, fun _ => rfl, fun _ _ _ => rfl, fun _ _ _ => rfl, fun _ _ _ _ _ => rfl⟩ hv
    (fun s => by simp [Toy.env]) (by intro p hp; simp at hp) hr (d := 0)
    (nd := newD Toy.env Toy.mgr (freeTentsF (fun x => fl (x ^ 2)) (fun _ => 1) toyCfg Toy.env Toy.mgr Toy.lr) 0 0 0) rfl (by simp [Toy.env, newD])
    (by
      intro a _ w p hw
      have : p = .idle := by
        have := List.mem_of_getElem? hw
        simpa [st0, init] using this
      rw [this]
      simp [owed]) (by simp [Toy.env]) le_rfl (by
      intro a ha
      have : qOverTemp toyCfg (viewOf Toy.env Toy.mgr st0 (newD Toy.env Toy.mgr
          (freeTentsF (fun x => fl (x ^ 2)) (fun _ => 1) toyCfg Toy.env Toy.mgr Toy.lr) 0 0 0)) a = 0 := by
        simp [qOverTemp, softQ, viewOf, kidsY, newD, toyCfg, find?, fdiv, fl_zero]
      rw [this]; norm_num) (by rw [unit_eq]; norm_num [Toy.env]) (by decide +kernel) (by norm_num [toyCfg]) (by norm_num [toyCfg]) (by norm_num [toyCfg]) (fun _ => by norm_num)
  exact ⟨_, ws, sum, prob, p, rfl, h1, h2, h3⟩

end Verif.Fp
