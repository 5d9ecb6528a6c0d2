import Verif.Proofs.TentsTree
import Verif.Props.Rents
import Verif.Props.Stochastic

/-! # TENTS and RENTS explore -/

set_option linter.unusedSectionVars false
set_option linter.unusedSimpArgs false

namespace Verif.Tents

open Verif.Search Verif.Backups Verif.Ments Verif.Random Verif.Spec
open Verif.Sampling (Draw)

section
variable {S A X Y : Type} [DecidableEq S] [DecidableEq A] {cfg : Cfg S A} {env : Env S A ℝ} {m : Manager S ℝ} {alg : Alg S A ℝ X Y} {eps : ℝ}
  {k : Nat} {s0 : S} {dp tm : Int} {tb : List ((Int × S) × Option Nat)} {W : View S A X Y → Ctx A ℝ → Except Bad (List (A × ℝ) × ℝ)}
  {iter : View S A X Y → List (A × ℝ) → List (A × ℝ)} {obs : S → A → List (S × ℝ)} {B N : Nat} {po : ℝ}

/-- Every policy that is a mixture with the uniform one explores. -/
theorem mix_explores (hv : alg.Valid) (htb : Leftover tb) (hcan : ∀ v ctx a, alg.canSelect v ctx a = selectableW eps cfg v (W v ctx) a)
    (h0 : alg.initVisits = 0)
    (hW : ∀ {st : St S A ℝ X Y} {h : List (Event S A ℝ)} {w cur : Nat} {path : List (Nat × Nat)} {rs : List ℝ} {new : Bool} {nd : DNode S A ℝ X},
      Reachable env m alg k s0 dp tm tb st h → st.ws[w]? = some (.sel cur path rs new) → st.dn[cur]? = some nd → env.actions nd.state ≠ [] →
      ∃ (wt : A → ℝ) (s : ℝ), W (viewOf env m st { nd with visits := nd.visits + 1, x := alg.visitD false nd.x }) (st.ctxOf w) =
          .ok ((env.actions nd.state).map fun a => (a, wt a), s) ∧ IsDistr (env.actions nd.state) fun a => wt a / s)
    (G : GoodCfg cfg env) (hl : env.Live) (hnd : ∀ s, (env.actions s).Nodup) (hB : ∀ s, (env.actions s).length ≤ B) (heps : 0 ≤ eps)
    (hit : ∀ v l, List.Perm (iter v l) l) (hobs : Transitions env obs po) (hp : 1 / 10 ^ 16 ≤ softExplore cfg B N) :
    Explores env m alg ⟨fun v ctx => v.actions.map fun a => (a, prob (fun u => selectActionW eps cfg v (W v ctx) u (iter v)) (· = .ok (.key a))), obs⟩
      k s0 dp tm tb N (softExplore cfg B N) po where
  obs := hobs
  sel := by
    intro st h w cur path rs new nd hr hN hw hd hs v
    have hvis : v.visits ≤ N := by
      have := visits_lt_of_sel hv htb hr hw hd
      simp only [v, viewOf]
      omega
    have hpos : 0 < v.visits := Nat.succ_pos _
    have hne : v.actions ≠ [] := hl.acts _ (cont_notSink hs)
    have hF : WellFormed cfg v := goodCfg_wellFormed G rfl
    obtain ⟨wt, s, hWe, hb⟩ := hW hr hw hd hne
    have hb' : IsDistr v.actions fun a => wt a / s := hb
    have hWe' : W v (st.ctxOf w) = .ok (v.actions.map fun a => (a, wt a), s) := hWe
    obtain ⟨d1, d2⟩ := mixture_is_distribution hpos hb' hF
    have hlow : ∀ a ∈ v.actions, softExplore cfg B N ≤ mixture cfg v (fun a => wt a / s) a := fun a ha =>
      le_trans (softExplore_le hpos hF hvis (hB _) hne) (d1 a ha).1
    have hpr : ∀ a ∈ v.actions, prob (fun u => selectActionW eps cfg v (W v (st.ctxOf w)) u (iter v)) (· = .ok (.key a)) =
        mixture cfg v (fun a => wt a / s) a := by
      intro a ha
      rw [hWe', selectW_probability hpos (hnd _) hF hb' heps (hit v) ha, if_neg (not_lt.2 (le_trans hp (hlow a ha)))]
    refine ⟨⟨?_, ?_⟩, ?_, ?_⟩
    · intro x hx
      obtain ⟨a, _, rfl⟩ := List.mem_map.1 hx
      dsimp only
      exact prob_nonneg _ _
    · rw [← d2]
      simp only [List.map_map]
      congr 1
      exact List.map_congr_left fun a ha => hpr a ha
    · intro x hx hx0
      obtain ⟨a, _, rfl⟩ := List.mem_map.1 hx
      replace hx0 : prob (fun u => selectActionW eps cfg v (W v (st.ctxOf w)) u (iter v)) (· = .ok (.key a)) ≠ 0 := hx0
      obtain ⟨u, g0, g1, g2⟩ := prob_ne_zero hx0
      rw [hcan]
      unfold selectableW
      rw [@decide_eq_true_eq _ (Classical.propDecidable _)]
      exact ⟨u, iter v, g0, g1, hit v, g2⟩
    · intro a ha
      show _ ≤ weightOf (v.actions.map fun a => (a, prob (fun u => selectActionW eps cfg v (W v (st.ctxOf w)) u (iter v)) (· = .ok (.key a)))) a
      rw [weightOf_map (l := v.actions) (hnd _) _ ha, hpr a ha]
      exact hlow a ha

end

section
variable {S A : Type} [DecidableEq S] [DecidableEq A] {cfg : Cfg S A} {env : Env S A ℝ} {m : Manager S ℝ} {eps : ℝ} {lr : S → A → ℝ} {k : Nat} {s0 : S}
  {dp tm : Int} {tb : List ((Int × S) × Option Nat)} {obs : S → A → List (S × ℝ)} {B N : Nat} {po : ℝ}

theorem tents_weights_distr (G : GoodCfg cfg env) (hnd : ∀ s, (env.actions s).Nodup) (htb : Leftover tb)
    {st : St S A ℝ (Except TErr (TX A)) Soft} {h : List (Event S A ℝ)} {cur : Nat} {nd : DNode S A ℝ (Except TErr (TX A))}
    (hr : Reachable env m (tents eps cfg env m lr) k s0 dp tm tb st h) (hd : st.dn[cur]? = some nd) (hne : env.actions nd.state ≠ []) :
    let v := viewOf env m st { nd with visits := nd.visits + 1, x := tentsVisit false nd.x }
    ∃ (wt : A → ℝ) (s : ℝ), tentsWeights cfg (mentsQ cfg id v) v (byValOf v.x) = .ok ((env.actions nd.state).map fun a => (a, wt a), s) ∧
      IsDistr (env.actions nd.state) fun a => wt a / s := by
  intro v
  obtain ⟨t, z, hx, _, MH⟩ := (tents_reach G.total hnd htb hr).1 cur nd hd
  obtain ⟨Q, hQ⟩ := tents_q_defined G.total hnd htb hr { nd with visits := nd.visits + 1, x := tentsVisit false nd.x }
  have hbv : byValOf v.x = t.byVal := by
    show byValOf (tentsVisit false nd.x) = _
    rw [hx]
    rfl
  obtain ⟨hK, rest, hp, _, _⟩ := sparseSet_spec MH hne
  have hge := above_sum_ge hp hK (fun b => Q b / getTemp cfg v)
  rw [hbv, tentsWeights_eq (v := v) hQ hp hK]
  exact ⟨_, _, rfl, isDistr_div (acts := v.actions) (fun a _ => above_nonneg (fun b => Q b / getTemp cfg v)
      ((((sparseSet t.byVal).map fun b => Q b / getTemp cfg v).sum - 1) / (sparseSet t.byVal).length) a) rfl (lt_of_lt_of_le one_pos hge)⟩

theorem rents_weights_distr (G : GoodCfg cfg env) (hnd : ∀ s, (env.actions s).Nodup) (htb : Leftover tb)
    {st : St S A ℝ Soft Soft} {h : List (Event S A ℝ)} {w cur : Nat} {path : List (Nat × Nat)} {rs : List ℝ} {new : Bool} {nd : DNode S A ℝ Soft}
    (hr : Reachable env m (rents eps cfg lr) k s0 0 tm tb st h) (hw : st.ws[w]? = some (.sel cur path rs new)) (hd : st.dn[cur]? = some nd)
    (hne : env.actions nd.state ≠ []) :
    let v := viewOf env m st { nd with visits := nd.visits + 1, x := softVisit false nd.x }
    ∃ (wt : A → ℝ) (s : ℝ), rentsWS cfg (mentsQ cfg id v) v (st.ctxOf w) = .ok ((env.actions nd.state).map fun a => (a, wt a), s) ∧
      IsDistr (env.actions nd.state) fun a => wt a / s := by
  intro v
  obtain ⟨parent, h1, h2, _⟩ := c45_finds_parent_policy hnd htb hr (.inl ⟨_, _, _, hw⟩) hd
  obtain ⟨Q, hQ⟩ := rents_q_defined G.total htb hr { nd with visits := nd.visits + 1, x := softVisit false nd.x }
  have h1' : parentDistr v (st.ctxOf w) = .ok parent := h1
  obtain ⟨M, _, wt, s, g1, g2, _⟩ := rents_policy (cfg := cfg) (v := v) hQ h1' h2 hne
  refine ⟨wt, s, ?_, g2⟩
  unfold rentsWS
  rw [g1]
  rfl

/-! ## Stochastic environments -/

variable {st : St S A ℝ (Except TErr (TX A)) Soft} {h : List (Event S A ℝ)} {K M : Nat} {V η : ℝ}

/-- The values of a well sampled TENTS tree are close to the value of the game. -/
theorem tents_close (ht : 0 < cfg.temp) (hnd : ∀ s, (env.actions s).Nodup)
    (hl : env.Live) (htb : Leftover tb) (hu : m.useTable = false) (hr : Reachable env m (tents eps cfg env m lr) k s0 dp tm tb st h) (hq : Quiescent st)
    (hobs : Transitions env obs po) (hlr : ∀ s a, env.isSink s = false → a ∈ env.actions s → lr s a = Eval.mean1 (obs s a) fun o => env.reward s a o)
    (hV0 : 0 ≤ V) (hV : ∀ n t s, n ≤ (m.maxDepth - dp).toNat → |expValue env m obs n t s| ≤ V) (hη : 0 ≤ η)
    (hK0 : 0 < K) (hK : ∀ s a, (env.succ s a).length ≤ K) (hM : 2 * K ≤ M) (W : Sampled env m obs s0 dp M η st h) :
    ∀ (n d : Nat) nd, st.dn[d]? = some nd → (m.maxDepth - nd.depth).toNat = n →
      |sparseTree cfg env m lr st h n d - expValue env m obs n nd.time nd.state| ≤ n * (cfg.temp / 2 + sampleError V η K M) := by
  have hv := tents_valid eps cfg env m lr
  have I := reach_inv hv htb hr
  have hse : 0 ≤ sampleError V η K M := by unfold sampleError; positivity
  have hheur : ∀ (d : Nat) nd, st.dn[d]? = some nd → nd.heur = heurOf env m nd.state := by
    intro d nd hd
    exact I.tree.heap.dHeur d nd.skel (by simp [hd])
  intro n
  induction n with
  | zero =>
    intro d nd hd hn
    simp [sparseTree, hd, expValue, hheur d nd hd]
  | succ n ih =>
    intro d nd hd hn
    simp only [sparseTree, hd, Option.elim_some, expValue]
    by_cases hs : env.isSink nd.state = true
    · rw [if_pos (tents_leafKids htb hr hd (by simp [isLeaf, hs])), if_pos hs, hheur d nd hd, heurOf_sink hs]
      simp only [sub_zero, abs_zero]
      positivity
    · have hs' : env.isSink nd.state = false := by simpa using hs
      have hleaf : isLeaf env m nd = false := by
        simp [isLeaf, hs']
        omega
      have hfind : ∀ a ∈ env.actions nd.state, ∃ c, find? a nd.kids = some c ∧ childC st d a = some c := by
        intro a ha
        obtain ⟨c, hc, _⟩ := c77_complete hl hv htb hr W.explored hd hleaf ha
        have : find? a nd.kids = some c := by simpa [childC, hd] using hc
        exact ⟨c, this, hc⟩
      obtain ⟨a0, ha0⟩ := List.exists_mem_of_ne_nil _ (hl.acts _ hs')
      obtain ⟨c0, _, hc0⟩ := hfind a0 ha0
      obtain ⟨nd1, _, f1, _, f3, _⟩ := childC_facts I.tree hc0
      rw [hd] at f1
      obtain rfl := Option.some.inj f1
      rw [if_neg (List.ne_nil_of_mem f3), if_neg hs]
      have := sparseNode_close (m := m) (st := st) (cfg := cfg) (nd := nd) hnd ht (hl.acts _ hs')
        (V := chanceSoft env m lr st h (sparseTree cfg env m lr st h n))
        (g := fun a => actionValue env m obs n nd.time nd.state a)
        (ε := n * (cfg.temp / 2 + sampleError V η K M) + sampleError V η K M) (by
          intro a ha
          obtain ⟨c, h1, h2⟩ := hfind a ha
          obtain ⟨_, nc, _, g2, _⟩ := childC_facts I.tree h2
          exact ⟨c, nc, h1, g2, (chance_close hl hv htb hu hr hobs hlr hV0 hV hη hK0 hK hM W (w := softWeight env m st h)
            (fun c o d' hcd => (weights_close hv htb hu hr hq hcd).2) ih hd h2 g2 hn hs').2⟩)
      unfold actionValue at this
      push_cast
      linarith

end

end Verif.Tents
