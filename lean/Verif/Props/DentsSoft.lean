import Verif.Props.SoftTree

/-!
# The soft value a DENTS node stores and shows: C70

`soft_value` of a DENTS node is written by every backup (dents_decision_node.cpp:128, dents_chance_node.cpp:72) and printed by
`get_pretty_print_val` beside the value estimate, the entropy and the value temperature.
-/

namespace Verif.Dents

open Verif.Search Verif.Backups Verif.Ments

set_option linter.unusedSimpArgs false
set_option linter.unusedSectionVars false

variable {S A : Type} [DecidableEq S] [DecidableEq A]
  {env : Env S A ℝ} {m : Manager S ℝ} {lr : S → A → ℝ} {cfg : DCfg S A} {eps : ℝ}
  {k : Nat} {s0 : S} {dp tm : Int} {tb : List ((Int × S) × Option Nat)} {h : List (Event S A ℝ)}

/-- The value estimate plus a temperature times the entropy (`none`: not a number). -/
noncomputable def weighed (temp : ℝ) (val ent : Option ℝ) : Option ℝ := val.bind fun v => ent.map fun e => v + temp * e

theorem softOf_eq (temp : ℝ) (val ent : Option ℝ) : softOf temp val ent = weighed temp val ent := by
  cases val <;> cases ent <;> rfl

/-- C70.  In every state of a DENTS search, the soft value of every decision node that has been backed up is its value estimate (DP
value or average return) plus the value temperature times its subtree entropy, the temperature being that of the node at some earlier
moment. -/
theorem c70_decision {st : St S A ℝ DX DY} (hr : Reachable env m (dents eps cfg env m lr) k s0 dp tm tb st h)
    {d : Nat} {nd : DNode S A ℝ DX} (hd : st.dn[d]? = some nd) (hb : returnsD d h ≠ []) :
    ∃ n, n ≤ nd.visits ∧
      nd.x.soft.val = weighed (valueTempD cfg nd.depth n) (if cfg.useDp then nd.x.dp.val else some nd.x.emp.avg) nd.x.ent.sub := by
  obtain ⟨ls, hx⟩ := hr
  refine (exec_induct (fun st h => Touch st h ∧ ∀ (d : Nat) (nd : DNode S A ℝ DX), st.dn[d]? = some nd → returnsD d h ≠ [] →
    ∃ n, n ≤ nd.visits ∧
      nd.x.soft.val = weighed (valueTempD cfg nd.depth n) (estimate cfg nd.x.dp nd.x.emp) nd.x.ent.sub)
    ?_ ⟨⟨by simp, by simp⟩, by simp [returnsD]⟩ hx).2 d nd hd hb
  intro st h w e st' ⟨T, ih⟩ _ E
  refine ⟨touch_eff T E, ?_⟩
  intro d nd' hd' hb
  rcases dn_chg E hd' with ⟨nd, hd, hchg⟩ | ⟨rfl, ht, s, dep, tim, rfl⟩
  · cases hchg with
    | same he =>
      rw [returnsD_cons d e h he] at hb
      exact ih d nd' hd hb
    | selOld hl ha hf =>
      obtain ⟨n, h1, h2⟩ := ih d nd hd (by simpa [returnsD] using hb)
      exact ⟨n, Nat.le_succ_of_le h1, h2⟩
    | selNew hl ha hf =>
      obtain ⟨n, h1, h2⟩ := ih d nd hd (by simpa [returnsD] using hb)
      exact ⟨n, Nat.le_succ_of_le h1, h2⟩
    | ended =>
      obtain ⟨n, h1, h2⟩ := ih d nd hd (by simpa [returnsD] using hb)
      refine ⟨n, Nat.le_succ_of_le h1, ?_⟩
      cases hl : isLeaf env m nd <;>
        simpa [dents, dentsVisitD, softVisit, dpVisit, estimate, hl] using h2
    | @backed w args =>
      refine ⟨nd.visits, le_rfl, ?_⟩
      simp only [dents, dentsBackupD]
      rw [softOf_eq]
      rfl
  · exfalso
    rw [returnsD_cons _ e h ht] at hb
    refine hb (List.filterMap_eq_nil_iff.2 ?_)
    intro e' he'
    cases e' with
    | backedD w' d' args =>
      have hne : d' ≠ st.dn.length := by
        rintro rfl
        have := T.d _ he' st.dn.length (by simp [Event.touchesD])
        omega
      simp [hne]
    | _ => rfl

/-- C70 for chance nodes. -/
theorem c70_chance {st : St S A ℝ DX DY} (hr : Reachable env m (dents eps cfg env m lr) k s0 dp tm tb st h)
    {c : Nat} {nc : CNode S A ℝ DY} (hc : st.cn[c]? = some nc) (hb : returnsC c h ≠ []) :
    ∃ n, n ≤ nc.visits ∧
      nc.y.soft.val = weighed (valueTempC cfg n) (if cfg.useDp then nc.y.dp.val else some nc.y.emp.avg) nc.y.ent.sub := by
  obtain ⟨ls, hx⟩ := hr
  refine ((exec_induct (fun st h => Touch st h ∧ ∀ (c : Nat) (nc : CNode S A ℝ DY), st.cn[c]? = some nc → nc.y.visits = nc.visits ∧ (returnsC c h ≠ [] →
    ∃ n, n ≤ nc.visits ∧
      nc.y.soft.val = weighed (valueTempC cfg n) (estimate cfg nc.y.dp nc.y.emp) nc.y.ent.sub))
    ?_ ⟨⟨by simp, by simp⟩, by simp [init]⟩ hx).2 c nc hc).2 hb
  intro st h w e st' ⟨T, ih⟩ _ E
  refine ⟨touch_eff T E, ?_⟩
  intro c nc' hc'
  rcases cn_chg E hc' with ⟨nc, hc, hchg⟩ | ⟨rfl, ht, nd, a, rfl⟩
  · obtain ⟨ih1, ih2⟩ := ih c nc hc
    cases hchg with
    | same he =>
      rw [returnsC_cons c e h he]
      exact ⟨ih1, ih2⟩
    | stepped ho hk =>
      refine ⟨by simp [dents, ih1], ?_⟩
      intro hb
      obtain ⟨n, h1, h2⟩ := ih2 (by simpa [returnsC] using hb)
      exact ⟨n, Nat.le_succ_of_le h1, h2⟩
    | @backed w args =>
      refine ⟨ih1, fun _ => ⟨nc.visits, le_rfl, ?_⟩⟩
      simp only [dents, dentsBackupC]
      rw [softOf_eq, ih1]
  · refine ⟨rfl, fun hb => ?_⟩
    exfalso
    rw [returnsC_cons _ e h ht] at hb
    refine hb (List.filterMap_eq_nil_iff.2 ?_)
    intro e' he'
    cases e' with
    | backedC w' c' args =>
      have hne : c' ≠ st.cn.length := by
        rintro rfl
        have := T.c _ he' st.cn.length (by simp [Event.touchesC])
        omega
      simp [hne]
    | _ => rfl

/-- C70.  With a constant value temperature the soft value shown is always the estimate shown plus the value temperature shown times the
entropy shown. -/
theorem c70_constant (hk : cfg.valueDecay = none) {st : St S A ℝ DX DY}
    (hr : Reachable env m (dents eps cfg env m lr) k s0 dp tm tb st h) :
    (∀ (d : Nat) nd, st.dn[d]? = some nd → returnsD d h ≠ [] →
      nd.x.soft.val = weighed (valueTempD cfg nd.depth nd.visits) (if cfg.useDp then nd.x.dp.val else some nd.x.emp.avg) nd.x.ent.sub) ∧
    (∀ (c : Nat) nc, st.cn[c]? = some nc → returnsC c h ≠ [] →
      nc.y.soft.val = weighed (valueTempC cfg nc.visits) (if cfg.useDp then nc.y.dp.val else some nc.y.emp.avg) nc.y.ent.sub) := by
  have h1 : ∀ dep n n', valueTempD cfg dep n = valueTempD cfg dep n' := by intro dep n n'; simp [valueTempD, hk]
  have h2 : ∀ n n', valueTempC cfg n = valueTempC cfg n' := by intro n n'; simp [valueTempC, hk]
  constructor
  · intro d nd hd hb
    obtain ⟨n, _, h3⟩ := c70_decision hr hd hb
    rw [h3, h1 nd.depth n nd.visits]
  · intro c nc hc hb
    obtain ⟨n, _, h3⟩ := c70_chance hr hc hb
    rw [h3, h2 n nc.visits]

/-- One trial of DENTS, after which root and chance node have been backed up. -/
example : ∃ st h nd nc, Reachable zEnv hMgr (dents 0 (zCfgE (1 / 2)) zEnv hMgr fun _ _ => 1) 1 () 0 0 [] st h ∧ st.dn[0]? = some nd ∧
    returnsD 0 h ≠ [] ∧ st.cn[0]? = some nc ∧ returnsC 0 h ≠ [] := by
  obtain ⟨v, ctx, ctx', args, args', h, hr⟩ := h_run (dents 0 (zCfgE (1 / 2)) zEnv hMgr fun _ _ => 1) rfl
    (fun v h1 h2 h3 ctx => z_first (e := 1 / 2) (by norm_num) v h1 h2 h3 ctx)
  have hb := c39_children_backed (a := ()) (d := 0) (c := 0) (dents_valid 0 (zCfgE (1 / 2)) zEnv hMgr fun _ _ => 1)
    (by intro p hp; simp at hp) hr (by
      intro w p hw
      match w, hw with
      | 0, hw => simpa using hw.symm
      | _ + 1, hw => simp at hw) rfl
  exact ⟨_, h, _, _, hr, rfl, hb.1, rfl, hb.2⟩

end Verif.Dents
