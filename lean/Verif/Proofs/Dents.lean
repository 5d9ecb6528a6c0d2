import Verif.Model.Dents
import Verif.Proofs.Emp
import Verif.Proofs.MentsSearch

/-! # DB-MENTS, DENTS, EST: instances of the generic results, finite values during a search -/

set_option linter.unusedSectionVars false
set_option linter.unusedSimpArgs false

namespace Verif.Dents

open Verif.Search Verif.Sampling Verif.Backups Verif.Ments

variable {S A X Y : Type} [DecidableEq S] [DecidableEq A]

theorem selectable_valid {eps : ℝ} {cfg : Cfg S A} {q : A → Except Bad ℝ} {v : View S A X Y} {a : A}
    (h : selectable eps cfg q v a = true) : a ∈ v.actions := by
  unfold selectable at h
  rw [@decide_eq_true_eq _ (Classical.propDecidable _)] at h
  obtain ⟨u, iter, _, _, hi, h⟩ := h
  exact selectAction_valid hi h

theorem dents_valid (eps : ℝ) (cfg : DCfg S A) (env : Env S A ℝ) (m : Manager S ℝ) (lr : S → A → ℝ) :
    (dents eps cfg env m lr).Valid := fun _ _ _ h => selectable_valid h

theorem est_valid (eps : ℝ) (cfg : DCfg S A) (env : Env S A ℝ) (m : Manager S ℝ) (lr : S → A → ℝ) :
    (est eps cfg env m lr).Valid := fun _ _ _ h => selectable_valid h

theorem dbments_valid (eps : ℝ) (cfg : Cfg S A) (lr : S → A → ℝ) : (dbments eps cfg lr).Valid := fun _ _ _ h => selectable_valid h

theorem dbments_hasDp (eps : ℝ) (cfg : Cfg S A) (lr : S → A → ℝ) : HasDp (dbments eps cfg lr) DB.dp DB.dp lr where
  initD _ _ _ _ := rfl
  initC _ _ _ _ := rfl
  visitD _ _ := rfl
  visitC _ := rfl
  backupD _ _ _ := rfl
  backupC _ _ _ _ _ := rfl

theorem dents_hasDp (eps : ℝ) {cfg : DCfg S A} (env : Env S A ℝ) (m : Manager S ℝ) (lr : S → A → ℝ) (hu : cfg.useDp = true) :
    HasDp (dents eps cfg env m lr) DX.dp DY.dp lr where
  initD _ _ _ _ := rfl
  initC _ _ _ _ := rfl
  visitD _ _ := rfl
  visitC _ := rfl
  backupD v args := by simp [dents, dentsBackupD, valueBackupD, hu]
  backupC s a y kids args := by simp [dents, dentsBackupC, valueBackupC, hu]

theorem est_hasDp (eps : ℝ) {cfg : DCfg S A} (env : Env S A ℝ) (m : Manager S ℝ) (lr : S → A → ℝ) (hu : cfg.useDp = true) :
    HasDp (est eps cfg env m lr) DX.dp DY.dp lr where
  initD _ _ _ _ := rfl
  initC _ _ _ _ := rfl
  visitD _ _ := rfl
  visitC _ := rfl
  backupD v args := by simp [est, estBackupD, valueBackupD, hu]
  backupC s a y kids args := by simp [est, estBackupC, valueBackupC, hu]

theorem dents_hasEmp (eps : ℝ) {cfg : DCfg S A} (env : Env S A ℝ) (m : Manager S ℝ) (lr : S → A → ℝ) (hu : cfg.useDp = false) :
    HasEmp (dents eps cfg env m lr) DX.emp DY.emp 1 where
  initD _ _ _ _ := rfl
  initC _ _ _ _ := rfl
  visitD _ _ := rfl
  visitC _ := rfl
  backupD v args := by simp [dents, dentsBackupD, valueBackupD, hu]
  backupC s a y kids args := by simp [dents, dentsBackupC, valueBackupC, hu]

theorem est_hasEmp (eps : ℝ) {cfg : DCfg S A} (env : Env S A ℝ) (m : Manager S ℝ) (lr : S → A → ℝ) (hu : cfg.useDp = false) :
    HasEmp (est eps cfg env m lr) DX.emp DY.emp 1 where
  initD _ _ _ _ := rfl
  initC _ _ _ _ := rfl
  visitD _ _ := rfl
  visitC _ := rfl
  backupD v args := by simp [est, estBackupD, valueBackupD, hu]
  backupC s a y kids args := by simp [est, estBackupC, valueBackupC, hu]

/-! ## Finite values -/

theorem finiteEntC_spec (l : List (A × EntCO)) (hl : ∀ p ∈ l, ∃ r, p.2.sub = some r) : ∃ r, finiteEntC l = some r := by
  induction l with
  | nil => exact ⟨[], rfl⟩
  | cons p l ih =>
    obtain ⟨a, y⟩ := p
    obtain ⟨r, hr⟩ := ih (fun z hz => hl z (by simp [hz]))
    obtain ⟨x, hx⟩ := hl (a, y) (by simp)
    dsimp only at hx
    exact ⟨_, by simp [finiteEntC, hr, hx]; rfl⟩

theorem finiteEntD_spec (l : List EntDO) (hl : ∀ p ∈ l, (∃ r, p.loc = some r) ∧ ∃ r, p.sub = some r) : ∃ r, finiteEntD l = some r := by
  induction l with
  | nil => exact ⟨[], rfl⟩
  | cons x l ih =>
    obtain ⟨r, hr⟩ := ih (fun z hz => hl z (by simp [hz]))
    obtain ⟨⟨lo, h1⟩, su, h2⟩ := hl x (by simp)
    exact ⟨_, by simp [finiteEntD, hr, h1, h2]; rfl⟩

theorem dentsQ_total {cfg : DCfg S A} {env : Env S A ℝ} (hp : PriorTotal cfg.toCfg env) {v : View S A X DY} (hv : v.actions = env.actions v.state)
    (hk : ∀ k ∈ v.kids, (∃ r, estimate cfg k.2.2.dp k.2.2.emp = some r) ∧ ∃ r, k.2.2.ent.sub = some r) : ∃ Q, QIs (dentsQ cfg v) v Q := by
  have : ∀ a, ∃ x, a ∈ v.actions → dentsQ cfg v a = .ok x := by
    intro a
    by_cases ha : a ∈ v.actions
    · unfold dentsQ
      cases h : find? a v.kids with
      | none =>
        obtain ⟨x, hx⟩ := untriedQ_total hp hv ha
        exact ⟨x, fun _ => by simp [mentsQ, h, hx]⟩
      | some p =>
        obtain ⟨n, y⟩ := p
        obtain ⟨⟨r, hr⟩, e, he⟩ := hk _ (find?_mem' h)
        simp only at hr he
        simp only [hr, he]
        exact ⟨_, fun _ => rfl⟩
    · exact ⟨0, fun h => absurd h ha⟩
  choose Q hQ using this
  exact ⟨Q, fun a ha => hQ a ha⟩

theorem estQ_total {cfg : DCfg S A} {env : Env S A ℝ} (hp : PriorTotal cfg.toCfg env) {v : View S A X DY} (hv : v.actions = env.actions v.state)
    (hk : ∀ k ∈ v.kids, ∃ r, estimate cfg k.2.2.dp k.2.2.emp = some r) : ∃ Q, QIs (estQ cfg v) v Q := by
  have : ∀ a, ∃ x, a ∈ v.actions → estQ cfg v a = .ok x := by
    intro a
    by_cases ha : a ∈ v.actions
    · unfold estQ
      cases h : find? a v.kids with
      | none =>
        obtain ⟨x, hx⟩ := untriedQ_total hp hv ha
        exact ⟨x, fun _ => by simp [mentsQ, h, hx]⟩
      | some p =>
        obtain ⟨n, y⟩ := p
        obtain ⟨r, hr⟩ := hk _ (find?_mem' h)
        simp only at hr
        simp only [hr]
        exact ⟨_, fun _ => rfl⟩
    · exact ⟨0, fun h => absurd h ha⟩
  choose Q hQ using this
  exact ⟨Q, fun a ha => hQ a ha⟩

theorem lambda_total {cfg : Cfg S A} {v : View S A X Y} (he : v.visits = 0 → 0 < epsilonAt cfg v) : ∃ lam, lambda cfg v = .ok lam := by
  by_cases h : v.visits = 0
  · have := he h
    unfold epsilonAt at this
    unfold lambda isRoot
    simp only [h, if_true, decide_eq_true_eq, gt_iff_lt]
    rw [if_pos this]
    exact ⟨_, rfl⟩
  · exact ⟨_, lambda_visited (by omega)⟩

theorem actionDistr_total {cfg : Cfg S A} {q : A → Except Bad ℝ} {v : View S A X Y} {Q : A → ℝ} (hq : QIs q v Q) (hp : PriorCovers cfg v)
    (he : v.visits = 0 → 0 < epsilonAt cfg v) : ∃ l, actionDistr cfg q v = .ok l := by
  obtain ⟨lam, hl⟩ := lambda_total he
  unfold actionDistr fullDistr
  rw [qList_eq hq, hl]
  have hw : (weights cfg.low (getTemp cfg v) (v.actions.map fun a => (a, Q a))).1 =
      v.actions.map fun a => (a, Real.exp (Q a / getTemp cfg v - (weights cfg.low (getTemp cfg v) (v.actions.map fun a => (a, Q a))).2.2)) := by
    simp [weights, Function.comp_def]
  dsimp only
  rw [hw, interpolateAll_eq hp _ _ _ _ (fun a ha => ha)]
  exact ⟨_, rfl⟩

theorem entD_total {opp : Bool} {policy : Except Bad (List (A × ℝ))} {kids : List (A × EntCO)} (x : EntDO) (hp : ∃ l, policy = .ok l)
    (hk : ∀ p ∈ kids, ∃ r, p.2.sub = some r) :
    (∃ r, (entD opp policy kids x).loc = some r) ∧ ∃ r, (entD opp policy kids x).sub = some r := by
  obtain ⟨l, rfl⟩ := hp
  obtain ⟨l', h'⟩ := finiteEntC_spec kids hk
  simp only [entD, h']
  exact ⟨⟨_, rfl⟩, _, rfl⟩

theorem epsilonAt_pos {cfg : Cfg S A} (h : 0 < cfg.epsilon) (v : View S A X Y) : 0 < epsilonAt cfg v := by
  unfold epsilonAt
  split
  · next h => exact h.2
  · exact h

/-- Entropies are numbers: decision nodes. -/
def EntOkD (x : DX) : Prop := (∃ r, x.ent.loc = some r) ∧ ∃ r, x.ent.sub = some r

/-- Entropies are numbers: chance nodes. -/
def EntOkC (y : DY) : Prop := ∃ r, y.ent.sub = some r

theorem dents_local {cfg : DCfg S A} {env : Env S A ℝ} (m : Manager S ℝ) (eps : ℝ) (hp : PriorTotal cfg.toCfg env)
    (hs : 0 < cfg.priorWeight → ∃ f, cfg.prior = some f) (he : 0 < cfg.epsilon) (lr : S → A → ℝ) :
    LocalInvG env m (dents eps cfg env m lr) (fun x => ∃ r, estimate cfg x.dp x.emp = some r) (fun y => ∃ r, estimate cfg y.dp y.emp = some r)
      (fun _ _ => True) (fun _ _ _ x => EntOkD x) (fun _ _ _ _ y => EntOkC y) where
  initD s d t := by
    show EntOkD (dentsInitD cfg env m s d t _)
    unfold dentsInitD
    refine entD_total _ ?_ (by simp)
    set v : View S A DX DY := newView env m s d t _
    obtain ⟨Q, hQ⟩ := dentsQ_total (cfg := cfg) hp (v := v) rfl (by simp [v, newView])
    refine actionDistr_total hQ ?_ (fun _ => epsilonAt_pos he v)
    intro h
    obtain ⟨f, hf⟩ := hs h
    exact ⟨f, hf, fun a ha => hp f hf s a ha⟩
  initC s a d t _ := ⟨0, rfl⟩
  visitD b s d t x h := h
  visitC s a d t y h := h
  backupD v _ args h1 h2 h3 h4 h5 h6 h7 _ h8 h9 := by
    show EntOkD (dentsBackupD cfg v args.retAfter)
    unfold dentsBackupD
    refine entD_total _ ?_ ?_
    · obtain ⟨Q, hQ⟩ := dentsQ_total (cfg := cfg) hp h1 (fun k hk => ⟨h7 k hk, h9 k hk⟩)
      refine actionDistr_total hQ ?_ (fun _ => epsilonAt_pos he v)
      intro h
      obtain ⟨f, hf⟩ := hs h
      exact ⟨f, hf, fun a ha => hp f hf v.state a (h1 ▸ ha)⟩
    · intro p hp
      obtain ⟨k, hk, rfl⟩ := List.mem_map.1 hp
      exact h9 k hk
  backupC s a d t y kids args h1 h2 h3 h4 := by
    show EntOkC (dentsBackupC cfg (lr s a) kids y args.retAfter)
    unfold dentsBackupC
    obtain ⟨l, hl⟩ := finiteEntD_spec (kids.map fun k => k.2.ent) (by
      intro p hp
      obtain ⟨k, hk, rfl⟩ := List.mem_map.1 hp
      exact (h4 k hk).2)
    simp only [EntOkC, entC, hl]
    exact ⟨_, rfl⟩

/-- All DENTS data are numbers in every reachable state. -/
theorem dents_finite {cfg : DCfg S A} {env : Env S A ℝ} {m : Manager S ℝ} {eps : ℝ} (hp : PriorTotal cfg.toCfg env)
    (hs : 0 < cfg.priorWeight → ∃ f, cfg.prior = some f) (he : 0 < cfg.epsilon) {lr : S → A → ℝ} {k : Nat} {s0 : S} {dp tm : Int}
    {tb : List ((Int × S) × Option Nat)} (htb : Leftover tb) {st : St S A ℝ DX DY} {h : List (Event S A ℝ)}
    (hr : Reachable env m (dents eps cfg env m lr) k s0 dp tm tb st h) :
    (∀ (d : Nat) nd, st.dn[d]? = some nd → (∃ r, estimate cfg nd.x.dp nd.x.emp = some r) ∧ EntOkD nd.x) ∧
    (∀ (c : Nat) nc, st.cn[c]? = some nc → (∃ r, estimate cfg nc.y.dp nc.y.emp = some r) ∧ EntOkC nc.y) := by
  have V := dents_valid eps cfg env m lr
  have key : ∀ (st : St S A ℝ DX DY) h, Reachable env m (dents eps cfg env m lr) k s0 dp tm tb st h →
      (∀ (d : Nat) (nd : DNode S A ℝ DX), st.dn[d]? = some nd → ∃ r, estimate cfg nd.x.dp nd.x.emp = some r) ∧
      (∀ (c : Nat) (nc : CNode S A ℝ DY), st.cn[c]? = some nc → ∃ r, estimate cfg nc.y.dp nc.y.emp = some r) := by
    intro st h hr
    cases hu : cfg.useDp with
    | false => exact ⟨fun d nd _ => ⟨nd.x.emp.avg, by simp [estimate, hu]⟩, fun c nc _ => ⟨nc.y.emp.avg, by simp [estimate, hu]⟩⟩
    | true =>
      obtain ⟨_, _, D⟩ := dp_reach V (dents_hasDp eps env m lr hu) htb hr
      constructor
      · intro d nd hd
        obtain ⟨r, hr⟩ := (D.d d nd hd).2
        exact ⟨r, by simp [estimate, hu, hr]⟩
      · intro c nc hc
        obtain ⟨r, hr⟩ := (D.c c nc hc).2
        exact ⟨r, by simp [estimate, hu, hr]⟩
  obtain ⟨_, L⟩ := local_reach_given (dents_local m eps hp hs he lr) V htb
    (fun st h hr => ⟨(key st h hr).1, (key st h hr).2, fun _ _ _ _ _ _ _ _ _ _ => trivial⟩) hr
  obtain ⟨k1, k2⟩ := key st h hr
  exact ⟨fun d nd hd => ⟨k1 d nd hd, L.d d nd hd⟩, fun c nc hc => ⟨k2 c nc hc, L.c c nc hc⟩⟩

/-- The value estimates of EST are numbers in every reachable state. -/
theorem est_finite {cfg : DCfg S A} {env : Env S A ℝ} {m : Manager S ℝ} {eps : ℝ} {lr : S → A → ℝ} {k : Nat} {s0 : S} {dp tm : Int}
    {tb : List ((Int × S) × Option Nat)} (htb : Leftover tb) {st : St S A ℝ DX DY} {h : List (Event S A ℝ)}
    (hr : Reachable env m (est eps cfg env m lr) k s0 dp tm tb st h) (c : Nat) (nc : CNode S A ℝ DY) (hc : st.cn[c]? = some nc) :
    ∃ r, estimate cfg nc.y.dp nc.y.emp = some r := by
  cases hu : cfg.useDp with
  | false => exact ⟨nc.y.emp.avg, by simp [estimate, hu]⟩
  | true =>
    obtain ⟨_, _, D⟩ := dp_reach (est_valid eps cfg env m lr) (est_hasDp eps env m lr hu) htb hr
    obtain ⟨r, hr⟩ := (D.c c nc hc).2
    exact ⟨r, by simp [estimate, hu, hr]⟩

theorem dbments_local {cfg : Cfg S A} {env : Env S A ℝ} (m : Manager S ℝ) (eps : ℝ) (hp : PriorTotal cfg env) (lr : S → A → ℝ) :
    LocalInv env m (dbments eps cfg lr) (fun _ _ _ x => ∃ r, x.soft.val = some r) (fun _ _ _ _ y => ∃ r, y.soft.val = some r) where
  initD s d t := ⟨_, rfl⟩
  initC s a d t _ := ⟨_, rfl⟩
  visitD b s d t x h := by
    obtain ⟨r, h⟩ := h
    refine ⟨r, ?_⟩
    show (softVisit b x.soft).val = _
    unfold softVisit
    split <;> exact h
  visitC s a d t y h := h
  backupD v _ args h1 h2 h3 h4 h5 _ _ _ h6 h7 := by
    obtain ⟨Q, hQ⟩ := mentsQ_total hp h1 DB.soft h7
    obtain ⟨s, hs⟩ := softValue_total (cfg := cfg) hQ
    refine ⟨s, ?_⟩
    show (softBackupD cfg (mentsQ cfg DB.soft v) v v.x.soft).val = _
    simp [softBackupD, hs]
  backupC s a d t y kids args _ _ h1 h2 := by
    obtain ⟨l, hl⟩ := finiteSoft_spec (kids.map fun k => k.2.soft) (by
      intro y hy
      obtain ⟨k, hk, rfl⟩ := List.mem_map.1 hy
      exact (h2 k hk).2)
    refine ⟨meanLoop l 0 0 + lr s a, ?_⟩
    show (softBackupC (lr s a) (kids.map fun k => k.2.soft) y.soft).val = _
    simp [softBackupC, hl]

end Verif.Dents
