import Verif.Proofs.LockLocal
import Verif.Proofs.LockSelect
import Verif.Props.Live

/-! # DENTS at the level of locks: its values and entropies are numbers although its backups are not atomic, so selection finds an action -/

namespace Verif.LockLevel

open Verif.Search Verif.Ments Verif.Dents Verif.Backups

set_option linter.unusedSimpArgs false
set_option linter.unusedSectionVars false

variable {S A : Type} [DecidableEq S] [DecidableEq A] {env : Env S A ℝ} {m : Manager S ℝ} {hash : Int × S → Nat} {eps : ℝ} {cfg : DCfg S A}
  {lr : S → A → ℝ} {k : Nat} {s0 : S} {dp tm : Int} {tb : List ((Int × S) × Option Nat)}

def ValD (cfg : DCfg S A) (x : DX) : Prop := ∃ r, estimate cfg x.dp x.emp = some r
def ValC (cfg : DCfg S A) (y : DY) : Prop := ∃ r, estimate cfg y.dp y.emp = some r

section
variable {R X Y X' Y' : Type} [AddMonoid R] {env : Env S A R} {m : Manager S R} {code : Code S A R X Y} {alg : Alg S A R X Y} {alg' : Alg S A R X' Y'}
  {π : X → X'} {ρ : Y → Y'} {jD jC : Nat} {f : FSt S A R X Y} {s : St S A R X' Y'}

/-- A worker that is about to write the data of a decision node: the search has these data already. -/
theorem rel_setX (H : Rel env m code alg alg' π ρ jD jC f s) {w d : Nat} {next rels x nd}
    (hw : f.ws[w]? = some (.post next (rels ++ [.setX d x, .rel (.d d)]))) (hd : f.dn[d]? = some nd) :
    ∃ nd', s.dn[d]? = some nd' ∧ nd'.x = π x := by
  obtain ⟨nd', hd'⟩ := dn_get H hd
  have := H.down d nd nd' hd hd' w _ hw (by simp [holds])
  simp only [dRel] at this
  refine ⟨nd', hd', ?_⟩
  rw [this]
  simp [actsD, mapD, actD]

theorem rel_setY (H : Rel env m code alg alg' π ρ jD jC f s) {w c : Nat} {next rels y nc}
    (hw : f.ws[w]? = some (.post next (rels ++ [.setY c y, .rel (.c c)]))) (hc : f.cn[c]? = some nc) :
    ∃ nc', s.cn[c]? = some nc' ∧ nc'.y = ρ y := by
  obtain ⟨nc', hc'⟩ := cn_get H hc
  have := H.cown c nc nc' hc hc' w _ hw (by simp [holds])
  simp only [cRel] at this
  refine ⟨nc', hc', ?_⟩
  rw [this]
  simp [actsC, mapC, actC]

end

theorem dpPart_hasDp (lr : S → A → ℝ) : HasDp (dpPart lr) id id lr where
  initD _ _ _ _ := rfl
  initC _ _ _ _ := rfl
  visitD _ _ := rfl
  visitC _ := rfl
  backupD v _ args := rfl
  backupC s a y kids args := rfl

/-- The obligations of the local invariant of DENTS, except that the values are numbers. -/
theorem dents_data {J : FSt S A ℝ DX DY → Prop} (hp : PriorTotal cfg.toCfg env)
    (hs : 0 < cfg.priorWeight → ∃ f, cfg.prior = some f) (he : 0 < cfg.epsilon)
    (hD : ∀ (f : FSt S A ℝ DX DY) (w d : Nat) (nd : DNode S A ℝ DX) x next rels, J f → f.crashed = none →
      f.ws[w]? = some (.post next (rels ++ [.setX d x, .rel (.d d)])) → f.dn[d]? = some nd → ValD cfg x)
    (hC : ∀ (f : FSt S A ℝ DX DY) (w c : Nat) (nc : CNode S A ℝ DY) y next rels, J f → f.crashed = none →
      f.ws[w]? = some (.post next (rels ++ [.setY c y, .rel (.c c)])) → f.cn[c]? = some nc → ValC cfg y) :
    DataInv env m (dents eps cfg env m lr) (dentsCode cfg lr) J (fun x => ValD cfg x ∧ EntOkD x) (fun y => ValC cfg y ∧ EntOkC y) where
  initD s d t := by
    refine ⟨?_, (dents_local m eps hp hs he lr).initD s d t⟩
    cases hu : cfg.useDp
    · exact ⟨_, by simp only [estimate, hu]; rfl⟩
    · exact ⟨_, by simp only [estimate, hu]; rfl⟩
  initC nd a := by
    refine ⟨?_, 0, rfl⟩
    cases hu : cfg.useDp
    · exact ⟨_, by simp only [estimate, hu]; rfl⟩
    · exact ⟨_, by simp only [estimate, hu]; rfl⟩
  visitD b x h := by
    refine ⟨?_, h.2⟩
    obtain ⟨r, hr⟩ := h.1
    exact ⟨r, by cases b <;> exact hr⟩
  visitC y h := h
  resD f w d nd snaps ctx args next rels hj hcr hw hd hP hsn hrel := by
    refine ⟨hD f w d nd _ next rels hj hcr hw hd, ?_⟩
    have hr : ∀ (i : Nat), ∀ k ∈ round snaps i, ValC cfg k.2.2 ∧ EntOkC k.2.2 := by
      intro i k hk
      unfold round at hk
      cases hi : snaps[i]? with
      | none => simp [hi] at hk
      | some l => simp [hi] at hk; exact hsn l (List.mem_of_getElem? hi) k hk
    show EntOkD (DX.mk _ _ _ (entD _ _ _ _))
    refine entD_total _ ?_ ?_
    · obtain ⟨Q, hQ⟩ := dentsQ_total (cfg := cfg) hp (v := View.at (ownView env m nd []) snaps 0) rfl (fun k hk => hr 0 k hk)
      refine actionDistr_total (v := ownView env m nd []) (Q := Q) hQ ?_ (fun _ => epsilonAt_pos he _)
      intro h
      obtain ⟨g, hg⟩ := hs h
      exact ⟨g, hg, fun a ha => hp g hg nd.state a ha⟩
    · intro p hp
      obtain ⟨k, hk, rfl⟩ := List.mem_map.1 hp
      exact (hr 1 k hk).2
  resC f w c nc snaps args next rels hj hcr hw hc hQ hsn hrel := by
    refine ⟨hC f w c nc _ next rels hj hcr hw hc, ?_⟩
    obtain ⟨l, hl⟩ := finiteEntD_spec ((round snaps 0).map fun k => k.2.ent) (by
      intro p hp
      obtain ⟨k, hk, rfl⟩ := List.mem_map.1 hp
      unfold round at hk
      cases hi : snaps[0]? with
      | none => simp [hi] at hk
      | some l => simp [hi] at hk; exact (hsn l (List.mem_of_getElem? hi) k hk).2)
    show ∃ r, (entC _ _).sub = some r
    simp only [entC, hl]
    exact ⟨_, rfl⟩

/-- All DENTS data are numbers in every state that can be reached at the level of locks. -/
theorem dents_data_reach (G : GoodCfg cfg.toCfg env) (he : 0 < cfg.epsilon) (hm : m.useTable = true → m.numMutexes ≤ 1) (htb : Leftover tb)
    {f : FSt S A ℝ DX DY} {h : List (Event S A ℝ)}
    (hr : FReachable env m hash (dents eps cfg env m lr) (dentsCode cfg lr) k s0 dp tm tb f h) (hcr : f.crashed = none) :
    AllData (fun x => ValD cfg x ∧ EntOkD x) (fun y => ValC cfg y ∧ EntOkC y) f := by
  cases hu : cfg.useDp with
  | false =>
    refine data_reach (J := fun _ _ => True) (dents_data G.total G.some he ?_ ?_) trivial (fun _ _ _ _ _ _ _ _ => trivial) hr hcr
    · intro f w d nd x next rels _ _ _ _
      exact ⟨_, by simp only [estimate, hu]; rfl⟩
    · intro f w d nd x next rels _ _ _ _
      exact ⟨_, by simp only [estimate, hu]; rfl⟩
  | true =>
    have hS := dents_dp eps cfg env m lr hu
    refine data_reach (J := Main env m (dentsCode cfg lr) (dents eps cfg env m lr) (dpPart lr) DX.dp DY.dp 2 1 k s0 dp tm tb)
      (dents_data G.total G.some he ?_ ?_) (main_init hS) (fun f h w e f' P hc E => main_step hS hm (dpPart_valid lr) htb P hc E) hr hcr
    · rintro f w d nd x next rels ⟨h, M⟩ hcr hw hd
      obtain ⟨I, s, h', hr', H, -⟩ := M.alive hcr
      obtain ⟨nd', hd', hx⟩ := rel_setX H hw hd
      obtain ⟨_, _, D⟩ := dp_reach (dpPart_valid lr) (dpPart_hasDp lr) htb hr'
      obtain ⟨r, hr⟩ := (D.d d nd' hd').2
      exact ⟨r, by simp only [estimate, hu, if_true]; rw [← hx]; exact hr⟩
    · rintro f w c nc y next rels ⟨h, M⟩ hcr hw hc
      obtain ⟨I, s, h', hr', H, -⟩ := M.alive hcr
      obtain ⟨nc', hc', hy⟩ := rel_setY H hw hc
      obtain ⟨_, _, D⟩ := dp_reach (dpPart_valid lr) (dpPart_hasDp lr) htb hr'
      obtain ⟨r, hr⟩ := (D.c c nc' hc').2
      exact ⟨r, by simp only [estimate, hu, if_true]; rw [← hy]; exact hr⟩

/-- What a worker knows that has read the children of the node it is selecting at. -/
theorem sel_visited {R X Y X' Y' : Type} [AddMonoid R] {env : Env S A R} {m : Manager S R} {code : Code S A R X Y} {alg : Alg S A R X Y}
    {alg' : Alg S A R X' Y'} {π : X → X'} {ρ : Y → Y'} {jD jC : Nat} {f : FSt S A R X Y} {h : List (Event S A R)}
    (hS : Simulates alg code alg' π ρ jD jC) (hm : m.useTable = true → m.numMutexes ≤ 1) (hv : alg'.Valid) (htb : Leftover tb)
    (hr : FReachable env m hash alg code k s0 dp tm tb f h) (hcr : f.crashed = none) {w cur : Nat} {path rs new snaps held acc nd}
    (hw : f.ws[w]? = some (.readD (.sel cur path rs new) snaps held acc [])) (hd : f.dn[cur]? = some nd) :
    0 < nd.visits ∧ isLeaf env m nd = false := by
  obtain ⟨I, s, h', hr', H, -⟩ := (main_reach hS hm hv htb hr).alive hcr
  obtain ⟨nd', hd'⟩ := dn_get H hd
  have hrel := H.down cur nd nd' hd hd' w _ hw (by simp [holds, lkOf])
  simp only [dRel, dBlk, if_true] at hrel
  obtain ⟨nd0, rfl, rfl, hl, hmc⟩ := hrel
  exact ⟨Nat.succ_pos _, hl⟩

theorem dents_fselects (G : GoodCfg cfg.toCfg env) (he : 0 < cfg.epsilon) (hl : env.Live) (hlen : ∀ s, (env.actions s).length < 10 ^ 16)
    (heps : 0 ≤ eps) (hm : m.useTable = true → m.numMutexes ≤ 1) (htb : Leftover tb) :
    FSelects env m hash (dents eps cfg env m lr) (dentsCode cfg lr) k s0 dp tm tb := by
  intro f h w cur path rs new snaps held acc nd hr hcr hw hd
  have L := dents_data_reach G he hm htb hr hcr
  have hvis : 0 < nd.visits ∧ isLeaf env m nd = false := by
    cases hu : cfg.useDp with
    | true => exact sel_visited (dents_dp eps cfg env m lr hu) hm (dpPart_valid lr) htb hr hcr hw hd
    | false => exact sel_visited (dents_emp eps cfg env m lr hu) hm empPart_valid htb hr hcr hw hd
  have hne : env.actions nd.state ≠ [] := by
    refine hl.acts _ ?_
    have := hvis.2
    simp [isLeaf] at this
    exact this.1
  obtain ⟨Q, hQ⟩ := dentsQ_total (v := ownView env m nd acc) G.total rfl (fun k hk => (L.w w _ hw).2 k hk)
  rcases c36_selects_valid_action hQ hvis.1 hne (goodCfg_wellFormed G rfl) heps (iter := id) (fun l => List.Perm.refl l) (le_refl (0 : ℝ)) with ⟨a, _, h2⟩ | ⟨_, h2⟩
  · exact ⟨a, selectable_of h2⟩
  · exact absurd h2 (not_le.2 (pos_of_len (hlen _)))

end Verif.LockLevel
