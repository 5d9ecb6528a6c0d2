import Verif.Props.SoftTree

/-!
# C120: the value of an action that is being tried for the first time
-/

namespace Verif.Ments

open Verif.Search Verif.Backups

set_option linter.unusedSectionVars false

section
variable {S A X Y : Type} [DecidableEq S] [DecidableEq A]
  {env : Env S A ℝ} {m : Manager S ℝ} {alg : Alg S A ℝ X Y} {px : X → Soft} {py : Y → Soft} {lr : S → A → ℝ} {cfg : Cfg S A}
  {k : Nat} {s0 : S} {dp tm : Int} {tb : List ((Int × S) × Option Nat)} {st st' : St S A ℝ X Y} {h : List (Event S A ℝ)}

def FreshC (cfg : Cfg S A) (py : Y → Soft) (st : St S A ℝ X Y) (h : List (Event S A ℝ)) : Prop :=
  ∀ (c : Nat) (nc : CNode S A ℝ Y), st.cn[c]? = some nc → returnsC c h = [] → (py nc.y).val = some cfg.defaultQ

theorem freshC_eff (H : HasSoft alg px py cfg lr) {w : Nat} {e : Event S A ℝ} (D : FreshC cfg py st h) (E : Eff env m alg st w e st') :
    FreshC cfg py st' (e :: h) := by
  intro c nc' hc' h0
  rcases cn_chg E hc' with ⟨nc, hc, hchg⟩ | ⟨rfl, ht, nd, a, rfl⟩
  · cases hchg with
    | same he => rw [returnsC_cons c e h he] at h0; exact D c _ hc h0
    | stepped ho hk =>
      rw [returnsC_keep (by simp)] at h0
      simp only [H.visitC]
      exact D c _ hc h0
    | @backed w' args => simp [returnsC] at h0
  · simp [newC, H.initC, softInitC]

theorem freshC_reach (H : HasSoft alg px py cfg lr) (hr : Reachable env m alg k s0 dp tm tb st h) : FreshC cfg py st h := by
  obtain ⟨ls, hx⟩ := hr
  refine exec_induct (fun s h => FreshC cfg py s h) (fun _ _ _ _ _ hi _ E => freshC_eff H hi E) ?_ hx
  intro c nc hc
  simp [init] at hc

/-- C120, what happens.  While the first trials through an action are running and none of them has been backed up, everyone who looks at the node sees the default value for
that action (negated for the opponent), with a prior or without. -/
theorem c120_in_flight (hv : alg.Valid) (H : HasSoft alg px py cfg lr) (htb : Leftover tb) (hr : Reachable env m alg k s0 dp tm tb st h)
    {d c : Nat} {a : A} {nd : DNode S A ℝ X} (hd : st.dn[d]? = some nd) (hc : childC st d a = some c) (h0 : ∀ w args, Event.backedC w c args ∉ h) :
    mentsQ cfg py (viewOf env m st nd) a = .ok (cfg.defaultQ * oppCoeff (isOpponent m nd.time)) := by
  have T := (reach_inv hv htb hr).tree
  obtain ⟨nd2, nc, k1, k2, k3, _⟩ := childC_facts T hc
  rw [hd] at k1
  obtain rfl := Option.some.inj k1
  have hret : returnsC c h = [] := by
    unfold returnsC
    rw [List.filterMap_eq_nil_iff]
    intro e he
    cases e <;> simp
    rintro rfl
    exact h0 _ _ he
  have hval := freshC_reach H hr c nc k2 hret
  have hk : find? a nd.kids = some c := by
    unfold childC at hc
    rw [hd] at hc
    exact hc
  have hf : find? a (kidsY st nd) = some (nc.visits, nc.y) := by
    rw [find?_kidsY a (fun p hp => ?_), hk]
    · simp [k2]
    · obtain ⟨_, nc', _, g, _⟩ := childC_facts T (show childC st d p.1 = some p.2 from childC_of_mem T hd hp)
      exact ⟨nc', g⟩
  unfold mentsQ
  simp only [viewOf, hf, hval]

/-- C120, the part that holds.  Without a prior policy that is the value the action had before it was tried: other workers do not notice that it is being tried. -/
theorem c120_no_prior_partial (hv : alg.Valid) (H : HasSoft alg px py cfg lr) (htb : Leftover tb) (hr : Reachable env m alg k s0 dp tm tb st h) (hp : cfg.prior = none)
    {d c : Nat} {a : A} {nd : DNode S A ℝ X} (hd : st.dn[d]? = some nd) (hc : childC st d a = some c) (h0 : ∀ w args, Event.backedC w c args ∉ h) :
    mentsQ cfg py (viewOf env m st nd) a = mentsQ cfg py { viewOf env m st nd with kids := [] } a := by
  rw [c120_in_flight hv H htb hr hd hc h0]
  simp [mentsQ, find?, untriedQ, hp, viewOf]

end

/-- Uniform prior policy for the two actions of the example. -/
noncomputable def flightCfg : Cfg Nat Nat := { gCfg with prior := some fun _ => [(0, 1 / 2), (1, 1 / 2)], shift := false, offset := 0, defaultQ := 0 }

/-- C120 is false with a prior policy.  Two actions of the same prior probability: as soon as one of them is selected for the first time, and before anything is known about it,
its value changes from `log (1/2)` to the default value 0. -/
theorem c120_prior_false : ∃ st h nd, Reachable gEnv gMgr (freeMents flightCfg fun s a => gEnv.reward s a (Det.next s a)) 2 0 0 0 [] st h ∧ st.dn[0]? = some nd ∧
    childC st 0 1 = some 0 ∧ (∀ w args, Event.backedC w 0 args ∉ h) ∧ mentsQ flightCfg id (viewOf gEnv gMgr st nd) 1 = .ok 0 ∧
    mentsQ flightCfg id (viewOf gEnv gMgr st nd) 0 = .ok (Real.log (1 / 2)) ∧
    mentsQ flightCfg id { viewOf gEnv gMgr st nd with kids := [] } 1 = .ok (Real.log (1 / 2)) := by
  have hq : ∀ (v : View Nat Nat Soft Soft), v.kids = [(1, 0, softInitC flightCfg)] →
      mentsQ flightCfg id v 1 = .ok 0 ∧ mentsQ flightCfg id v 0 = .ok (Real.log (1 / 2)) ∧
      mentsQ flightCfg id { v with kids := [] } 1 = .ok (Real.log (1 / 2)) := by
    intro v hk
    have hl : logWeight (1 / 2) = Real.log (1 / 2) := by
      unfold logWeight logMaxArg logMinArg
      rw [if_neg (by norm_num), if_pos (by norm_num)]
    have hz : nodeOffset flightCfg v.state = 0 := by simp [nodeOffset, flightCfg]
    have h1 : untriedQ flightCfg v 0 = .ok (Real.log (1 / 2)) := by
      have : untriedQ flightCfg v 0 = .ok (logWeight (1 / 2) + nodeOffset flightCfg v.state) := rfl
      rw [this, hl, hz, add_zero]
    have h2 : untriedQ flightCfg ({ v with kids := [] } : View Nat Nat Soft Soft) 1 = .ok (Real.log (1 / 2)) := by
      have : untriedQ flightCfg ({ v with kids := [] } : View Nat Nat Soft Soft) 1 = .ok (logWeight (1 / 2) + nodeOffset flightCfg v.state) := rfl
      rw [this, hl, hz, add_zero]
    refine ⟨?_, ?_, ?_⟩
    · simp [mentsQ, hk, find?, softInitC, flightCfg]
    · simp only [mentsQ, hk, find?]
      exact h1
    · simp only [mentsQ, find?]
      exact h2
  refine ⟨_, _, _, ⟨[(0, .go), (0, .act 1)], rfl⟩, rfl, rfl, ?_, hq _ rfl⟩
  intro w args he
  simp at he

/-- The hypotheses of C120 are met: after the first selection without a prior. -/
example : ∃ st h nd, Reachable gEnv gMgr (freeMents gCfg fun s a => gEnv.reward s a (Det.next s a)) 2 0 0 0 [] st h ∧ st.dn[0]? = some nd ∧
    childC st 0 1 = some 0 ∧ mentsQ gCfg id (viewOf gEnv gMgr st nd) 1 = mentsQ gCfg id { viewOf gEnv gMgr st nd with kids := [] } 1 := by
  refine ⟨_, _, _, ⟨[(0, .go), (0, .act 1)], rfl⟩, rfl, rfl, ?_⟩
  refine c120_no_prior_partial (px := id) (py := id) (alg := freeMents gCfg fun s a => gEnv.reward s a (Det.next s a))
    (lr := fun s a => gEnv.reward s a (Det.next s a)) (tb := []) ?_
    ⟨fun _ _ _ _ => rfl, fun _ _ _ _ => rfl, fun _ _ => rfl, fun _ => rfl, fun _ _ _ => rfl, fun _ _ _ _ _ => rfl⟩
    (by intro p hp; simp at hp) (k := 2) (s0 := 0) (dp := 0) (tm := 0) ⟨[(0, .go), (0, .act 1)], rfl⟩ rfl (d := 0) (c := 0) rfl rfl ?_
  · intro v _ a h
    simpa [freeMents] using h
  · intro w args he
    simp at he

end Verif.Ments
