import Verif.Spec.FpTentsTree
import Verif.Proofs.TentsStored
import Verif.Proofs.FpTents
import Verif.Proofs.FpSoftTree

/-! # Invariants of TENTS searches with doubles (C96) -/

set_option linter.unusedSectionVars false
set_option linter.unusedSimpArgs false

namespace Verif.Fp

open Verif.Search Verif.Backups
open Verif.Tents (TXV TErr MapsHold fillMaps updateMaps atAll put storedOf storedOf_ok fillMaps_hold updateMaps_hold atAll_eq find?_put_self find?_put_ne)
open Verif.Ments (softWeight)

variable {S A X : Type} [DecidableEq S] [DecidableEq A]

/-- The value depends on the player and the data of the child only. -/
theorem qOverTemp_congr {X' : Type} {cfg : MentsCfg} {v : View S A X SoftF} {v' : View S A X' SoftF} {a : A} (h2 : v'.opp = v.opp)
    (h3 : (find? a v'.kids).map Prod.snd = (find? a v.kids).map Prod.snd) : qOverTemp cfg v' a = qOverTemp cfg v a := by
  have : softQ cfg id v' a = softQ cfg id v a := by
    unfold softQ
    cases h4 : find? a v.kids with
    | none =>
      rw [h4] at h3
      have : find? a v'.kids = none := by simpa using h3
      rw [this, h2]
    | some p =>
      obtain ⟨n, y⟩ := p
      rw [h4] at h3
      simp only [Option.map_some] at h3
      rw [Option.map_eq_some_iff] at h3
      obtain ⟨⟨n', y'⟩, h5, h6⟩ := h3
      dsimp only at h6
      subst h6
      rw [h5, h2]
  unfold qOverTemp
  rw [this]

theorem spmaxVals_eq (sq : ℚ → ℚ) {K : Type} (desc : List (ℚ × K)) : spmaxVals sq ((sparseSet desc).map Prod.fst) = spmax sq desc := by
  unfold spmaxVals spmax
  simp only [List.foldl_map, List.length_map]

/-- With sound maps, `spmax` finds all the values. -/
theorem spmaxMaps_eq (sq : ℚ → ℚ) {acts : List A} {z : A → ℚ} {t : TXF A} (H : MapsHold acts z t.byVal t.byAct) (hnd : acts.Nodup) :
    spmaxMaps sq t = .ok (spmax sq t.byVal.reverse) := by
  have hm : ∀ p ∈ sparseSet t.byVal.reverse, p.2 ∈ acts ∧ z p.2 = p.1 := by
    intro p hp
    have h1 : p ∈ t.byVal := List.mem_reverse.1 (sparse_sub.subset hp)
    obtain ⟨a, ha, rfl⟩ := List.mem_map.1 (H.val.mem_iff.1 h1)
    exact ⟨ha, rfl⟩
  unfold spmaxMaps
  rw [atAll_eq H hnd _ (by
    intro a ha
    obtain ⟨p, hp, rfl⟩ := List.mem_map.1 ha
    exact (hm p hp).1)]
  dsimp only
  rw [List.map_map, ← spmaxVals_eq]
  congr 2
  exact List.map_congr_left fun p hp => (hm p hp).2

/-- A TENTS decision node is sound: its maps hold one value per action. -/
def TentsOkF (acts : List A) (x : Except TErr (TXF A)) : Prop := ∃ t z, x = .ok t ∧ MapsHold acts z t.byVal t.byAct

theorem tentsFBackupD_spec {sq : ℚ → ℚ} {cfg : MentsCfg} {v : View S A (Except TErr (TXF A)) SoftF} {ctx : Ctx A ℚ} {t : TXF A} {z : A → ℚ} {a : A} (hx : v.x = .ok t)
    (H : MapsHold v.actions z t.byVal t.byAct) (hnd : v.actions.Nodup) (ha : a ∈ v.actions) (hf : find? v.depth ctx.acts = some a) :
    ∃ t', tentsFBackupD sq cfg v ctx = .ok t' ∧ MapsHold v.actions (Function.update z a (qOverTemp cfg v a)) t'.byVal t'.byAct ∧
      t'.soft = { n := t.soft.n + 1, val := fmul (fmul (oppSign v.opp) cfg.temp) (spmax sq t'.byVal.reverse) } := by
  obtain ⟨t', h1, h2, h3⟩ := updateMaps_hold H hnd ha (qOverTemp cfg v a)
  unfold tentsFBackupD
  rw [hx]
  dsimp only
  rw [hf]
  dsimp only
  rw [h1]
  dsimp only
  rw [spmaxMaps_eq sq h3 hnd]
  exact ⟨_, rfl, h3, rfl⟩

section
variable {env : Env S A ℚ} {m : Manager S ℚ} {alg : Alg S A ℚ (Except TErr (TXF A)) SoftF} {sq : ℚ → ℚ} {cfg : MentsCfg} {lr : S → A → ℚ}
  {k : Nat} {s0 : S} {dp tm : Int} {tb : List ((Int × S) × Option Nat)} {st st' : St S A ℚ (Except TErr (TXF A)) SoftF} {h : List (Event S A ℚ)}

theorem init_holds (hnd : ∀ s, (env.actions s).Nodup) (cfg : MentsCfg) (s : S) (dep tim : Int) (x : ℚ) :
    MapsHold (env.actions s) (qOverTemp cfg (bareView env m s dep tim)) (tentsFInitD cfg env m s dep tim x).byVal (tentsFInitD cfg env m s dep tim x).byAct := by
  have := fillMaps_hold (qOverTemp cfg (bareView env m s dep tim)) (env.actions s) [] ([], []) (by simpa using hnd s) ⟨by simp, by simp, by simp⟩
  rw [List.nil_append] at this
  exact this

theorem tentsF_keeps (H : HasFpTents alg env m sq cfg lr) : CtxKeeps alg (fun ctx k => find? k ctx.acts) (fun _ _ a => a) where
  hit v ctx a _ := by rw [H.selCtx]; exact find?_put_self _ _ _
  miss v ctx a k _ hk := by rw [H.selCtx]; exact find?_put_ne hk _ _

theorem tentsF_local (H : HasFpTents alg env m sq cfg lr) (hnd : ∀ s, (env.actions s).Nodup) :
    LocalInvG env m alg (fun _ => True) (fun _ => True) (fun v ctx => ∃ a ∈ v.actions, find? v.depth ctx.acts = some a)
      (fun s _ _ x => TentsOkF (env.actions s) x) (fun _ _ _ _ _ => True) where
  initD s d t := by
    rw [H.initD]
    exact ⟨_, _, rfl, init_holds hnd cfg s d t _⟩
  initC s a d t _ := trivial
  visitD b s d t x h := by
    obtain ⟨T, z, rfl, h2⟩ := h
    rw [H.visitD]
    exact ⟨{ T with soft := softFVisit b T.soft }, z, rfl, h2⟩
  visitC s a d t y h := trivial
  backupD v ctx args h1 h2 h3 h4 h5 _ _ hX h6 h7 := by
    obtain ⟨a, ha, hf⟩ := hX
    obtain ⟨T, z, hx, MH⟩ := h6
    rw [← h1] at MH
    obtain ⟨t', g1, g2, _⟩ := tentsFBackupD_spec (sq := sq) (cfg := cfg) hx MH (by rw [h1]; exact hnd _) ha hf
    rw [h1] at g2
    rw [H.backupD]
    exact ⟨t', _, g1, g2⟩
  backupC s a d t y kids args _ _ h1 h2 := trivial

/-- A node that is about to be backed up finds the action its trial selected there. -/
theorem tentsF_hasAction (H : HasFpTents alg env m sq cfg lr) (hv : alg.Valid) (htb : Leftover tb) (hr : Reachable env m alg k s0 dp tm tb st h) {w d : Nat}
    {nodes : List (Nat × Nat)} {before after : List ℚ} {ret tot : ℚ} (hw : st.ws[w]? = some (.backD d nodes before after ret tot))
    {nd : DNode S A ℚ (Except TErr (TXF A))} (hd : st.dn[d]? = some nd) :
    ∃ a ∈ env.actions nd.state, find? nd.depth (st.ctxOf w).acts = some a := by
  obtain ⟨I, C⟩ := reach_ctx hv (tentsF_keeps H) htb hr
  obtain ⟨a, c, x, h1, h2, h3⟩ := ctx_backD I C hw hd
  obtain ⟨e1, e0, g1, g2, st0, nd0, _, _, rfl⟩ := h3
  obtain ⟨nd', nc, f1, _, _, _, _, _, _, f2⟩ := childC_facts I.tree h1
  rw [hd] at f1
  obtain rfl := Option.some.inj f1
  exact ⟨_, f2, h2⟩

/-- All nodes are sound in every reachable state. -/
theorem tentsF_reach (H : HasFpTents alg env m sq cfg lr) (hv : alg.Valid) (hnd : ∀ s, (env.actions s).Nodup) (htb : Leftover tb)
    (hr : Reachable env m alg k s0 dp tm tb st h) (d : Nat) (nd : DNode S A ℚ (Except TErr (TXF A))) (hd : st.dn[d]? = some nd) :
    TentsOkF (env.actions nd.state) nd.x := by
  obtain ⟨_, L⟩ := local_reach_given (tentsF_local H hnd) hv htb
    (fun st h hr => ⟨fun _ _ _ => trivial, fun _ _ _ => trivial, fun w d nodes before after ret tot nd hw hd => tentsF_hasAction H hv htb hr hw hd⟩) hr
  exact L.d d nd hd

/-- TENTS nodes store the rounded Q-values over the temperature. -/
theorem tentsF_stores (H : HasFpTents alg env m sq cfg lr) (hv : alg.Valid) (hnd : ∀ s, (env.actions s).Nodup) (htb : Leftover tb) :
    StoresValues env m alg k s0 dp tm tb storedOf fun v a => some (qOverTemp cfg v a) where
  congr h1 h2 h3 := by rw [qOverTemp_congr h2 h3]
  init st s dep tim a ha := by
    show storedOf (alg.initD s dep tim _) a = _
    rw [H.initD, storedOf_ok, (init_holds hnd cfg s dep tim _).find (hnd s) ha]
    congr 1
  visitC := H.visitC
  visit b x a := by
    rw [H.visitD]
    cases x <;> rfl
  backup := by
    intro st h hr w d nd b args hd hb hf a ha
    obtain ⟨T, z, hx, MH⟩ := tentsF_reach H hv hnd htb hr d nd hd
    obtain ⟨t', u1, u2, _⟩ := tentsFBackupD_spec (sq := sq) (cfg := cfg) (v := viewOf env m st nd) (ctx := st.ctxOf w) hx MH (hnd _) hb hf
    rw [H.backupD, u1, storedOf_ok, u2.find (hnd _) ha, hx, storedOf_ok, MH.find (hnd _) ha]
    by_cases hab : a = b
    · subst hab
      rw [if_pos rfl, Function.update_self]
    · rw [if_neg hab, Function.update_of_ne hab]

/-- In every reachable state, the stored value of an action without outstanding backup is its current value over the temperature, rounded. -/
theorem storedF_reach (H : HasFpTents alg env m sq cfg lr) (hv : alg.Valid) (hnd : ∀ s, (env.actions s).Nodup) (htb : Leftover tb)
    (hr : Reachable env m alg k s0 dp tm tb st h) {d : Nat} {nd : DNode S A ℚ (Except TErr (TXF A))} {a : A} (hd : st.dn[d]? = some nd) (ha : a ∈ env.actions nd.state)
    (hS : Settled st h d a) {t : TXF A} {z : A → ℚ} (hx : nd.x = .ok t) (MH : MapsHold (env.actions nd.state) z t.byVal t.byAct) :
    z a = qOverTemp cfg (viewOf env m st nd) a := by
  have := values_reach (tentsF_stores H hv hnd htb) hv (tentsF_keeps H) htb hr d nd a hd ha hS
  rw [hx, storedOf_ok, MH.find (hnd _) ha] at this
  exact Option.some.inj this

/-- What is stored in a node: a count of the backups (and of the trials that ended in it, if it is a leaf), the heuristic value until the first backup, and then the value
computed from the current maps. -/
def TentsValF (sq : ℚ → ℚ) (cfg : MentsCfg) (env : Env S A ℚ) (m : Manager S ℚ) (st : St S A ℚ (Except TErr (TXF A)) SoftF) (h : List (Event S A ℚ)) : Prop :=
  ∀ (d : Nat) (nd : DNode S A ℚ (Except TErr (TXF A))), st.dn[d]? = some nd → ∃ t, nd.x = .ok t ∧
    t.soft.n = (returnsD d h).length + (if isLeaf env m nd then h.countP (Event.endAt d) else 0) ∧
    (returnsD d h = [] → t.soft.val = nd.heur) ∧
    (returnsD d h ≠ [] → t.soft.val = fmul (fmul (oppSign (isOpponent m nd.time)) cfg.temp) (spmax sq t.byVal.reverse))

theorem tentsValF_eff (H : HasFpTents alg env m sq cfg lr) (hv : alg.Valid) (hnd : ∀ s, (env.actions s).Nodup) (htb : Leftover tb)
    (hr : Reachable env m alg k s0 dp tm tb st h) {w : Nat} {e : Event S A ℚ} (T : Touch st h)
    (V : TentsValF sq cfg env m st h) (E : Eff env m alg st w e st') : TentsValF sq cfg env m st' (e :: h) := by
  intro d nd' hd'
  rcases dn_chg E hd' with ⟨nd, hd, hchg⟩ | ⟨rfl, ht, s, dep, tim, rfl⟩
  · obtain ⟨t, h0, h1, h2, h3⟩ := V d nd hd
    have hvis : ∀ b, alg.visitD b nd.x = .ok { t with soft := softFVisit b t.soft } := by
      intro b
      rw [H.visitD, h0]
      rfl
    cases hchg with
    | same he => rw [returnsD_cons d e h he, endAt_cons he]; exact ⟨t, h0, h1, h2, h3⟩
    | selOld hl ha hf =>
      have hl' := hl
      simp only [isLeaf] at hl' h1 ⊢
      simp only [returnsD, List.filterMap_cons, hl', if_false, Bool.false_eq_true] at h1 h2 h3 ⊢
      exact ⟨t, hvis false, h1, h2, h3⟩
    | selNew hl ha hf =>
      have hl' := hl
      simp only [isLeaf] at hl' h1 ⊢
      simp only [returnsD, List.filterMap_cons, hl', if_false, Bool.false_eq_true] at h1 h2 h3 ⊢
      exact ⟨t, hvis false, h1, h2, h3⟩
    | ended =>
      have hi : isLeaf env m { nd with visits := nd.visits + 1, x := alg.visitD (isLeaf env m nd) nd.x } = isLeaf env m nd := rfl
      rw [returnsD_other (by simp), hi]
      refine ⟨_, hvis (isLeaf env m nd), ?_, ?_, ?_⟩
      · simp only [softFVisit, List.countP_cons, Event.endAt, beq_self_eq_true, if_true]
        cases hl : isLeaf env m nd <;> simp only [hl, if_true, if_false, Bool.false_eq_true] at h1 ⊢
        · exact h1
        · omega
      · intro hx
        have := h2 hx
        simp only [softFVisit]
        split <;> exact this
      · intro hx
        have := h3 hx
        simp only [softFVisit]
        split <;> exact this
    | @backed w' args =>
      obtain ⟨hww, nodes, nd0, hw, _⟩ := eff_backedD E
      subst hww
      obtain ⟨a, k2, k3⟩ := tentsF_hasAction H hv htb hr hw hd
      obtain ⟨T', z, hx, MH⟩ := tentsF_reach H hv hnd htb hr d nd hd
      rw [h0] at hx
      obtain rfl := Except.ok.inj hx
      obtain ⟨t', u1, u2, u4⟩ := tentsFBackupD_spec (sq := sq) (cfg := cfg) (v := viewOf env m st nd) (ctx := st.ctxOf w') h0 MH (hnd _) k2 k3
      have hi : isLeaf env m { nd with x := alg.backupD (viewOf env m st nd) (st.ctxOf w') args } = isLeaf env m nd := rfl
      have hret : returnsD d (Event.backedD w' d args :: h) = args.retAfter :: returnsD d h := by simp [returnsD]
      rw [hi, hret, List.countP_cons]
      refine ⟨t', by rw [← u1]; exact H.backupD _ _ _, ?_, by simp, fun _ => by rw [u4]; rfl⟩
      rw [u4]
      simp only [List.length_cons, Event.endAt, Bool.false_eq_true, if_false, Nat.add_zero]
      rw [h1]
      omega
  · rw [returnsD_cons _ e h ht, returnsD_nil T.freshD, endAt_cons ht, endAt_zero T.freshD]
    refine ⟨_, H.initD _ _ _ _, by simp [tentsFInitD, softFInitD], fun _ => rfl, fun h => absurd rfl h⟩

theorem tentsValF_reach (H : HasFpTents alg env m sq cfg lr) (hv : alg.Valid) (hnd : ∀ s, (env.actions s).Nodup) (htb : Leftover tb)
    (hr : Reachable env m alg k s0 dp tm tb st h) : TentsValF sq cfg env m st h := by
  have := reach_induct (alg := alg) (fun s h => Touch s h ∧ TentsValF sq cfg env m s h) ?_ ?_ hr
  · exact this.2
  · refine ⟨⟨by simp, by simp⟩, ?_⟩
    intro d nd hd
    rcases d with _ | d
    · simp [init] at hd
      subst hd
      exact ⟨_, H.initD _ _ _ _, by simp [tentsFInitD, softFInitD, returnsD], fun _ => rfl, fun h => absurd rfl h⟩
    · simp [init] at hd
  · intro st h w e st' hr ih _ E
    exact ⟨touch_eff ih.1 E, tentsValF_eff H hv hnd htb hr ih.1 ih.2 E⟩

theorem tentsF_weight (H : HasFpTents alg env m sq cfg lr) (hv : alg.Valid) (hnd : ∀ s, (env.actions s).Nodup) (htb : Leftover tb)
    (hr : Reachable env m alg k s0 dp tm tb st h) (hq : Quiescent st) (d : Nat) (nd : DNode S A ℚ (Except TErr (TXF A))) (hd : st.dn[d]? = some nd) :
    (softOfF nd.x).n = softWeight env m st h d := by
  obtain ⟨t, h0, h1, _⟩ := tentsValF_reach H hv hnd htb hr d nd hd
  unfold softWeight
  rw [h0]
  simp only [softOfF]
  rw [h1, returns_through hr hq, hd]
  have : trialsEndedAt d h = h.countP (Event.endAt d) := by
    unfold trialsEndedAt
    congr 1
  rw [this]

theorem tentsF_visit_false (H : HasFpTents alg env m sq cfg lr) (x : Except TErr (TXF A)) : alg.visitD false x = x := by
  rw [H.visitD]
  cases x <;> rfl

end

end Verif.Fp
