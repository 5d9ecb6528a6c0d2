import Verif.Proofs.Ints
import Verif.Proofs.Flow
import Verif.Proofs.Converge
import Verif.Spec.Counters

/-! # What counters of backups count (C107) -/

namespace Verif.Search

set_option linter.unusedSimpArgs false
set_option linter.unusedSectionVars false

variable {S A R X Y : Type} [DecidableEq S] [DecidableEq A] [AddMonoid R]
variable {env : Env S A R} {m : Manager S R} {alg : Alg S A R X Y} {k : Nat} {s0 : S} {dp tm : Int}
  {tb : List ((Int × S) × Option Nat)} {st : St S A R X Y} {h : List (Event S A R)} {ok : X → Prop} {cd : X → Nat} {cc : Y → Nat} {lv : Bool} {d0 c0 : Nat}

theorem endAt_zero' {d : Nat} {h : List (Event S A R)} (hh : ∀ e ∈ h, e.touchesD d = false) : h.countP (Event.endAt d) = 0 := by
  rw [List.countP_eq_zero]
  intro e he ht
  have := hh e he
  cases e <;> simp [Event.touchesD, Event.endAt] at this ht
  exact this ht

theorem returnsD_zero' {d : Nat} {h : List (Event S A R)} (hh : ∀ e ∈ h, e.touchesD d = false) : returnsD d h = [] := by
  unfold returnsD
  rw [List.filterMap_eq_nil_iff]
  intro e he
  have := hh e he
  cases e <;> simp [Event.touchesD] at this ⊢
  assumption

theorem returnsC_zero' {c : Nat} {h : List (Event S A R)} (hh : ∀ e ∈ h, e.touchesC c = false) : returnsC c h = [] := by
  unfold returnsC
  rw [List.filterMap_eq_nil_iff]
  intro e he
  have := hh e he
  cases e <;> simp [Event.touchesC] at this ⊢
  assumption

theorem fresh_d {st : St S A R X Y} {h : List (Event S A R)} {e : Event S A R} (T : Touch st h) (ht : e.touchesD st.dn.length = false) :
    ∀ e' ∈ e :: h, e'.touchesD st.dn.length = false := by
  intro e' he'
  rcases List.mem_cons.1 he' with rfl | he'
  · exact ht
  · cases hb : e'.touchesD st.dn.length with
    | false => rfl
    | true => have := T.1 e' he' _ hb; omega

theorem fresh_c {st : St S A R X Y} {h : List (Event S A R)} {e : Event S A R} (T : Touch st h) (ht : e.touchesC st.cn.length = false) :
    ∀ e' ∈ e :: h, e'.touchesC st.cn.length = false := by
  intro e' he'
  rcases List.mem_cons.1 he' with rfl | he'
  · exact ht
  · cases hb : e'.touchesC st.cn.length with
    | false => rfl
    | true => have := T.2 e' he' _ hb; omega

structure CEq (env : Env S A R) (m : Manager S R) (ok : X → Prop) (cd : X → Nat) (cc : Y → Nat) (lv : Bool) (d0 c0 : Nat) (st : St S A R X Y) (h : List (Event S A R)) :
    Prop where
  d : ∀ (d : Nat) nd, st.dn[d]? = some nd → ok nd.x →
    cd nd.x = d0 + (returnsD d h).length + (if isLeaf env m nd && lv then h.countP (Event.endAt d) else 0)
  c : ∀ (c : Nat) nc, st.cn[c]? = some nc → cc nc.y = c0 + (returnsC c h).length

theorem ceq_eff (H : Counts alg ok cd cc lv d0 c0) {st' : St S A R X Y} {w : Nat} {e : Event S A R} (T : Touch st h) (D : CEq env m ok cd cc lv d0 c0 st h)
    (E : Eff env m alg st w e st') : CEq env m ok cd cc lv d0 c0 st' (e :: h) := by
  have T' := touch_eff T E
  constructor
  · intro d nd' hd' hok
    rcases dn_chg E hd' with ⟨nd, hd, hchg⟩ | ⟨rfl, ht, s, dep, tim, rfl⟩
    · cases hchg with
      | same he =>
        rw [returnsD_cons d e h he, endAt_cons' he]
        exact D.d d _ hd hok
      | selOld hl ha hf =>
        rw [returnsD_other' (by simp), List.countP_cons]
        obtain ⟨g1, g2⟩ := H.visitD _ nd.x hok
        have h1 := D.d d nd hd g1
        simp only [isLeaf] at hl h1 ⊢
        simp only [hl, Bool.false_and, Bool.false_eq_true, if_false] at g2 h1 ⊢
        omega
      | selNew hl ha hf =>
        rw [returnsD_other' (by simp), List.countP_cons]
        obtain ⟨g1, g2⟩ := H.visitD _ nd.x hok
        have h1 := D.d d nd hd g1
        simp only [isLeaf] at hl h1 ⊢
        simp only [hl, Bool.false_and, Bool.false_eq_true, if_false] at g2 h1 ⊢
        omega
      | ended =>
        rw [returnsD_other' (by simp)]
        simp only [List.countP_cons, Event.endAt, beq_self_eq_true, if_true]
        obtain ⟨g1, g2⟩ := H.visitD _ nd.x hok
        have h1 := D.d d nd hd g1
        have e1 : isLeaf env m { nd with visits := nd.visits + 1, x := alg.visitD (isLeaf env m nd) nd.x } = isLeaf env m nd := rfl
        rw [g2, h1, e1]
        cases hb : isLeaf env m nd && lv <;> simp <;> omega
      | @backed w' args =>
        have : returnsD d (Event.backedD w' d args :: h) = args.retAfter :: returnsD d h := by simp [returnsD]
        rw [this, List.countP_cons, List.length_cons]
        obtain ⟨g1, g2⟩ := H.backupD (viewOf env m st nd) (st.ctxOf w') args hok
        have h1 := D.d d nd hd g1
        have e1 : ∀ a b c e f, isLeaf env m ({ state := nd.state, depth := nd.depth, time := a, visits := b, heur := c, kids := e, x := f } : DNode S A R X) = isLeaf env m nd :=
          fun _ _ _ _ _ => rfl
        simp only [viewOf] at g2
        simp only [Event.endAt, Bool.false_eq_true, if_false, Nat.add_zero]
        rw [e1]
        simp only [viewOf]
        rw [g2, h1]
        omega
    · have := H.initD s dep tim (heurOf env m s) hok
      simp only [newD] at this ⊢
      rw [returnsD_zero' (fresh_d T ht), endAt_zero' (fresh_d T ht), this]
      simp
  · intro c nc' hc'
    rcases cn_chg E hc' with ⟨nc, hc, hchg⟩ | ⟨rfl, ht, nd, a, rfl⟩
    · have h1 := D.c c nc hc
      cases hchg with
      | same he => rw [returnsC_cons c e h he]; exact h1
      | stepped ho hk =>
        rw [returnsC_other' (by simp)]
        have := H.visitC nc.y
        dsimp only
        omega
      | @backed w' args =>
        have : returnsC c (Event.backedC w' c args :: h) = args.retAfter :: returnsC c h := by simp [returnsC]
        rw [this, List.length_cons]
        have h2 := H.backupC nc.state nc.action nc.y (kidsX st nc) args
        dsimp only
        omega
    · have := H.initC nd.state a nd.depth nd.time
      simp only [newC] at this ⊢
      rw [returnsC_zero' (fresh_c T ht), this]
      simp

theorem ceq_reach (H : Counts alg ok cd cc lv d0 c0) (hr : Reachable env m alg k s0 dp tm tb st h) : CEq env m ok cd cc lv d0 c0 st h := by
  obtain ⟨ls, hx⟩ := hr
  refine (exec_induct (fun s h => Touch s h ∧ CEq env m ok cd cc lv d0 c0 s h) (fun _ _ _ _ _ hp _ E => ⟨touch_eff hp.1 E, ceq_eff H hp.1 hp.2 E⟩)
    ⟨⟨by simp, by simp⟩, ?_, ?_⟩ hx).2
  · intro d nd hd hok
    rcases d with _ | d
    · simp [init] at hd
      subst hd
      have := H.initD s0 dp tm (heurOf env m s0) hok
      simp only [newD] at this ⊢
      simp [returnsD, this]
    · simp [init] at hd
  · intro c nc hc
    simp [init] at hc

/-! ## Pending backups -/

theorem path_onceD (T : Tree env m s0 dp tm st) {ss : List (Step S A R)} {e : Nat} (B : Base env m st ss e) : (ss.map Step.d).Nodup := by
  rw [List.nodup_iff_getElem?_ne_getElem?]
  intro i j hij hj heq
  rw [List.getElem?_map, List.getElem?_map] at heq
  rw [List.length_map] at hj
  rw [List.getElem?_eq_getElem hj, List.getElem?_eq_getElem (by omega)] at heq
  simp only [Option.map_some, Option.some.injEq] at heq
  obtain ⟨nd1, g1, g2⟩ := (base_depth T B).2 i ss[i] (List.getElem?_eq_getElem (by omega))
  obtain ⟨nd2, g3, g4⟩ := (base_depth T B).2 j ss[j] (List.getElem?_eq_getElem hj)
  rw [heq, g3] at g1
  simp at g1
  subst g1
  omega

theorem countP_pairsD (ss : List (Step S A R)) (d : Nat) : (pairs ss).countP (fun p => p.1 == d) = (ss.map Step.d).count d := by
  unfold pairs
  rw [List.countP_map, List.count, List.countP_map]
  rfl

theorem pendD_le (I : Inv env m s0 dp tm st h) {w : Nat} {p : Phase S A R} (hw : st.ws[w]? = some p) (d : Nat) :
    p.pendD d ≤ if p.busy then 1 else 0 := by
  have H := I.ws w p hw
  cases p with
  | idle => simp [Phase.pendD, Phase.busy]
  | sel cur path rs new =>
    obtain ⟨h1, rfl, _⟩ := H
    simp only [Phase.pendD, Phase.busy, if_true, countP_pairsD]
    exact List.nodup_iff_count_le_one.1 (path_onceD I.tree h1) d
  | samp cur a c' path rs new =>
    obtain ⟨h1, rfl, _⟩ := H
    simp only [Phase.pendD, Phase.busy, if_true, countP_pairsD]
    have h2 := List.nodup_iff_count_le_one.1 (path_onceD I.tree h1) d
    by_cases hc : cur = d
    · subst hc
      have : (List.map Step.d (stepsOf w h)).count cur = 0 := by
        rw [List.count_eq_zero]
        intro hm
        obtain ⟨s, hs, he⟩ := List.mem_map.1 hm
        obtain ⟨i, hi⟩ := List.mem_iff_getElem?.1 hs
        obtain ⟨nd, g1, g2⟩ := (base_depth I.tree h1).2 i s hi
        rw [he] at g1
        have := (base_depth I.tree h1).1 nd g1
        have := (List.getElem?_eq_some_iff.1 hi).1
        omega
      rw [this]
      simp
    · have : (cur == d) = false := by simpa using hc
      simpa [this] using h2
  | back nodes before after ret tot =>
    obtain ⟨e, hv, j, _, _, h1, _, rfl, _⟩ := H
    simp only [Phase.pendD, Phase.busy, if_true]
    refine ((List.take_sublist j _).countP_le).trans ?_
    rw [countP_pairsD]
    exact List.nodup_iff_count_le_one.1 (path_onceD I.tree h1) d
  | backD d' nodes before after ret tot =>
    obtain ⟨e, hv, j, s, h0, h0', _, h1, _, rfl, _⟩ := H
    simp only [Phase.pendD, Phase.busy, if_true]
    have h2 := path_onceD I.tree h1
    have h3 : (pairs (stepsOf w h)).take (j + 1) = (pairs (stepsOf w h)).take j ++ [(s.d, s.c)] := by
      have hj := (List.getElem?_eq_some_iff.1 h0)
      obtain ⟨hj, rfl⟩ := hj
      rw [List.take_succ_eq_append_getElem (by simpa [pairs] using hj)]
      simp [pairs]
    have h4 : ((pairs (stepsOf w h)).take (j + 1)).countP (fun p => p.1 == d) ≤ 1 := by
      refine ((List.take_sublist (j + 1) _).countP_le).trans ?_
      rw [countP_pairsD]
      exact List.nodup_iff_count_le_one.1 h2 d
    rw [h3, List.countP_append] at h4
    have h5 : s.d = d' := by first | exact h0' | exact h0'.1 | exact h0'.symm
    subst h5
    cases hb : (s.d == d) <;> simp [List.countP_cons, hb] at h4 ⊢ <;> omega

theorem sum_le_countP {α : Type} (f : α → Nat) (g : α → Bool) : ∀ (l : List α), (∀ a ∈ l, f a ≤ if g a then 1 else 0) → (l.map f).sum ≤ l.countP g
  | [], _ => by simp
  | a :: l, hl => by
    have h1 := sum_le_countP f g l fun b hb => hl b (List.mem_cons_of_mem _ hb)
    have h2 := hl a List.mem_cons_self
    rw [List.map_cons, List.sum_cons, List.countP_cons]
    omega

theorem pendD_sum (I : Inv env m s0 dp tm st h) (d : Nat) : (st.ws.map (Phase.pendD d)).sum ≤ st.ws.countP Phase.busy := by
  apply sum_le_countP
  intro p hp
  obtain ⟨w, hw⟩ := List.mem_iff_getElem?.1 hp
  exact pendD_le I hw d

theorem pendC_sum (I : Inv env m s0 dp tm st h) (c : Nat) : (st.ws.map (Phase.pendC c)).sum ≤ st.ws.countP Phase.busy := by
  apply sum_le_countP
  intro p hp
  obtain ⟨w, hw⟩ := List.mem_iff_getElem?.1 hp
  have := Verif.Uct.pendC_le I hw c
  cases p with
  | idle => simp [Phase.pendC, Phase.busy]
  | _ => simpa [Phase.busy] using this

/-! ## Mcts mode -/

/-- In mcts mode a trial that grows the tree by reaching a node ends there. -/
theorem grew_ends (hv : alg.Valid) (htb : Leftover tb) (hm : m.mctsMode = true) (hr : Reachable env m alg k s0 dp tm tb st h) :
    ∀ d, h.countP (Event.grewInto d) ≤ h.countP (Event.endAt d) + st.ws.countP (Phase.selNew m d) := by
  refine reach_induct (fun st h => ∀ d, h.countP (Event.grewInto d) ≤ h.countP (Event.endAt d) + st.ws.countP (Phase.selNew m d)) ?_ ?_ hr
  · intro d
    simp
  · intro st h w e st' hr ih _ E d
    have I := reach_inv hv htb hr
    have ih' := ih d
    have key : ∀ (p q : Phase S A R), st.ws[w]? = some p → st'.ws = st.ws.set w q →
        (Event.grewInto d e).toNat + (Phase.selNew m d p).toNat ≤ (Event.endAt d e).toNat + (Phase.selNew m d q).toNat →
        (e :: h).countP (Event.grewInto d) ≤ (e :: h).countP (Event.endAt d) + st'.ws.countP (Phase.selNew m d) := by
      intro p q hp hws hle
      have a1 := countP_set' (Phase.selNew m d) st.ws w p q hp
      rw [hws, List.countP_cons, List.countP_cons]
      cases hb : Event.grewInto d e <;> cases hb' : Event.endAt d e <;>
        simp only [hb, hb', Bool.toNat_false, Bool.toNat_true, if_true, Bool.false_eq_true, if_false] at hle ⊢ <;> omega
    cases E with
    | crash hc => simpa [Event.endAt, Event.grewInto] using ih'
    | began hw => exact key _ _ hw rfl (by simp [Event.endAt, Event.grewInto, Phase.selNew])
    | selOld hw hd' hl hm' ha hf =>
      refine key _ _ hw rfl ?_
      simp only [hm, Bool.true_and] at hm'
      simp [Event.endAt, Event.grewInto, Phase.selNew, hm']
    | selNew hw hd' hl hm' ha hf =>
      refine key _ _ hw rfl ?_
      simp only [hm, Bool.true_and] at hm'
      simp [Event.endAt, Event.grewInto, Phase.selNew, hm']
    | @ended cur path rs new nd hw hd' hl =>
      refine key _ _ hw rfl ?_
      simp only [Event.endAt, Event.grewInto, Phase.selNew]
      cases (cur == d) <;> cases new <;> simp [hm]
    | stepOld hw hc' hd' ho hf => exact key _ _ hw rfl (by simp [Event.endAt, Event.grewInto, Phase.selNew])
    | @stepNew cur a c path rs new nc nd o tb hw hc' hd' ho hf ht =>
      refine key _ _ hw rfl ?_
      cases hb : (st.dn.length == d) <;> simp [Event.endAt, Event.grewInto, Phase.selNew, hb, hm]
    | @stepHit cur a c path rs new nc nd o d' hw hc' hd' ho hf hu ht =>
      refine key _ _ hw rfl ?_
      cases hb : (d' == d) <;> simp [Event.endAt, Event.grewInto, Phase.selNew, hb, hm]
    | completed hw => exact key _ _ hw rfl (by simp [Event.endAt, Event.grewInto, Phase.selNew])
    | backedC hw hc => exact key _ _ hw rfl (by simp [Event.endAt, Event.grewInto, Phase.selNew])
    | backedD hw hd' => exact key _ _ hw rfl (by simp [Event.endAt, Event.grewInto, Phase.selNew])

/-- Every node but the root has been created by a step of a trial. -/
theorem grew_some (hr : Reachable env m alg k s0 dp tm tb st h) : ∀ d, d < st.dn.length → d ≠ st.root → 1 ≤ h.countP (Event.grewInto d) := by
  obtain ⟨ls, hx⟩ := hr
  refine exec_induct (fun st h => ∀ d, d < st.dn.length → d ≠ st.root → 1 ≤ h.countP (Event.grewInto d)) ?_ ?_ hx
  · intro st h w e st' ih _ E d hd hne
    have hmono : h.countP (Event.grewInto d) ≤ (e :: h).countP (Event.grewInto d) := by rw [List.countP_cons]; omega
    cases E with
    | @stepNew cur a c path rs new nc nd o tb hw hc' hd' ho hf ht =>
      by_cases hlt : d < st.dn.length
      · exact Nat.le_trans (ih d hlt hne) hmono
      · have : d = st.dn.length := by simp at hd; omega
        subst this
        rw [List.countP_cons]
        simp [Event.grewInto]
    | _ => exact Nat.le_trans (ih d (by simpa using hd) (by simpa using hne)) hmono
  · intro d hd hne
    simp [init] at hd hne
    omega

/-- Without mcts mode trials end at leaves. -/
theorem ends_leaf (hv : alg.Valid) (htb : Leftover tb) (hm : m.mctsMode = false) (hr : Reachable env m alg k s0 dp tm tb st h) :
    ∀ (d : Nat) nd, st.dn[d]? = some nd → isLeaf env m nd = false → h.countP (Event.endAt d) = 0 := by
  obtain ⟨ls, hx⟩ := hr
  refine (exec_induct (fun st h => Touch st h ∧ ∀ (d : Nat) nd, st.dn[d]? = some nd → isLeaf env m nd = false → h.countP (Event.endAt d) = 0) ?_
    ⟨⟨by simp, by simp⟩, by simp⟩ hx).2
  intro st h w e st' ⟨T, ih⟩ _ E
  refine ⟨touch_eff T E, ?_⟩
  intro d nd' hd' hl
  rcases dn_chg E hd' with ⟨nd, hd, hchg⟩ | ⟨rfl, ht, s, dep, tim, rfl⟩
  · have hl0 : isLeaf env m nd = false := by cases hchg <;> exact hl
    have h0 := ih d nd hd hl0
    by_cases he : Event.endAt d e = true
    · exfalso
      cases E with
      | @ended cur path rs new nd2 hw hd2 hl2 =>
        simp only [Event.endAt, beq_iff_eq] at he
        subst he
        rw [hd] at hd2
        simp at hd2
        subst hd2
        simp [hm, hl0] at hl2
      | _ => simp [Event.endAt] at he
    · rw [List.countP_cons]
      simp [he, h0]
  · exact endAt_zero' (fresh_d T ht)

end Verif.Search
