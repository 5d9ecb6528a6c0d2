import Verif.Proofs.Game
import Verif.Spec.SoftTree
import Verif.Props.Ments

/-! # Soft values when no trial is running -/

namespace Verif.Ments

open Verif.Search Verif.Backups

set_option linter.unusedSimpArgs false
set_option linter.unusedSectionVars false

variable {S A X Y : Type} [DecidableEq S] [DecidableEq A]
  {env : Env S A ℝ} {m : Manager S ℝ} {alg : Alg S A ℝ X Y} {px : X → Soft} {py : Y → Soft} {lr : S → A → ℝ} {cfg : Cfg S A}
  {k : Nat} {s0 : S} {dp tm : Int} {tb : List ((Int × S) × Option Nat)} {st st' : St S A ℝ X Y} {h : List (Event S A ℝ)}

theorem ments_hasSoft (eps : ℝ) (cfg : Cfg S A) (lr : S → A → ℝ) : HasSoft (ments eps cfg lr) id id cfg lr where
  initD _ _ _ _ := rfl
  initC _ _ _ _ := rfl
  visitD _ _ := rfl
  visitC _ := rfl
  backupD _ _ _ := rfl
  backupC _ _ _ _ _ := rfl

structure SoftInv (env : Env S A ℝ) (m : Manager S ℝ) (px : X → Soft) (py : Y → Soft) (st : St S A ℝ X Y) (h : List (Event S A ℝ)) : Prop where
  d : ∀ (d : Nat) (nd : DNode S A ℝ X), st.dn[d]? = some nd →
    (px nd.x).n = (returnsD d h).length + (if isLeaf env m nd then h.countP (Event.endAt d) else 0) ∧ (∃ v, (px nd.x).val = some v) ∧
      (returnsD d h = [] → (px nd.x).val = some nd.heur)
  c : ∀ (c : Nat) (nc : CNode S A ℝ Y), st.cn[c]? = some nc → (py nc.y).n = (returnsC c h).length ∧ ∃ v, (py nc.y).val = some v

theorem soft_init (H : HasSoft alg px py cfg lr) (k : Nat) (s0 : S) (dp tm : Int)
    (tb : List ((Int × S) × Option Nat)) : SoftInv env m px py (init env m alg k s0 dp tm tb) [] := by
  constructor
  · intro d nd hd
    rcases d with _ | d
    · simp [init] at hd
      subst hd
      simp only [returnsD, List.filterMap_nil, List.length_nil, List.countP_nil, ite_self]
      simp [newD, H.initD, softInitD]
    · simp [init] at hd
  · intro c nc hc
    simp [init] at hc

theorem soft_eff (H : HasSoft alg px py cfg lr) (hp : PriorTotal cfg env) {w : Nat} {e : Event S A ℝ} (T : Touch st h)
    (D : SoftInv env m px py st h) (E : Eff env m alg st w e st') : SoftInv env m px py st' (e :: h) := by
  constructor
  · intro d nd' hd'
    rcases dn_chg E hd' with ⟨nd, hd, hchg⟩ | ⟨rfl, ht, s, dep, tim, rfl⟩
    · obtain ⟨h1, ⟨v, h2⟩, h3⟩ := D.d d nd hd
      cases hchg with
      | same he => rw [returnsD_cons d e h he, endAt_cons he]; exact ⟨h1, ⟨v, h2⟩, h3⟩
      | selOld hl ha hf =>
        have hl' := hl
        simp only [isLeaf] at hl' h1 ⊢
        simp only [returnsD, List.filterMap_cons, H.visitD, softVisit, hl', if_false, Bool.false_eq_true] at h1 h3 ⊢
        exact ⟨h1, ⟨v, h2⟩, h3⟩
      | selNew hl ha hf =>
        have hl' := hl
        simp only [isLeaf] at hl' h1 ⊢
        simp only [returnsD, List.filterMap_cons, H.visitD, softVisit, hl', if_false, Bool.false_eq_true] at h1 h3 ⊢
        exact ⟨h1, ⟨v, h2⟩, h3⟩
      | ended =>
        have hi : isLeaf env m { nd with visits := nd.visits + 1, x := alg.visitD (isLeaf env m nd) nd.x } = isLeaf env m nd := rfl
        rw [returnsD_other (by simp), hi]
        simp only [H.visitD, softVisit, List.countP_cons, Event.endAt, beq_self_eq_true, if_true]
        cases hl : isLeaf env m nd <;> simp only [hl, if_true, if_false, Bool.false_eq_true] at h1 ⊢
        · exact ⟨h1, ⟨v, h2⟩, h3⟩
        · exact ⟨by omega, ⟨v, h2⟩, h3⟩
      | @backed w' args =>
        have hi : isLeaf env m { nd with x := alg.backupD (viewOf env m st nd) (st.ctxOf w') args } = isLeaf env m nd := rfl
        rw [hi]
        have hret : returnsD d (Event.backedD w' d args :: h) = args.retAfter :: returnsD d h := by simp [returnsD]
        simp only [H.backupD]
        refine ⟨?_, ?_, ?_⟩
        · rw [hret, List.countP_cons]
          simp only [softBackupD, viewOf, List.length_cons, Event.endAt, Bool.false_eq_true, if_false, Nat.add_zero]
          rw [h1]
          omega
        · obtain ⟨Q, hQ⟩ := mentsQ_total (v := viewOf env m st nd) hp rfl py (by
            intro k hk
            obtain ⟨c', nc', _, g2, g3⟩ := mem_kidsY.1 hk
            rw [g3]
            exact (D.c c' nc' g2).2)
          obtain ⟨s, hs⟩ := softValue_total (cfg := cfg) hQ
          exact ⟨s, by simp [softBackupD, hs]⟩
        · rw [hret]; simp
    · rw [returnsD_cons _ e h ht, returnsD_nil T.freshD, endAt_cons ht, endAt_zero T.freshD]
      simp only [List.length_nil, ite_self]
      simp [newD, H.initD, softInitD]
  · intro c nc' hc'
    rcases cn_chg E hc' with ⟨nc, hc, hchg⟩ | ⟨rfl, ht, nd, a, rfl⟩
    · obtain ⟨h1, v, h2⟩ := D.c c nc hc
      cases hchg with
      | same he => rw [returnsC_cons c e h he]; exact ⟨h1, v, h2⟩
      | stepped ho hk =>
        rw [returnsC_other (by simp)]
        simp only [H.visitC]
        exact ⟨h1, v, h2⟩
      | @backed w' args =>
        have : returnsC c (Event.backedC w' c args :: h) = args.retAfter :: returnsC c h := by simp [returnsC]
        rw [this]
        simp only [H.backupC]
        obtain ⟨l, hl⟩ := finiteSoft_spec ((kidsX st nc).map fun k => px k.2) (by
          intro k hk
          obtain ⟨q, hq, rfl⟩ := List.mem_map.1 hk
          obtain ⟨d', nd', _, g2, g3⟩ := mem_kidsX.1 hq
          rw [g3]
          exact (D.d d' nd' g2).2.1)
        refine ⟨by simp [softBackupC, h1], ?_⟩
        simp only [softBackupC, hl, Option.map_some]
        exact ⟨_, rfl⟩
    · rw [returnsC_cons _ e h ht, returnsC_nil T.freshC]
      simp [newC, H.initC, softInitC]

theorem soft_reach (H : HasSoft alg px py cfg lr) (hp : PriorTotal cfg env) (hr : Reachable env m alg k s0 dp tm tb st h) :
    SoftInv env m px py st h := by
  obtain ⟨ls, hx⟩ := hr
  exact (exec_induct (fun s h => Touch s h ∧ SoftInv env m px py s h)
    (fun _ _ _ _ _ hi _ E => ⟨touch_eff hi.1 E, soft_eff H hp hi.1 hi.2 E⟩)
    ⟨⟨by simp, by simp⟩, soft_init H k s0 dp tm tb⟩ hx).2

theorem softBackupC_val (r : ℝ) (l : List (Nat × ℝ)) (y : Soft) :
    (softBackupC r (l.map fun p => { n := p.1, val := some p.2 }) y).val = some (r + wmean l) := by
  simp only [softBackupC, finiteSoft_mk, Option.map_some]
  rw [meanLoop_eq, add_comm]

theorem find?_kidsY {𝕜 : Type} {st : St S A 𝕜 X Y} {nd : DNode S A 𝕜 X} (a : A) (hall : ∀ p ∈ nd.kids, ∃ nc, st.cn[p.2]? = some nc) :
    find? a (kidsY st nd) = (find? a nd.kids).bind fun c => (st.cn[c]?).map fun nc => (nc.visits, nc.y) := by
  unfold kidsY
  generalize nd.kids = ks at hall
  induction ks with
  | nil => rfl
  | cons p ks ih =>
    obtain ⟨nc, hnc⟩ := hall p (by simp)
    obtain ⟨b, c⟩ := p
    simp only at hnc
    simp only [List.filterMap_cons, hnc, Option.map_some, find?]
    by_cases hb : b = a
    · simp [hb, hnc]
    · simp only [hb, if_false]
      exact ih (fun q hq => hall q (by simp [hq]))

theorem soft_weight (H : HasSoft alg px py cfg lr) (hp : PriorTotal cfg env) (hr : Reachable env m alg k s0 dp tm tb st h) (hq : Quiescent st)
    (d : Nat) (nd : DNode S A ℝ X) (hd : st.dn[d]? = some nd) : (px nd.x).n = softWeight env m st h d := by
  have D := soft_reach H hp hr
  unfold softWeight
  rw [(D.d d nd hd).1, returns_through hr hq, hd]
  have : trialsEndedAt d h = h.countP (Event.endAt d) := by
    unfold trialsEndedAt
    congr 1
  rw [this]

theorem soft_chance (hv : alg.Valid) (H : HasSoft alg px py cfg lr) (hp : PriorTotal cfg env)
    (hvis : ∀ x, alg.visitD false x = x)
    (hu : m.useTable = false) (htb : Leftover tb) (hr : Reachable env m alg k s0 dp tm tb st h) (hq : Quiescent st) {n : Nat}
    (ih : ∀ (d : Nat) nd, st.dn[d]? = some nd → (m.maxDepth - nd.depth).toNat ≤ n → softD px st d = some (softTree cfg env m lr st h n d))
    {d c : Nat} {a : A} {nd : DNode S A ℝ X} (hd : st.dn[d]? = some nd) (hn : (m.maxDepth - nd.depth).toNat ≤ n + 1)
    (hcc : childC st d a = some c) :
    ∃ nc, st.cn[c]? = some nc ∧ (py nc.y).val = some (chanceSoft env m lr st h (softTree cfg env m lr st h n) nc) := by
  have U := reach_uptodate hv hvis hu htb hr
  obtain ⟨fd, fc⟩ := quiescent_free hq
  have I := reach_inv hv htb hr
  obtain ⟨nd2, nc, k1, k2, k3, k4⟩ := childC_facts I.tree hcc
  have hrc := (c39_children_backed hv htb hr hq hcc).2
  obtain ⟨y0, args, hy⟩ := U.c c nc k2 (fc c) hrc
  refine ⟨nc, k2, ?_⟩
  rw [hy, H.backupC]
  have hkids : (kidsX st nc).map (fun k => px k.2) =
      (nc.kids.map fun q => (softWeight env m st h q.2, softTree cfg env m lr st h n q.2)).map fun p => { n := p.1, val := some p.2 } := by
    have hall : ∀ q ∈ nc.kids, ∃ nd', st.dn[q.2]? = some nd' ∧ px nd'.x = { n := softWeight env m st h q.2, val := some (softTree cfg env m lr st h n q.2) } := by
      intro q hq'
      obtain ⟨nc', nd', g1, g2, g3, g4, g5, g6⟩ := childD_facts I.tree (childD_of_mem I.tree k2 (show (q.1, q.2) ∈ nc.kids from hq'))
      rw [k2] at g1
      obtain rfl := Option.some.inj g1
      refine ⟨nd', g2, ?_⟩
      have := ih q.2 nd' g2 (by
        rw [hd] at k1; obtain rfl := Option.some.inj k1
        omega)
      simp only [softD, g2, Option.bind_some] at this
      rw [← this, ← soft_weight H hp hr hq q.2 nd' g2]
    unfold kidsX
    generalize nc.kids = ks at hall
    induction ks with
    | nil => rfl
    | cons q ks ihk =>
      obtain ⟨nd', g1, g2⟩ := hall q (by simp)
      simp only [List.filterMap_cons, g1, Option.map_some, List.map_cons, g2]
      rw [ihk (fun q hq => hall q (by simp [hq]))]
  rw [hkids, softBackupC_val]
  rfl

/-- With a constant temperature, whenever no trial is running the soft values are those of the tree. -/
theorem soft_tree (hv : alg.Valid) (H : HasSoft alg px py cfg lr) (hp : PriorTotal cfg env) (hdec : cfg.decay = none)
    (hvis : ∀ x, alg.visitD false x = x)
    (hu : m.useTable = false) (htb : Leftover tb) (hr : Reachable env m alg k s0 dp tm tb st h) (hq : Quiescent st) :
    ∀ (n d : Nat) nd, st.dn[d]? = some nd → (m.maxDepth - nd.depth).toNat ≤ n → softD px st d = some (softTree cfg env m lr st h n d) := by
  have U := reach_uptodate hv hvis hu htb hr
  obtain ⟨fd, fc⟩ := quiescent_free hq
  have D := soft_reach H hp hr
  have I := reach_inv hv htb hr
  have nokids : ∀ (d : Nat) nd, st.dn[d]? = some nd → nd.kids = [] → softD px st d = some nd.heur := by
    intro d nd hd hk
    have h0 : returnsD d h = [] := by
      by_contra hne
      have hpos : 0 < h.countP (Event.selAt d) := by
        have := (reach_bk hr).1.d d
        have := List.length_pos_iff.2 hne
        omega
      obtain ⟨e, he, hs⟩ := List.countP_pos_iff.1 hpos
      cases e with
      | selected w d1 a c =>
        have hdd : d1 = d := by simpa [Event.selAt] using hs
        subst hdd
        obtain ⟨nd', _, k1, _, k2, _⟩ := childC_facts I.tree ((reach_both hv htb hr).2.evSel w d1 a c he)
        rw [hd] at k1
        obtain rfl := Option.some.inj k1
        rw [hk] at k2
        simp at k2
      | _ => simp [Event.selAt] at hs
    simp [softD, hd, (D.d d nd hd).2.2 h0]
  intro n
  induction n with
  | zero =>
    intro d nd hd hn
    have hl : isLeaf env m nd = true := by unfold isLeaf; simp; right; omega
    rw [isLeaf_skel] at hl
    have hk : nd.kids = [] := I.tree.heap.dLeaf d nd.skel (by simp [hd]) hl
    rw [nokids d nd hd hk]
    simp [softTree, hd]
  | succ n ih =>
    intro d nd hd hn
    simp only [softTree, hd, Option.elim_some]
    by_cases hk : nd.kids = []
    · rw [if_pos hk, nokids d nd hd hk]
    · rw [if_neg hk]
      obtain ⟨p0, hp0⟩ := List.exists_mem_of_ne_nil _ hk
      have hc0 := childC_of_mem I.tree hd (show (p0.1, p0.2) ∈ nd.kids from hp0)
      have hret := (c39_children_backed hv htb hr hq hc0).1
      obtain ⟨x0, v0, ctx, args, hx⟩ := U.d d nd hd (fd d) hret
      have hane : env.actions nd.state ≠ [] := by
        obtain ⟨nd2, _, k1, _, _, _, _, _, _, k8⟩ := childC_facts I.tree hc0
        rw [hd] at k1
        obtain rfl := Option.some.inj k1
        exact List.ne_nil_of_mem k8
      have hval : ∀ (c : Nat) a, (a, c) ∈ nd.kids → ∃ nc, st.cn[c]? = some nc ∧
          (py nc.y).val = some (chanceSoft env m lr st h (softTree cfg env m lr st h n) nc) :=
        fun c a hac => soft_chance hv H hp hvis hu htb hr hq ih hd hn (childC_of_mem I.tree hd hac)
      have hfk : ∀ a, find? a (kidsY st nd) = (find? a nd.kids).bind fun c => (st.cn[c]?).map fun nc => (nc.visits, nc.y) := by
        intro a
        refine find?_kidsY a ?_
        intro p hp
        obtain ⟨nc, h1, _⟩ := hval p.2 p.1 hp
        exact ⟨nc, h1⟩
      have hQ : QIs (mentsQ cfg py (viewOf env m st { nd with x := x0, visits := v0 })) (viewOf env m st { nd with x := x0, visits := v0 })
          (fun a => (find? a nd.kids).elim (untriedValue cfg (isOpponent m nd.time) nd.state a) fun c =>
            sgn (isOpponent m nd.time) * (st.cn[c]?).elim 0 (chanceSoft env m lr st h (softTree cfg env m lr st h n))) := by
        intro a ha
        have ha' : a ∈ env.actions nd.state := ha
        have hkv : (viewOf env m st { nd with x := x0, visits := v0 }).kids = kidsY st nd := rfl
        have hov : (viewOf env m st { nd with x := x0, visits := v0 }).opp = isOpponent m nd.time := rfl
        have hsv : (viewOf env m st { nd with x := x0, visits := v0 }).state = nd.state := rfl
        unfold mentsQ
        rw [hkv, hfk a]
        beta_reduce
        cases hf : find? a nd.kids with
        | none =>
          simp only [Option.bind_none, Option.elim_none, untriedQ, hov, hsv, untriedValue]
          cases hpr : cfg.prior with
          | none =>
            simp only [oppCoeff, sgn]
            rw [mul_comm]
          | some f =>
            obtain ⟨wt, hwt⟩ := Option.isSome_iff_exists.1 (hp f hpr nd.state a ha')
            simp [hwt]
        | some c =>
          obtain ⟨nc, g1, g2⟩ := hval c a (find?_mem hf)
          simp only [Option.bind_some, g1, Option.map_some, g2, Option.elim_some, hov, oppCoeff, sgn]
          rw [mul_comm]
      simp only [softD, hd, Option.bind_some]
      rw [hx, H.backupD, c32_log_sum_exp hQ hane]
      simp only [getTemp, hdec]
      rfl

end Verif.Ments
