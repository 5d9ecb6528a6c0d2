import Verif.Spec.TentsTree
import Verif.Proofs.SoftGame
import Verif.Props.Tents

/-! # The values of TENTS nodes when no trial is running -/

set_option linter.unusedSectionVars false
set_option linter.unusedSimpArgs false

namespace Verif.Tents

open Verif.Search Verif.Backups Verif.Ments Verif.Dents

section
variable {A : Type} [DecidableEq A]

theorem objective_congr {acts : List A} {z z' : A → ℝ} (h : ∀ a ∈ acts, z a = z' a) (r : A → ℝ) :
    tsallisObjective acts z r = tsallisObjective acts z' r := by
  unfold tsallisObjective
  congr 2
  exact List.map_congr_left fun a ha => by rw [h a ha]

/-- The code's `spmax` computes the sparse maximum. -/
theorem sparseMax_eq {acts : List A} {temp : ℝ} {Q z : A → ℝ} {t : TX A} (H : MapsHold acts z t.byVal t.byAct) (hnd : acts.Nodup) (hne : acts ≠ [])
    (hz : ∀ a ∈ acts, z a = Q a / temp) {s : ℝ} (hs : spmax t = .ok s) : sparseMax temp Q acts = temp * s := by
  obtain ⟨s', p, h1, h2, h3, h4, _⟩ := c44_spmax H hnd hne
  rw [hs] at h1
  obtain rfl := Except.ok.inj h1
  have hg : IsGreatest {x | ∃ p, IsDistr acts p ∧ x = tsallisObjective acts (fun a => Q a / temp) p} s := by
    refine ⟨⟨p, h2.1, ?_⟩, ?_⟩
    · rw [h3]; exact objective_congr hz p
    · rintro _ ⟨r, hr, rfl⟩
      rw [← objective_congr hz r]
      exact h4 r hr
  unfold sparseMax
  rw [hg.csSup_eq]

theorem sparseMax_congr {acts : List A} {temp : ℝ} {Q Q' : A → ℝ} (h : ∀ a ∈ acts, Q a = Q' a) : sparseMax temp Q acts = sparseMax temp Q' acts := by
  unfold sparseMax
  congr 2
  ext x
  refine exists_congr fun p => and_congr_right fun _ => ?_
  rw [objective_congr (z := fun a => Q a / temp) (z' := fun a => Q' a / temp) (fun a ha => by rw [h a ha])]

theorem sparseMax_bounds {temp : ℝ} (ht : 0 < temp) {Q : A → ℝ} {l : List A} (hnd : l.Nodup) {M : ℝ}
    (hM : IsGreatest {y | ∃ a ∈ l, y = Q a} M) : M ≤ sparseMax temp Q l ∧ sparseMax temp Q l ≤ M + temp / 2 := by
  obtain ⟨⟨a, ha, hMa⟩, hub⟩ := hM
  have hne := List.ne_nil_of_mem ha
  have H := fillMaps_hold (fun a => Q a / temp) l [] ([], []) (by simpa using hnd) ⟨by simp, by simp, by simp⟩
  rw [List.nil_append] at H
  obtain ⟨s, p, h1, _, _, _, h5, b, hb, h6⟩ := c44_spmax
    (t := ⟨softInitD 0, (fillMaps (l.map fun a => (a, Q a / temp)) ([], [])).1, (fillMaps (l.map fun a => (a, Q a / temp)) ([], [])).2⟩) H hnd hne
  rw [sparseMax_eq H hnd hne (fun _ _ => rfl) h1]
  constructor
  · have := mul_le_mul_of_nonneg_left (h5 a ha) ht.le
    rwa [mul_div_cancel₀ _ ht.ne', ← hMa] at this
  · have h7 := mul_le_mul_of_nonneg_left h6 ht.le
    rw [mul_add, mul_div_cancel₀ _ ht.ne'] at h7
    have := hub ⟨b, hb, rfl⟩
    linarith

theorem sparseMax_close {temp : ℝ} (ht : 0 < temp) (opp : Bool) (q : A → ℝ) {l : List A} (hnd : l.Nodup) (hl : l ≠ []) :
    |sgn opp * sparseMax temp (fun a => sgn opp * q a) l - bestOf opp (l.map q)| ≤ temp / 2 := by
  have hf : l.map q ≠ [] := by simpa using hl
  unfold bestOf sgn
  cases opp
  · simp only [Bool.false_eq_true, if_false, one_mul]
    obtain ⟨x, hx⟩ := Option.ne_none_iff_exists'.1 (mt List.max?_eq_none_iff.1 hf)
    rw [hx]
    obtain ⟨h1, h2⟩ := List.max?_eq_some_iff.1 hx
    obtain ⟨a, ha, hxa⟩ := List.mem_map.1 h1
    obtain ⟨b1, b2⟩ := sparseMax_bounds (Q := q) (l := l) (M := x) ht hnd ⟨⟨a, ha, hxa.symm⟩, by
      rintro _ ⟨b, hb, rfl⟩
      exact h2 _ (List.mem_map_of_mem hb)⟩
    simp only [Option.getD_some]
    rw [abs_sub_le_iff]
    constructor <;> linarith
  · simp only [if_true]
    obtain ⟨x, hx⟩ := Option.ne_none_iff_exists'.1 (mt List.min?_eq_none_iff.1 hf)
    rw [hx]
    obtain ⟨h1, h2⟩ := List.min?_eq_some_iff.1 hx
    obtain ⟨a, ha, hxa⟩ := List.mem_map.1 h1
    obtain ⟨b1, b2⟩ := sparseMax_bounds (Q := fun a => -1 * q a) (l := l) (M := -x) ht hnd ⟨⟨a, ha, by rw [hxa]; ring⟩, by
      rintro _ ⟨b, hb, rfl⟩
      have := h2 _ (List.mem_map_of_mem (f := q) hb)
      linarith⟩
    simp only [Option.getD_some]
    rw [abs_sub_le_iff]
    constructor <;> linarith

end

section
variable {S A : Type} [DecidableEq S] [DecidableEq A] {cfg : Cfg S A} {env : Env S A ℝ} {m : Manager S ℝ} {eps : ℝ} {lr : S → A → ℝ} {k : Nat} {s0 : S}
  {dp tm : Int} {tb : List ((Int × S) × Option Nat)} {st st' : St S A ℝ (Except TErr (TX A)) Soft} {h : List (Event S A ℝ)}
  {next : S → A → S}

/-- What is stored in a TENTS node: a count of the backups (and of the trials that ended in it, if it is a leaf), the heuristic value until the
first backup, and then `spmax` of the current maps. -/
def TentsVal (cfg : Cfg S A) (env : Env S A ℝ) (m : Manager S ℝ) (st : St S A ℝ (Except TErr (TX A)) Soft) (h : List (Event S A ℝ)) : Prop :=
  ∀ (d : Nat) (nd : DNode S A ℝ (Except TErr (TX A))), st.dn[d]? = some nd → ∃ t, nd.x = .ok t ∧
    t.soft.n = (returnsD d h).length + (if isLeaf env m nd then h.countP (Event.endAt d) else 0) ∧
    (returnsD d h = [] → t.soft.val = some nd.heur) ∧
    (returnsD d h ≠ [] → ∃ s, spmax t = .ok s ∧ t.soft.val = some (oppCoeff (isOpponent m nd.time) * cfg.temp * s))

theorem tentsInit_ok (hp : PriorTotal cfg env) (s : S) (dep tim : Int) (x : ℝ) :
    ∃ t, tentsInitD cfg env m s dep tim x = .ok t ∧ t.soft = softInitD x := by
  unfold tentsInitD
  obtain ⟨Q, hQ⟩ := mentsQ_total hp (v := newView (X := Unit) (Y := Soft) env m s dep tim ()) rfl id (by simp [newView])
  dsimp only
  rw [qList_eq hQ]
  exact ⟨_, rfl, rfl⟩

theorem tentsVal_eff (hp : PriorTotal cfg env) (hnd : ∀ s, (env.actions s).Nodup) (hdec : cfg.decay = none) (htb : Leftover tb)
    (hr : Reachable env m (tents eps cfg env m lr) k s0 dp tm tb st h) {w : Nat} {e : Event S A ℝ} (T : Touch st h)
    (V : TentsVal cfg env m st h) (E : Eff env m (tents eps cfg env m lr) st w e st') : TentsVal cfg env m st' (e :: h) := by
  intro d nd' hd'
  rcases dn_chg E hd' with ⟨nd, hd, hchg⟩ | ⟨rfl, ht, s, dep, tim, rfl⟩
  · obtain ⟨t, h0, h1, h2, h3⟩ := V d nd hd
    cases hchg with
    | same he => rw [returnsD_cons d e h he, endAt_cons he]; exact ⟨t, h0, h1, h2, h3⟩
    | selOld hl ha hf =>
      have hl' := hl
      simp only [isLeaf] at hl' h1 ⊢
      simp only [returnsD, List.filterMap_cons, hl', if_false, Bool.false_eq_true] at h1 h2 h3 ⊢
      refine ⟨t, ?_, h1, h2, h3⟩
      show tentsVisit false nd.x = _
      rw [h0]; rfl
    | selNew hl ha hf =>
      have hl' := hl
      simp only [isLeaf] at hl' h1 ⊢
      simp only [returnsD, List.filterMap_cons, hl', if_false, Bool.false_eq_true] at h1 h2 h3 ⊢
      refine ⟨t, ?_, h1, h2, h3⟩
      show tentsVisit false nd.x = _
      rw [h0]; rfl
    | ended =>
      have hi : isLeaf env m { nd with visits := nd.visits + 1, x := (tents eps cfg env m lr).visitD (isLeaf env m nd) nd.x } = isLeaf env m nd := rfl
      rw [returnsD_other (by simp), hi]
      refine ⟨{ t with soft := softVisit (isLeaf env m nd) t.soft }, by show tentsVisit _ nd.x = _; rw [h0]; rfl, ?_, ?_, ?_⟩
      · simp only [softVisit, List.countP_cons, Event.endAt, beq_self_eq_true, if_true]
        cases hl : isLeaf env m nd <;> simp only [hl, if_true, if_false, Bool.false_eq_true] at h1 ⊢
        · exact h1
        · omega
      · intro hx
        have := h2 hx
        simp only [softVisit]
        split <;> exact this
      · intro hx
        obtain ⟨s, g1, g2⟩ := h3 hx
        refine ⟨s, g1, ?_⟩
        simp only [softVisit]
        split <;> exact g2
    | @backed w' args =>
      obtain ⟨hww, nodes, nd0, hw, _⟩ := eff_backedD E
      subst hww
      obtain ⟨a, c, _, k2, k3, _⟩ := tents_hasAction htb hr hw hd
      obtain ⟨TD, _⟩ := tents_reach hp hnd htb hr
      obtain ⟨T', z, hx, _, MH⟩ := TD d nd hd
      rw [h0] at hx
      obtain rfl := Except.ok.inj hx
      obtain ⟨Q, hQ⟩ := tents_q_defined hp hnd htb hr nd
      obtain ⟨t', s, u1, u2, u3, u4⟩ := tentsBackupD_spec (cfg := cfg) (v := viewOf env m st nd) (ctx := st.ctxOf w') h0 MH (hnd _) k2 k3 (hQ a k2)
      have hi : isLeaf env m { nd with x := (tents eps cfg env m lr).backupD (viewOf env m st nd) (st.ctxOf w') args } = isLeaf env m nd := rfl
      have hret : returnsD d (Event.backedD w' d args :: h) = args.retAfter :: returnsD d h := by simp [returnsD]
      have htemp : getTemp cfg (viewOf env m st nd) = cfg.temp := by simp [getTemp, hdec]
      rw [hi, hret, List.countP_cons]
      refine ⟨t', u1, ?_, by simp, fun _ => ⟨s, u3, ?_⟩⟩
      · rw [u4]
        simp only [List.length_cons, Event.endAt, Bool.false_eq_true, if_false, Nat.add_zero]
        rw [h1]
        omega
      · rw [u4, htemp]; rfl
  · rw [returnsD_cons _ e h ht, returnsD_nil T.freshD, endAt_cons ht, endAt_zero T.freshD]
    obtain ⟨t, g1, g2⟩ := tentsInit_ok (m := m) hp s dep tim (heurOf env m s)
    refine ⟨t, g1, by rw [g2]; simp [softInitD], fun _ => by rw [g2]; rfl, fun h => absurd rfl h⟩

theorem tentsVal_reach (hp : PriorTotal cfg env) (hnd : ∀ s, (env.actions s).Nodup) (hdec : cfg.decay = none) (htb : Leftover tb)
    (hr : Reachable env m (tents eps cfg env m lr) k s0 dp tm tb st h) : TentsVal cfg env m st h := by
  have := reach_induct (alg := tents eps cfg env m lr) (fun s h => Touch s h ∧ TentsVal cfg env m s h) ?_ ?_ hr
  · exact this.2
  · refine ⟨⟨by simp, by simp⟩, ?_⟩
    intro d nd hd
    rcases d with _ | d
    · simp [init] at hd
      subst hd
      obtain ⟨t, g1, g2⟩ := tentsInit_ok (m := m) hp s0 dp tm (heurOf env m s0)
      exact ⟨t, g1, by rw [g2]; simp [softInitD, returnsD], fun _ => by rw [g2]; rfl, fun h => absurd rfl h⟩
    · simp [init] at hd
  · intro st h w e st' hr ih _ E
    exact ⟨touch_eff ih.1 E, tentsVal_eff hp hnd hdec htb hr ih.1 ih.2 E⟩

theorem tents_visit_false (x : Except TErr (TX A)) : (tents eps cfg env m lr).visitD false x = x := by
  show tentsVisit false x = x
  cases x <;> rfl

theorem tents_weight (hp : PriorTotal cfg env) (hnd : ∀ s, (env.actions s).Nodup) (hdec : cfg.decay = none) (htb : Leftover tb)
    (hr : Reachable env m (tents eps cfg env m lr) k s0 dp tm tb st h) (hq : Quiescent st)
    (d : Nat) (nd : DNode S A ℝ (Except TErr (TX A))) (hd : st.dn[d]? = some nd) : (softOfX nd.x).n = softWeight env m st h d := by
  obtain ⟨t, h0, h1, _⟩ := tentsVal_reach hp hnd hdec htb hr d nd hd
  unfold softWeight
  rw [h0]
  simp only [softOfX]
  rw [h1, returns_through hr hq, hd]
  have : trialsEndedAt d h = h.countP (Event.endAt d) := by
    unfold trialsEndedAt
    congr 1
  rw [this]

theorem tents_chance (hp : PriorTotal cfg env) (hnd : ∀ s, (env.actions s).Nodup) (hdec : cfg.decay = none)
    (hu : m.useTable = false) (htb : Leftover tb) (hr : Reachable env m (tents eps cfg env m lr) k s0 dp tm tb st h) (hq : Quiescent st) {n : Nat}
    (ih : ∀ (d : Nat) nd, st.dn[d]? = some nd → (m.maxDepth - nd.depth).toNat ≤ n →
      softD softOfX st d = some (sparseTree cfg env m lr st h n d))
    {d c : Nat} {a : A} {nd : DNode S A ℝ (Except TErr (TX A))} (hd : st.dn[d]? = some nd) (hn : (m.maxDepth - nd.depth).toNat ≤ n + 1)
    (hcc : childC st d a = some c) :
    ∃ nc, st.cn[c]? = some nc ∧ nc.y.val = some (chanceSoft env m lr st h (sparseTree cfg env m lr st h n) nc) := by
  have hv := tents_valid eps cfg env m lr
  have U := reach_uptodate hv tents_visit_false hu htb hr
  obtain ⟨fd, fc⟩ := quiescent_free hq
  have I := reach_inv hv htb hr
  obtain ⟨nd2, nc, k1, k2, k3, k4⟩ := childC_facts I.tree hcc
  have hrc := (c39_children_backed hv htb hr hq hcc).2
  obtain ⟨y0, args, hy⟩ := U.c c nc k2 (fc c) hrc
  refine ⟨nc, k2, ?_⟩
  rw [hy]
  show (softBackupC (lr nc.state nc.action) ((kidsX st nc).map fun k => softOfX k.2) y0).val = _
  have hkids : (kidsX st nc).map (fun k => softOfX k.2) =
      (nc.kids.map fun q => (softWeight env m st h q.2, sparseTree cfg env m lr st h n q.2)).map fun p => { n := p.1, val := some p.2 } := by
    have hall : ∀ q ∈ nc.kids, ∃ nd', st.dn[q.2]? = some nd' ∧
        softOfX nd'.x = { n := softWeight env m st h q.2, val := some (sparseTree cfg env m lr st h n q.2) } := by
      intro q hq'
      obtain ⟨nc', nd', g1, g2, g3, g4, g5, g6⟩ := childD_facts I.tree (childD_of_mem I.tree k2 (show (q.1, q.2) ∈ nc.kids from hq'))
      rw [k2] at g1
      obtain rfl := Option.some.inj g1
      refine ⟨nd', g2, ?_⟩
      have := ih q.2 nd' g2 (by
        rw [hd] at k1; obtain rfl := Option.some.inj k1
        omega)
      simp only [softD, g2, Option.bind_some] at this
      rw [← this, ← tents_weight hp hnd hdec htb hr hq q.2 nd' g2]
    unfold kidsX
    generalize nc.kids = ks at hall
    induction ks with
    | nil => rfl
    | cons q ks ihk =>
      obtain ⟨nd', g1, g2⟩ := hall q (by simp)
      simp only [List.filterMap_cons, g1, Option.map_some, List.map_cons, g2]
      rw [ihk (fun q hq => hall q (by simp [hq]))]
  rw [hkids, softBackupC_val]
  rfl

/-- With a constant temperature, whenever no trial is running the values of TENTS nodes are those of the tree. -/
theorem tents_tree (hp : PriorTotal cfg env) (hnd : ∀ s, (env.actions s).Nodup) (hdec : cfg.decay = none)
    (hu : m.useTable = false) (htb : Leftover tb) (hr : Reachable env m (tents eps cfg env m lr) k s0 dp tm tb st h) (hq : Quiescent st) :
    ∀ (n d : Nat) nd, st.dn[d]? = some nd → (m.maxDepth - nd.depth).toNat ≤ n → softD softOfX st d = some (sparseTree cfg env m lr st h n d) := by
  have hv := tents_valid eps cfg env m lr
  have V := tentsVal_reach hp hnd hdec htb hr
  have I := reach_inv hv htb hr
  have hset : ∀ d a, Settled st h d a := by
    intro d a w p hw
    rw [hq w p hw]
    simp [owed]
  have nokids : ∀ (d : Nat) nd, st.dn[d]? = some nd → nd.kids = [] → softD softOfX st d = some nd.heur := by
    intro d nd hd hk
    have h0 : returnsD d h = [] := by
      by_contra hne
      have hpos : 0 < h.countP (Event.selAt d) := by
        have := (reach_bk hr).1.d d
        have := List.length_pos_iff.2 hne
        omega
      obtain ⟨e, he, hs⟩ := List.countP_pos_iff.1 hpos
      cases e with
      | selected w d1 a c =>
        have hdd : d1 = d := by simpa [Event.selAt] using hs
        subst hdd
        obtain ⟨nd', _, k1, _, k2, _⟩ := childC_facts I.tree ((reach_both hv htb hr).2.evSel w d1 a c he)
        rw [hd] at k1
        obtain rfl := Option.some.inj k1
        rw [hk] at k2
        simp at k2
      | _ => simp [Event.selAt] at hs
    obtain ⟨t, g1, _, g2, _⟩ := V d nd hd
    simp [softD, hd, g1, softOfX, g2 h0]
  intro n
  induction n with
  | zero =>
    intro d nd hd hn
    have hl : isLeaf env m nd = true := by unfold isLeaf; simp; right; omega
    rw [isLeaf_skel] at hl
    have hk : nd.kids = [] := I.tree.heap.dLeaf d nd.skel (by simp [hd]) hl
    rw [nokids d nd hd hk]
    simp [sparseTree, hd]
  | succ n ih =>
    intro d nd hd hn
    simp only [sparseTree, hd, Option.elim_some]
    by_cases hk : nd.kids = []
    · rw [if_pos hk, nokids d nd hd hk]
    · rw [if_neg hk]
      obtain ⟨p0, hp0⟩ := List.exists_mem_of_ne_nil _ hk
      have hc0 := childC_of_mem I.tree hd (show (p0.1, p0.2) ∈ nd.kids from hp0)
      have hret := (c39_children_backed hv htb hr hq hc0).1
      have hane : env.actions nd.state ≠ [] := by
        obtain ⟨nd2, _, k1, _, _, _, _, _, _, k8⟩ := childC_facts I.tree hc0
        rw [hd] at k1
        obtain rfl := Option.some.inj k1
        exact List.ne_nil_of_mem k8
      have hval : ∀ (c : Nat) a, (a, c) ∈ nd.kids → ∃ nc, st.cn[c]? = some nc ∧
          nc.y.val = some (chanceSoft env m lr st h (sparseTree cfg env m lr st h n) nc) :=
        fun c a hac => tents_chance hp hnd hdec hu htb hr hq ih hd hn (childC_of_mem I.tree hd hac)
      have hfk : ∀ a, find? a (kidsY st nd) = (find? a nd.kids).bind fun c => (st.cn[c]?).map fun nc => (nc.visits, nc.y) := by
        intro a
        refine find?_kidsY a ?_
        intro p hp
        obtain ⟨nc, h1, _⟩ := hval p.2 p.1 hp
        exact ⟨nc, h1⟩
      have hQ : QIs (mentsQ cfg id (viewOf env m st nd)) (viewOf env m st nd)
          (fun a => (find? a nd.kids).elim (untriedValue cfg (isOpponent m nd.time) nd.state a) fun c =>
            sgn (isOpponent m nd.time) * (st.cn[c]?).elim 0 (chanceSoft env m lr st h (sparseTree cfg env m lr st h n))) := by
        intro a ha
        have ha' : a ∈ env.actions nd.state := ha
        have hkv : (viewOf env m st nd).kids = kidsY st nd := rfl
        have hov : (viewOf env m st nd).opp = isOpponent m nd.time := rfl
        have hsv : (viewOf env m st nd).state = nd.state := rfl
        unfold mentsQ
        rw [hkv, hfk a]
        beta_reduce
        cases hf : find? a nd.kids with
        | none =>
          simp only [Option.bind_none, Option.elim_none, untriedQ, hov, hsv, untriedValue]
          cases hpr : cfg.prior with
          | none =>
            simp only [oppCoeff, sgn]
            rw [mul_comm]
          | some f =>
            obtain ⟨wt, hwt⟩ := Option.isSome_iff_exists.1 (hp f hpr nd.state a ha')
            simp [hwt]
        | some c =>
          obtain ⟨nc, g1, g2⟩ := hval c a (find?_mem hf)
          simp only [Option.bind_some, g1, Option.map_some, id, g2, Option.elim_some, hov, oppCoeff, sgn]
          rw [mul_comm]
      obtain ⟨t, z, hx, _, MH⟩ := (tents_reach hp hnd htb hr).1 d nd hd
      obtain ⟨t2, hx2, _, _, h4⟩ := V d nd hd
      rw [hx] at hx2
      obtain rfl := Except.ok.inj hx2
      obtain ⟨s, hs, hsv⟩ := h4 hret
      rw [sparseMax_eq MH (hnd _) hane (fun a ha => by
        obtain ⟨t3, x, g1, g2, g3⟩ := stored_reach hp hnd hdec htb hr d nd a hd ha (hset d a)
        rw [hx] at g1
        obtain rfl := Except.ok.inj g1
        rw [MH.find (hnd _) ha] at g3
        rw [hQ a ha] at g2
        rw [Option.some.inj g3, ← Except.ok.inj g2]) hs]
      simp only [softD, hd, Option.bind_some, hx, softOfX, hsv, oppCoeff, sgn, mul_assoc]

/-! ## Near the value of the game -/

/-- One level: if the values below are within `ε` of those of the game, so is that of a tried action. -/
theorem below_det (hdet : ∀ s a, a ∈ env.actions s → env.succ s a = [next s a])
    (hlr : ∀ s a, a ∈ env.actions s → lr s a = env.reward s a (next s a)) (hne : ∀ s, env.isSink s = false → env.actions s ≠ [])
    (htb : Leftover tb) (hr : Reachable env m (tents eps cfg env m lr) k s0 dp tm tb st h) (hq : Quiescent st) (hx : Exhausted env m st)
    {n : Nat} {ε : ℝ} {below : Nat → ℝ} (ih : ∀ (d : Nat) nd, st.dn[d]? = some nd → (m.maxDepth - nd.depth).toNat = n →
      |below d - gameValue env m next n nd.time nd.state| ≤ ε)
    {d c : Nat} {a : A} {nd : DNode S A ℝ (Except TErr (TX A))} {nc : CNode S A ℝ Soft} (hd : st.dn[d]? = some nd) (hc : childC st d a = some c)
    (hnc : st.cn[c]? = some nc) (hn : (m.maxDepth - nd.depth).toNat = n + 1) :
    |chanceSoft env m lr st h below nc -
      (env.reward nd.state a (next nd.state a) + gameValue env m next n (nd.time + 1) (next nd.state a))| ≤ ε := by
  have hv := tents_valid eps cfg env m lr
  obtain ⟨nd2, nc2, d', nd', k1, k2, k3, k4, k5, k6, k7, k8, k9, k10⟩ := det_kid hdet hv htb hr hq hc
  rw [hd] at k1
  obtain rfl := Option.some.inj k1
  rw [hnc] at k2
  obtain rfl := Option.some.inj k2
  rw [chanceSoft, k6, k3, k4, hlr _ _ k5]
  simp only [List.map_cons, List.map_nil]
  rw [wmean_single _ _ (softWeight_pos hne hv htb hr hq hx hc hnc k6), add_sub_add_left_eq_sub]
  have := ih d' nd' k7 (by omega)
  rw [k8, k10] at this
  exact this

/-- A node's sparse value, given the values of its actions: within `ε + temp / 2` of the best of values that are within `ε` of them. -/
theorem sparseNode_close (hnd : ∀ s, (env.actions s).Nodup) (ht : 0 < cfg.temp) {nd : DNode S A ℝ (Except TErr (TX A))} (hne : env.actions nd.state ≠ [])
    {V : CNode S A ℝ Soft → ℝ} {g : A → ℝ} {ε : ℝ}
    (hk : ∀ a ∈ env.actions nd.state, ∃ c nc, find? a nd.kids = some c ∧ st.cn[c]? = some nc ∧ |V nc - g a| ≤ ε) :
    |sgn (isOpponent m nd.time) * sparseMax cfg.temp
        (fun a => (find? a nd.kids).elim (untriedValue cfg (isOpponent m nd.time) nd.state a) fun c =>
          sgn (isOpponent m nd.time) * (st.cn[c]?).elim 0 V) (env.actions nd.state) -
      bestOf (isOpponent m nd.time) ((env.actions nd.state).map g)| ≤ ε + cfg.temp / 2 := by
  let q : A → ℝ := fun a => (find? a nd.kids).elim 0 fun c => (st.cn[c]?).elim 0 V
  rw [sparseMax_congr (Q' := fun a => sgn (isOpponent m nd.time) * q a) (fun a ha => by
    obtain ⟨c, nc, h1, h2, _⟩ := hk a ha
    simp [q, h1, h2])]
  have e1 := sparseMax_close ht (isOpponent m nd.time) q (hnd nd.state) hne
  have e2 := bestOf_close (opp := isOpponent m nd.time) (f := q) (g := g) (ε := ε) hne (by
    intro a ha
    obtain ⟨c, nc, h1, h2, h3⟩ := hk a ha
    simpa [q, h1, h2] using h3)
  have e4 := abs_sub_le (sgn (isOpponent m nd.time) * sparseMax cfg.temp (fun a => sgn (isOpponent m nd.time) * q a) (env.actions nd.state))
    (bestOf (isOpponent m nd.time) ((env.actions nd.state).map q)) (bestOf (isOpponent m nd.time) ((env.actions nd.state).map g))
  linarith

theorem tents_leafKids (htb : Leftover tb) (hr : Reachable env m (tents eps cfg env m lr) k s0 dp tm tb st h)
    {d : Nat} {nd : DNode S A ℝ (Except TErr (TX A))} (hd : st.dn[d]? = some nd) (hl : isLeaf env m nd = true) : nd.kids = [] := by
  rw [isLeaf_skel] at hl
  exact (reach_inv (tents_valid eps cfg env m lr) htb hr).tree.heap.dLeaf d nd.skel (by simp [hd]) hl

theorem heurOf_sink {s : S} (hs : env.isSink s = true) : heurOf env m s = 0 := by
  unfold heurOf
  split
  · rfl
  · simp [hs]

theorem tents_game (hdet : ∀ s a, a ∈ env.actions s → env.succ s a = [next s a])
    (hlr : ∀ s a, a ∈ env.actions s → lr s a = env.reward s a (next s a)) (hne : ∀ s, env.isSink s = false → env.actions s ≠ [])
    (hnd : ∀ s, (env.actions s).Nodup) (ht : 0 < cfg.temp)
    (htb : Leftover tb) (hr : Reachable env m (tents eps cfg env m lr) k s0 dp tm tb st h) (hq : Quiescent st) (hx : Exhausted env m st) :
    ∀ (n d : Nat) nd, st.dn[d]? = some nd → (m.maxDepth - nd.depth).toNat = n →
      |sparseTree cfg env m lr st h n d - gameValue env m next n nd.time nd.state| ≤ n * (cfg.temp / 2) := by
  have I := reach_inv (tents_valid eps cfg env m lr) htb hr
  have hheur : ∀ (d : Nat) nd, st.dn[d]? = some nd → nd.heur = heurOf env m nd.state := by
    intro d nd hd
    exact I.tree.heap.dHeur d nd.skel (by simp [hd])
  intro n
  induction n with
  | zero =>
    intro d nd hd hn
    simp [sparseTree, hd, gameValue, hheur d nd hd]
  | succ n ih =>
    intro d nd hd hn
    simp only [sparseTree, hd, Option.elim_some, gameValue]
    by_cases hs : env.isSink nd.state = true
    · rw [if_pos (tents_leafKids htb hr hd (by simp [isLeaf, hs])), if_pos hs, hheur d nd hd, heurOf_sink hs]
      simp only [sub_zero, abs_zero]
      positivity
    · have hs' : env.isSink nd.state = false := by simpa using hs
      have hl : isLeaf env m nd = false := by
        simp [isLeaf, hs']
        omega
      obtain ⟨a0, ha0⟩ := List.exists_mem_of_ne_nil _ (hne _ hs')
      obtain ⟨c0, hc0⟩ := hx d nd hd hl a0 ha0
      obtain ⟨nd1, _, f1, _, f3, _⟩ := childC_facts I.tree hc0
      rw [hd] at f1
      obtain rfl := Option.some.inj f1
      rw [if_neg (List.ne_nil_of_mem f3), if_neg hs]
      have := sparseNode_close (m := m) (st := st) (cfg := cfg) (nd := nd) hnd ht (hne _ hs')
        (V := chanceSoft env m lr st h (sparseTree cfg env m lr st h n))
        (g := fun a => env.reward nd.state a (next nd.state a) + gameValue env m next n (nd.time + 1) (next nd.state a))
        (ε := n * (cfg.temp / 2)) (by
          intro a ha
          obtain ⟨c, hc⟩ := hx d nd hd hl a ha
          obtain ⟨_, nc, _, g2, _⟩ := childC_facts I.tree hc
          exact ⟨c, nc, by simpa [childC, hd] using hc, g2, below_det hdet hlr hne htb hr hq hx ih hd hc g2 hn⟩)
      push_cast
      linarith

end

end Verif.Tents
