import Verif.Proofs.Tree
import Verif.Proofs.SoftGame
import Verif.Spec.FpSearch

/-! # DP values with an arbitrary function for chance nodes

The proofs of C38 and C39 do not depend on how a chance node's value is computed from its children's. -/

namespace Verif.Backups

open Verif.Search

set_option linter.unusedSimpArgs false
set_option linter.unusedSectionVars false

variable {S A 𝕜 X Y : Type} [DecidableEq S] [DecidableEq A] [Field 𝕜] [LinearOrder 𝕜]
  {px : X → Dp 𝕜} {py : Y → Dp 𝕜} {mean : S → A → List (Nat × 𝕜) → 𝕜}

theorem dp_init_w {env : Env S A 𝕜} {m : Manager S 𝕜} {alg : Alg S A 𝕜 X Y} (H : HasDpW alg px py mean) (k : Nat) (s0 : S) (dp tm : Int)
    (tb : List ((Int × S) × Option Nat)) : DpInv env m px py (init env m alg k s0 dp tm tb) [] := by
  constructor
  · intro d nd hd
    rcases d with _ | d
    · simp [init] at hd
      subst hd
      simp only [returnsD, List.filterMap_nil, List.length_nil, List.countP_nil, ite_self]
      simp only [newD, H.initD, dpInitD]
      exact ⟨trivial, _, rfl⟩
    · simp [init] at hd
  · intro c nc hc
    simp [init] at hc

theorem dp_eff_w [IsStrictOrderedRing 𝕜] {env : Env S A 𝕜} {m : Manager S 𝕜} {alg : Alg S A 𝕜 X Y} (H : HasDpW alg px py mean) {s0 : S} {dp tm : Int}
    {st st' : St S A 𝕜 X Y} {h : List (Event S A 𝕜)} {w : Nat} {e : Event S A 𝕜} (I : Inv env m s0 dp tm st h) (T : Touch st h)
    (D : DpInv env m px py st h) (E : Eff env m alg st w e st') : DpInv env m px py st' (e :: h) := by
  constructor
  · intro d nd' hd'
    rcases dn_chg E hd' with ⟨nd, hd, hchg⟩ | ⟨rfl, ht, s, dep, tim, rfl⟩
    · obtain ⟨h1, v, h2⟩ := D.d d nd hd
      cases hchg with
      | same he => rw [returnsD_cons d e h he, endAt_cons he]; exact ⟨h1, v, h2⟩
      | selOld hl ha hf =>
        have hl' := hl
        simp only [isLeaf] at hl' h1 ⊢
        simp only [returnsD, List.filterMap_cons, H.visitD, dpVisit, hl', if_false, Bool.false_eq_true] at h1 ⊢
        exact ⟨h1, v, h2⟩
      | selNew hl ha hf =>
        have hl' := hl
        simp only [isLeaf] at hl' h1 ⊢
        simp only [returnsD, List.filterMap_cons, H.visitD, dpVisit, hl', if_false, Bool.false_eq_true] at h1 ⊢
        exact ⟨h1, v, h2⟩
      | ended =>
        have hi : isLeaf env m { nd with visits := nd.visits + 1, x := alg.visitD (isLeaf env m nd) nd.x } = isLeaf env m nd := rfl
        rw [returnsD_other (by simp), hi]
        simp only [H.visitD, dpVisit, List.countP_cons, Event.endAt, beq_self_eq_true, if_true]
        cases hl : isLeaf env m nd <;> simp only [hl, if_true, if_false, Bool.false_eq_true] at h1 ⊢
        · exact ⟨h1, v, h2⟩
        · exact ⟨by omega, v, h2⟩
      | @backed w' args =>
        have hi : isLeaf env m { nd with x := alg.backupD (viewOf env m st nd) (st.ctxOf w') args } = isLeaf env m nd := rfl
        rw [hi]
        simp only [H.backupD]
        refine ⟨?_, ?_⟩
        · have : returnsD d (Event.backedD w' d args :: h) = args.retAfter :: returnsD d h := by simp [returnsD]
          rw [this, List.countP_cons]
          simp only [dpBackupD, viewOf, List.length_cons, Event.endAt, Bool.false_eq_true, if_false, Nat.add_zero]
          rw [h1]
          omega
        · obtain ⟨_, nodes, nd0, hw, _⟩ := eff_backedD E
          obtain ⟨nd1, a, c, nc, k1, k2, k3, k4⟩ := backD_kid I hw
          rw [hd] at k1
          obtain rfl := Option.some.inj k1
          obtain ⟨v', hv', _⟩ := dpBackupD_best (viewOf env m st nd).opp ((viewOf env m st nd).kids.map fun k => py k.2.2)
            (px (viewOf env m st nd).x) (by
              intro k hk
              obtain ⟨q, hq, rfl⟩ := List.mem_map.1 hk
              obtain ⟨c', nc', _, g2, g3⟩ := mem_kidsY.1 hq
              rw [g3]
              exact (D.c c' nc' g2).2) (by
              refine ⟨py nc.y, List.mem_map.2 ⟨(a, nc.visits, nc.y), mem_kidsY.2 ⟨c, nc, k2, k3, rfl⟩, rfl⟩, ?_⟩
              rw [(D.c c nc k3).1]
              simpa using k4)
          exact ⟨v', hv'⟩
    · rw [returnsD_cons _ e h ht, returnsD_nil T.freshD, endAt_cons ht, endAt_zero T.freshD]
      simp only [List.length_nil, ite_self]
      simp only [newD, H.initD, dpInitD]
      exact ⟨trivial, _, rfl⟩
  · intro c nc' hc'
    rcases cn_chg E hc' with ⟨nc, hc, hchg⟩ | ⟨rfl, ht, nd, a, rfl⟩
    · obtain ⟨h1, v, h2⟩ := D.c c nc hc
      cases hchg with
      | same he => rw [returnsC_cons c e h he]; exact ⟨h1, v, h2⟩
      | stepped ho hk =>
        rw [returnsC_other (by simp)]
        simp only [H.visitC]
        exact ⟨h1, v, h2⟩
      | @backed w' args =>
        have : returnsC c (Event.backedC w' c args :: h) = args.retAfter :: returnsC c h := by simp [returnsC]
        rw [this]
        simp only [H.backupC]
        obtain ⟨l, hl, _⟩ := finiteKids_spec ((kidsX st nc).map fun k => px k.2) (by
          intro k hk
          obtain ⟨q, hq, rfl⟩ := List.mem_map.1 hk
          obtain ⟨d', nd', _, g2, g3⟩ := mem_kidsX.1 hq
          rw [g3]
          exact (D.d d' nd' g2).2)
        refine ⟨by simp [h1], ?_⟩
        simp only [hl, Option.map_some]
        exact ⟨_, rfl⟩
    · rw [returnsC_cons _ e h ht, returnsC_nil T.freshC]
      simp [newC, H.initC, dpInitC]

theorem dp_reach_w [IsStrictOrderedRing 𝕜] {env : Env S A 𝕜} {m : Manager S 𝕜} {alg : Alg S A 𝕜 X Y} (hv : alg.Valid) (H : HasDpW alg px py mean)
    {k : Nat} {s0 : S} {dp tm : Int} {tb : List ((Int × S) × Option Nat)} (htb : Leftover tb) {st : St S A 𝕜 X Y} {h : List (Event S A 𝕜)}
    (hr : Reachable env m alg k s0 dp tm tb st h) : Inv env m s0 dp tm st h ∧ Touch st h ∧ DpInv env m px py st h := by
  obtain ⟨ls, hx⟩ := hr
  exact exec_induct (fun s h => Inv env m s0 dp tm s h ∧ Touch s h ∧ DpInv env m px py s h)
    (fun _ _ _ _ _ hp _ E => ⟨inv_eff hv hp.1 E, touch_eff hp.2.1 E, dp_eff_w H hp.1 hp.2.1 hp.2.2 E⟩)
    ⟨inv_init env m alg k s0 dp tm tb htb, ⟨by simp, by simp⟩, dp_init_w H k s0 dp tm tb⟩ hx

variable [IsStrictOrderedRing 𝕜]
  {env : Env S A 𝕜} {m : Manager S 𝕜} {alg : Alg S A 𝕜 X Y} 
  {k : Nat} {s0 : S} {dp tm : Int} {tb : List ((Int × S) × Option Nat)} {st st' : St S A 𝕜 X Y} {h : List (Event S A 𝕜)}

theorem freshVal_eff_w (H : HasDpW alg px py mean) {w : Nat} {e : Event S A 𝕜} (F : FreshVal px st h) (E : Eff env m alg st w e st') :
    FreshVal px st' (e :: h) := by
  intro d nd' hd' hn
  have hv : ∀ b x, (px (alg.visitD b x)).val = (px x).val := by
    intro b x; rw [H.visitD]; cases b <;> rfl
  rcases dn_chg E hd' with ⟨nd, hd, hchg⟩ | ⟨rfl, ht, s, dep, tim, rfl⟩
  · cases hchg with
    | same he => rw [returnsD_cons d e h he] at hn; exact F d nd' hd hn
    | selOld hl ha hf => rw [returnsD_other (by simp)] at hn; simp only [hv]; exact F d nd hd hn
    | selNew hl ha hf => rw [returnsD_other (by simp)] at hn; simp only [hv]; exact F d nd hd hn
    | ended => rw [returnsD_other (by simp)] at hn; simp only [hv]; exact F d nd hd hn
    | backed => simp [returnsD] at hn
  · simp [newD, H.initD, dpInitD]

theorem freshVal_reach_w (H : HasDpW alg px py mean) (hr : Reachable env m alg k s0 dp tm tb st h) : FreshVal px st h := by
  obtain ⟨ls, hx⟩ := hr
  refine exec_induct (FreshVal px) (fun _ _ _ _ _ hp _ E => freshVal_eff_w H hp E) ?_ hx
  intro d nd hd _
  rcases d with _ | d
  · simp [init] at hd
    subst hd
    simp [newD, H.initD, dpInitD]
  · simp [init] at hd

theorem counts_w (hv : alg.Valid) (H : HasDpW alg px py mean) (htb : Leftover tb) (hr : Reachable env m alg k s0 dp tm tb st h) :
    (∀ (d : Nat) nd, st.dn[d]? = some nd →
      (px nd.x).n = 1 + (returnsD d h).length + if isLeaf env m nd then h.countP (Event.endAt d) else 0) ∧
    (∀ (c : Nat) nc, st.cn[c]? = some nc → (py nc.y).n = (returnsC c h).length) := by
  obtain ⟨_, _, D⟩ := dp_reach_w hv H htb hr
  exact ⟨fun d nd hd => (D.d d nd hd).1, fun c nc hc => (D.c c nc hc).1⟩

theorem cntD_weight_w (hv : alg.Valid) (H : HasDpW alg px py mean) (htb : Leftover tb) (hr : Reachable env m alg k s0 dp tm tb st h)
    (hq : Quiescent st) (d : Nat) : cntD px st d = weightD env m st h d := by
  unfold cntD weightD
  cases hd : st.dn[d]? with
  | none => rfl
  | some nd =>
    simp only [Option.map_some, Option.getD_some]
    rw [(counts_w hv H htb hr).1 d nd hd, returns_through hr hq]
    have : trialsEndedAt d h = h.countP (Event.endAt d) := by
      unfold trialsEndedAt
      congr 1
    rw [this]

theorem consistent_w (hv : alg.Valid) (H : HasDpW alg px py mean) (hvis : ∀ x, alg.visitD false x = x)
    (hu : m.useTable = false) (htb : Leftover tb) (hr : Reachable env m alg k s0 dp tm tb st h) (hq : Quiescent st) :
    (∀ (d : Nat) nd, st.dn[d]? = some nd → returnsD d h ≠ [] →
      ∃ v, valD px st d = some v ∧ Best (isOpponent m nd.time) (backedKids py st h d) v) ∧
    (∀ (c : Nat) nc, st.cn[c]? = some nc → returnsC c h ≠ [] →
      ∃ l : List (Nat × 𝕜), nc.kids.map (fun p => (cntD px st p.2, valD px st p.2)) = l.map (fun q => (q.1, some q.2)) ∧
        valC py st c = some (mean nc.state nc.action l)) := by
  obtain ⟨I, _, D⟩ := dp_reach_w hv H htb hr
  have U := reach_uptodate hv hvis hu htb hr
  obtain ⟨fd, fc⟩ := quiescent_free hq
  constructor
  · intro d nd hd hne
    obtain ⟨x0, v0, ctx, args, hx⟩ := U.d d nd hd (fd d) hne
    have hx' : (px nd.x).val = (dpBackupD (isOpponent m nd.time) ((kidsY st nd).map fun k => py k.2.2) (px x0)).val := by
      rw [hx, H.backupD]; rfl
    obtain ⟨_, v, hval⟩ := D.d d nd hd
    refine ⟨v, by simp [valD, hd, hval], ?_⟩
    have hfin : ∀ q ∈ (kidsY st nd).map fun k => py k.2.2, ∃ x, q.val = some x := by
      intro q hq
      obtain ⟨q, hq', rfl⟩ := List.mem_map.1 hq
      obtain ⟨c, nc, _, g2, g3⟩ := mem_kidsY.1 hq'
      obtain ⟨_, v, hv⟩ := D.c c nc g2
      exact ⟨v, by rw [g3]; exact hv⟩
    by_cases hp : ∃ q ∈ (kidsY st nd).map fun k => py k.2.2, q.n ≠ 0
    · obtain ⟨v', g1, g2⟩ := dpBackupD_best (isOpponent m nd.time) _ (px x0) hfin hp
      rw [backed_set I.tree D hd rfl] at g2
      rw [hval, g1] at hx'
      rw [Option.some.inj hx']
      exact g2
    · exfalso
      obtain ⟨l, g1, g2⟩ := finiteKids_spec _ hfin
      have : maxLoop (isOpponent m nd.time) l none = none := by
        have hz : ∀ p ∈ l, p.1 = 0 := by
          intro p hp'
          by_cases h0 : p.1 = 0
          · exact h0
          · exact absurd ⟨_, by rw [g2]; exact List.mem_map_of_mem hp', h0⟩ hp
        clear g1 g2
        induction l with
        | nil => rfl
        | cons p l ih =>
          have h0 : p.1 = 0 := hz p (by simp)
          simp only [maxLoop, h0, if_true]
          exact ih (fun q hq => hz q (by simp [hq]))
      rw [hval] at hx'
      simp [dpBackupD, g1, this] at hx'
  · intro c nc hc hne
    obtain ⟨y0, args, hy⟩ := U.c c nc hc (fc c) hne
    have hy' : (py nc.y).val = (finiteKids ((kidsX st nc).map fun k => px k.2)).map (mean nc.state nc.action) := by
      rw [hy, H.backupC]
    have hfin : ∀ q ∈ (kidsX st nc).map fun k => px k.2, ∃ x, q.val = some x := by
      intro q hq
      obtain ⟨q, hq', rfl⟩ := List.mem_map.1 hq
      obtain ⟨d, nd, _, g2, g3⟩ := mem_kidsX.1 hq'
      obtain ⟨_, v, hv⟩ := D.d d nd g2
      exact ⟨v, by rw [g3]; exact hv⟩
    obtain ⟨l, g1, g2⟩ := finiteKids_spec _ hfin
    refine ⟨l, ?_, ?_⟩
    · have key : nc.kids.map (fun p => (cntD px st p.2, valD px st p.2)) = ((kidsX st nc).map fun k => px k.2).map fun y => (y.n, y.val) := by
        have hall : ∀ p ∈ nc.kids, ∃ nd, st.dn[p.2]? = some nd := by
          intro p hp
          obtain ⟨o, d⟩ := p
          obtain ⟨_, nd, _, h1, _⟩ := childD_facts I.tree (childD_of_mem I.tree hc hp)
          exact ⟨nd, h1⟩
        unfold kidsX
        generalize nc.kids = ks at hall
        induction ks with
        | nil => rfl
        | cons p ks ih =>
          obtain ⟨nd, hnd⟩ := hall p (by simp)
          simp only [List.map_cons, List.filterMap_cons, hnd, Option.map_some]
          rw [ih (fun q hq => hall q (by simp [hq]))]
          simp [cntD, valD, hnd]
      rw [key, g2]
      simp
    · rw [g1] at hy'
      simp [valC, hc, hy']

end Verif.Backups
