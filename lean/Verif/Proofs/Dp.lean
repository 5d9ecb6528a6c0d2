import Verif.Proofs.Backups
import Verif.Proofs.SearchPrefix

/-! # DP values during a search -/

namespace Verif.Backups

open Verif.Search

set_option linter.unusedSimpArgs false
set_option linter.unusedSectionVars false

variable {S A 𝕜 X Y : Type} [DecidableEq S] [DecidableEq A]

/-! ## Reading the history -/

theorem trialOf_sub {w : Nat} {h : List (Event S A 𝕜)} {e : Event S A 𝕜} (he : e ∈ trialOf w h) : e ∈ h := by
  induction h with
  | nil => simp [trialOf] at he
  | cons e' h ih =>
    unfold trialOf at he
    split at he
    · split at he
      · simp at he
      · rcases List.mem_cons.1 he with rfl | he
        · simp
        · exact List.mem_cons_of_mem _ (ih he)
    · exact List.mem_cons_of_mem _ (ih he)

theorem callsOf_chance {w c : Nat} {h : List (Event S A 𝕜)} {args : BArgs 𝕜} (hm : Call.chance c args ∈ callsOf w h) :
    ∃ w', Event.backedC w' c args ∈ h := by
  unfold callsOf at hm
  rw [List.mem_reverse] at hm
  obtain ⟨e, he, hc⟩ := List.mem_filterMap.1 hm
  cases e <;> simp [Event.call?] at hc
  obtain ⟨rfl, rfl⟩ := hc
  exact ⟨_, trialOf_sub he⟩

theorem mem_returnsC {w c : Nat} {h : List (Event S A 𝕜)} {args : BArgs 𝕜} (hm : Event.backedC w c args ∈ h) :
    args.retAfter ∈ returnsC c h := by
  unfold returnsC
  exact List.mem_filterMap.2 ⟨_, hm, by simp⟩

theorem mem_kidsY {st : St S A 𝕜 X Y} {nd : DNode S A 𝕜 X} {k : A × Nat × Y} :
    k ∈ kidsY st nd ↔ ∃ c nc, (k.1, c) ∈ nd.kids ∧ st.cn[c]? = some nc ∧ k.2 = (nc.visits, nc.y) := by
  unfold kidsY
  rw [List.mem_filterMap]
  constructor
  · rintro ⟨⟨a, c⟩, h1, h2⟩
    rw [Option.map_eq_some_iff] at h2
    obtain ⟨nc, h2, rfl⟩ := h2
    exact ⟨c, nc, h1, h2, rfl⟩
  · rintro ⟨c, nc, h1, h2, h3⟩
    obtain ⟨a, k⟩ := k
    dsimp only at h1 h3
    exact ⟨(a, c), h1, by simp [h2, h3]⟩

theorem mem_kidsX {st : St S A 𝕜 X Y} {nc : CNode S A 𝕜 Y} {k : S × X} :
    k ∈ kidsX st nc ↔ ∃ d nd, (k.1, d) ∈ nc.kids ∧ st.dn[d]? = some nd ∧ k.2 = nd.x := by
  unfold kidsX
  rw [List.mem_filterMap]
  constructor
  · rintro ⟨⟨o, d⟩, h1, h2⟩
    rw [Option.map_eq_some_iff] at h2
    obtain ⟨nd, h2, rfl⟩ := h2
    exact ⟨d, nd, h1, h2, rfl⟩
  · rintro ⟨d, nd, h1, h2, h3⟩
    obtain ⟨o, k⟩ := k
    dsimp only at h1 h3
    exact ⟨(o, d), h1, by simp [h2, h3]⟩

/-- The event `backedD` happens in phase `backD`. -/
theorem eff_backedD [Add 𝕜] [Zero 𝕜] {env : Env S A 𝕜} {m : Manager S 𝕜} {alg : Alg S A 𝕜 X Y} {st st' : St S A 𝕜 X Y} {w w' d : Nat}
    {args : BArgs 𝕜} (E : Eff env m alg st w (.backedD w' d args) st') :
    w' = w ∧ ∃ nodes nd, st.ws[w]? = some (.backD d nodes args.before args.after args.retAfter args.total) ∧ st.dn[d]? = some nd ∧
      st' = { st with dn := st.dn.set d { nd with x := alg.backupD (viewOf env m st nd) (st.ctxOf w) args },
                      ws := st.ws.set w (.back nodes args.before args.after args.retAfter args.total) } := by
  cases E with
  | backedD hw hd => exact ⟨rfl, _, _, hw, hd, rfl⟩

theorem eff_backedC [Add 𝕜] [Zero 𝕜] {env : Env S A 𝕜} {m : Manager S 𝕜} {alg : Alg S A 𝕜 X Y} {st st' : St S A 𝕜 X Y} {w w' c : Nat}
    {args : BArgs 𝕜} (E : Eff env m alg st w (.backedC w' c args) st') :
    w' = w ∧ ∃ nodes d r aft ret nc, st.ws[w]? = some (.back (nodes ++ [(d, c)]) (args.before ++ [r]) aft ret args.total) ∧
      args.after = aft ++ [r] ∧ args.retAfter = ret + r ∧ st.cn[c]? = some nc ∧
      st' = { st with cn := st.cn.set c { nc with y := alg.backupC nc.state nc.action nc.y (kidsX st nc) args },
                      ws := st.ws.set w (.backD d nodes args.before args.after args.retAfter args.total) } := by
  cases E with
  | backedC hw hc => exact ⟨rfl, _, _, _, _, _, _, hw, rfl, rfl, hc, rfl⟩

/-- When a decision node is about to be backed up, one of its children has been backed up. -/
theorem backD_kid [AddMonoid 𝕜] {env : Env S A 𝕜} {m : Manager S 𝕜} {s0 : S} {dp tm : Int} {st : St S A 𝕜 X Y}
    {h : List (Event S A 𝕜)} (I : Inv env m s0 dp tm st h) {w d : Nat} {nodes : List (Nat × Nat)} {before after : List 𝕜} {ret tot : 𝕜}
    (hw : st.ws[w]? = some (.backD d nodes before after ret tot)) :
    ∃ nd a c nc, st.dn[d]? = some nd ∧ (a, c) ∈ nd.kids ∧ st.cn[c]? = some nc ∧ returnsC c h ≠ [] := by
  obtain ⟨e, hv, j, s, h1, h2, h3, h4, h5, h6, h7, h8, h9, h10, h11⟩ := I.ws w _ hw
  have hs : s ∈ stepsOf w h := List.mem_of_getElem? h1
  obtain ⟨g1, _⟩ := isPath_mem h4.1 s hs
  obtain ⟨nd, nc, k1, k2, k3, _⟩ := childC_facts I.tree g1
  subst h2
  refine ⟨nd, s.a, s.c, nc, k1, k3, k2, ?_⟩
  have : Call.chance s.c (argsAt ((stepsOf w h).map Step.r) hv j) ∈ callsOf w h := by rw [h11]; simp
  obtain ⟨w', hb⟩ := callsOf_chance this
  exact List.ne_nil_of_mem (mem_returnsC hb)

/-! ## Finite values -/

variable [Field 𝕜] [LinearOrder 𝕜]

structure DpInv (env : Env S A 𝕜) (m : Manager S 𝕜) (px : X → Dp 𝕜) (py : Y → Dp 𝕜) (st : St S A 𝕜 X Y) (h : List (Event S A 𝕜)) : Prop where
  d : ∀ (d : Nat) (nd : DNode S A 𝕜 X), st.dn[d]? = some nd →
    (px nd.x).n = 1 + (returnsD d h).length + (if isLeaf env m nd then h.countP (Event.endAt d) else 0) ∧ ∃ v, (px nd.x).val = some v
  c : ∀ (c : Nat) (nc : CNode S A 𝕜 Y), st.cn[c]? = some nc → (py nc.y).n = (returnsC c h).length ∧ ∃ v, (py nc.y).val = some v

theorem endAt_zero {d : Nat} {h : List (Event S A 𝕜)} (hh : ∀ e ∈ h, e.touchesD d = false) : h.countP (Event.endAt d) = 0 := by
  refine countP_zero_of fun e he => ?_
  have := hh e he
  cases e <;> simp [Event.touchesD, Event.endAt] at this ⊢
  exact this

theorem endAt_cons {d : Nat} {e : Event S A 𝕜} {h : List (Event S A 𝕜)} (he : e.touchesD d = false) :
    (e :: h).countP (Event.endAt d) = h.countP (Event.endAt d) := by
  rw [List.countP_cons]
  cases e <;> simp [Event.touchesD, Event.endAt] at he ⊢
  exact he

theorem returnsD_other {d : Nat} {e : Event S A 𝕜} {h : List (Event S A 𝕜)} (he : ∀ w args, e ≠ .backedD w d args) :
    returnsD d (e :: h) = returnsD d h := by
  unfold returnsD
  rw [List.filterMap_cons]
  cases e <;> simp
  rename_i w d' args
  have hne : d' ≠ d := fun hd => by subst hd; exact absurd rfl (he w args)
  simp [hne]

theorem returnsC_other {c : Nat} {e : Event S A 𝕜} {h : List (Event S A 𝕜)} (he : ∀ w args, e ≠ .backedC w c args) :
    returnsC c (e :: h) = returnsC c h := by
  unfold returnsC
  rw [List.filterMap_cons]
  cases e <;> simp
  rename_i w d' args
  have hne : d' ≠ c := fun hd => by subst hd; exact absurd rfl (he w args)
  simp [hne]

variable {px : X → Dp 𝕜} {py : Y → Dp 𝕜} {lr : S → A → 𝕜}

theorem dp_init {env : Env S A 𝕜} {m : Manager S 𝕜} {alg : Alg S A 𝕜 X Y} (H : HasDp alg px py lr) (k : Nat) (s0 : S) (dp tm : Int)
    (tb : List ((Int × S) × Option Nat)) : DpInv env m px py (init env m alg k s0 dp tm tb) [] := by
  constructor
  · intro d nd hd
    rcases d with _ | d
    · simp [init] at hd
      subst hd
      simp only [returnsD, List.filterMap_nil, List.length_nil, List.countP_nil, ite_self]
      simp only [newD, H.initD, dpInitD]
      exact ⟨trivial, _, rfl⟩
    · simp [init] at hd
  · intro c nc hc
    simp [init] at hc

theorem dp_eff [IsStrictOrderedRing 𝕜] {env : Env S A 𝕜} {m : Manager S 𝕜} {alg : Alg S A 𝕜 X Y} (H : HasDp alg px py lr) {s0 : S} {dp tm : Int}
    {st st' : St S A 𝕜 X Y} {h : List (Event S A 𝕜)} {w : Nat} {e : Event S A 𝕜} (I : Inv env m s0 dp tm st h) (T : Touch st h)
    (D : DpInv env m px py st h) (E : Eff env m alg st w e st') : DpInv env m px py st' (e :: h) := by
  constructor
  · intro d nd' hd'
    rcases dn_chg E hd' with ⟨nd, hd, hchg⟩ | ⟨rfl, ht, s, dep, tim, rfl⟩
    · obtain ⟨h1, v, h2⟩ := D.d d nd hd
      cases hchg with
      | same he => rw [returnsD_cons d e h he, endAt_cons he]; exact ⟨h1, v, h2⟩
      | selOld hl ha hf =>
        have hl' := hl
        simp only [isLeaf] at hl' h1 ⊢
        simp only [returnsD, List.filterMap_cons, H.visitD, dpVisit, hl', if_false, Bool.false_eq_true] at h1 ⊢
        exact ⟨h1, v, h2⟩
      | selNew hl ha hf =>
        have hl' := hl
        simp only [isLeaf] at hl' h1 ⊢
        simp only [returnsD, List.filterMap_cons, H.visitD, dpVisit, hl', if_false, Bool.false_eq_true] at h1 ⊢
        exact ⟨h1, v, h2⟩
      | ended =>
        have hi : isLeaf env m { nd with visits := nd.visits + 1, x := alg.visitD (isLeaf env m nd) nd.x } = isLeaf env m nd := rfl
        rw [returnsD_other (by simp), hi]
        simp only [H.visitD, dpVisit, List.countP_cons, Event.endAt, beq_self_eq_true, if_true]
        cases hl : isLeaf env m nd <;> simp only [hl, if_true, if_false, Bool.false_eq_true] at h1 ⊢
        · exact ⟨h1, v, h2⟩
        · exact ⟨by omega, v, h2⟩
      | @backed w' args =>
        have hi : isLeaf env m { nd with x := alg.backupD (viewOf env m st nd) (st.ctxOf w') args } = isLeaf env m nd := rfl
        rw [hi]
        simp only [H.backupD]
        refine ⟨?_, ?_⟩
        · have : returnsD d (Event.backedD w' d args :: h) = args.retAfter :: returnsD d h := by simp [returnsD]
          rw [this, List.countP_cons]
          simp only [dpBackupD, viewOf, List.length_cons, Event.endAt, Bool.false_eq_true, if_false, Nat.add_zero]
          rw [h1]
          omega
        · obtain ⟨_, nodes, nd0, hw, _⟩ := eff_backedD E
          obtain ⟨nd1, a, c, nc, k1, k2, k3, k4⟩ := backD_kid I hw
          rw [hd] at k1
          obtain rfl := Option.some.inj k1
          obtain ⟨v', hv', _⟩ := dpBackupD_best (viewOf env m st nd).opp ((viewOf env m st nd).kids.map fun k => py k.2.2)
            (px (viewOf env m st nd).x) (by
              intro k hk
              obtain ⟨q, hq, rfl⟩ := List.mem_map.1 hk
              obtain ⟨c', nc', _, g2, g3⟩ := mem_kidsY.1 hq
              rw [g3]
              exact (D.c c' nc' g2).2) (by
              refine ⟨py nc.y, List.mem_map.2 ⟨(a, nc.visits, nc.y), mem_kidsY.2 ⟨c, nc, k2, k3, rfl⟩, rfl⟩, ?_⟩
              rw [(D.c c nc k3).1]
              simpa using k4)
          exact ⟨v', hv'⟩
    · rw [returnsD_cons _ e h ht, returnsD_nil T.freshD, endAt_cons ht, endAt_zero T.freshD]
      simp only [List.length_nil, ite_self]
      simp only [newD, H.initD, dpInitD]
      exact ⟨trivial, _, rfl⟩
  · intro c nc' hc'
    rcases cn_chg E hc' with ⟨nc, hc, hchg⟩ | ⟨rfl, ht, nd, a, rfl⟩
    · obtain ⟨h1, v, h2⟩ := D.c c nc hc
      cases hchg with
      | same he => rw [returnsC_cons c e h he]; exact ⟨h1, v, h2⟩
      | stepped ho hk =>
        rw [returnsC_other (by simp)]
        simp only [H.visitC]
        exact ⟨h1, v, h2⟩
      | @backed w' args =>
        have : returnsC c (Event.backedC w' c args :: h) = args.retAfter :: returnsC c h := by simp [returnsC]
        rw [this]
        simp only [H.backupC]
        obtain ⟨l, hl, _⟩ := finiteKids_spec ((kidsX st nc).map fun k => px k.2) (by
          intro k hk
          obtain ⟨q, hq, rfl⟩ := List.mem_map.1 hk
          obtain ⟨d', nd', _, g2, g3⟩ := mem_kidsX.1 hq
          rw [g3]
          exact (D.d d' nd' g2).2)
        refine ⟨by simp [dpBackupC, h1], ?_⟩
        simp only [dpBackupC, hl, Option.map_some]
        exact ⟨_, rfl⟩
    · rw [returnsC_cons _ e h ht, returnsC_nil T.freshC]
      simp [newC, H.initC, dpInitC]

theorem dp_reach [IsStrictOrderedRing 𝕜] {env : Env S A 𝕜} {m : Manager S 𝕜} {alg : Alg S A 𝕜 X Y} (hv : alg.Valid) (H : HasDp alg px py lr)
    {k : Nat} {s0 : S} {dp tm : Int} {tb : List ((Int × S) × Option Nat)} (htb : Leftover tb) {st : St S A 𝕜 X Y} {h : List (Event S A 𝕜)}
    (hr : Reachable env m alg k s0 dp tm tb st h) : Inv env m s0 dp tm st h ∧ Touch st h ∧ DpInv env m px py st h := by
  obtain ⟨ls, hx⟩ := hr
  exact exec_induct (fun s h => Inv env m s0 dp tm s h ∧ Touch s h ∧ DpInv env m px py s h)
    (fun _ _ _ _ _ hp _ E => ⟨inv_eff hv hp.1 E, touch_eff hp.2.1 E, dp_eff H hp.1 hp.2.1 hp.2.2 E⟩)
    ⟨inv_init env m alg k s0 dp tm tb htb, ⟨by simp, by simp⟩, dp_init H k s0 dp tm tb⟩ hx

end Verif.Backups
