import Verif.Proofs.Visits
import Verif.Proofs.SearchBack
import Verif.Proofs.Dp
import Verif.Props.RandomSearch
import Verif.Spec.Ints

/-! # Bounds on counters (C92) -/

namespace Verif.Search

set_option linter.unusedSimpArgs false
set_option linter.unusedSectionVars false

variable {S A R X Y : Type} [DecidableEq S] [DecidableEq A] [AddMonoid R]
variable {env : Env S A R} {m : Manager S R} {alg : Alg S A R X Y} {k : Nat} {s0 : S} {dp tm : Int}
  {tb : List ((Int × S) × Option Nat)} {st : St S A R X Y} {h : List (Event S A R)} {cd : X → Nat} {cc : Y → Nat} {c0 : Nat}

theorem endAt_cons' {d : Nat} {e : Event S A R} {h : List (Event S A R)} (he : e.touchesD d = false) :
    (e :: h).countP (Event.endAt d) = h.countP (Event.endAt d) := by
  rw [List.countP_cons]
  cases e <;> simp [Event.touchesD, Event.endAt] at he ⊢
  assumption

theorem returnsD_other' {d : Nat} {e : Event S A R} {h : List (Event S A R)} (he : ∀ w args, e ≠ .backedD w d args) :
    returnsD d (e :: h) = returnsD d h := by
  unfold returnsD
  rw [List.filterMap_cons]
  cases e <;> simp_all

theorem returnsC_other' {c : Nat} {e : Event S A R} {h : List (Event S A R)} (he : ∀ w args, e ≠ .backedC w c args) :
    returnsC c (e :: h) = returnsC c h := by
  unfold returnsC
  rw [List.filterMap_cons]
  cases e <;> simp_all

structure CtInv (cd : X → Nat) (cc : Y → Nat) (c0 : Nat) (st : St S A R X Y) (h : List (Event S A R)) : Prop where
  d : ∀ (d : Nat) nd, st.dn[d]? = some nd → cd nd.x ≤ c0 + (returnsD d h).length + h.countP (Event.endAt d)
  c : ∀ (c : Nat) nc, st.cn[c]? = some nc → cc nc.y ≤ c0 + (returnsC c h).length

theorem ct_eff (H : IsCounter alg cd cc c0) {st' : St S A R X Y} {w : Nat} {e : Event S A R} (T : Touch st h) (D : CtInv cd cc c0 st h)
    (E : Eff env m alg st w e st') : CtInv cd cc c0 st' (e :: h) := by
  constructor
  · intro d nd' hd'
    rcases dn_chg E hd' with ⟨nd, hd, hchg⟩ | ⟨rfl, ht, s, dep, tim, rfl⟩
    · have h1 := D.d d nd hd
      cases hchg with
      | same he => rw [returnsD_cons d e h he, endAt_cons' he]; exact h1
      | selOld hl ha hf =>
        rw [returnsD_other' (by simp), List.countP_cons]
        have := H.visitD false nd.x
        simp only [Bool.false_eq_true, if_false] at this
        simp only [hl] at *
        omega
      | selNew hl ha hf =>
        rw [returnsD_other' (by simp), List.countP_cons]
        have := H.visitD false nd.x
        simp only [Bool.false_eq_true, if_false] at this
        simp only [hl] at *
        omega
      | ended =>
        rw [returnsD_other' (by simp)]
        simp only [List.countP_cons, Event.endAt, beq_self_eq_true, if_true]
        have := H.visitD (isLeaf env m nd) nd.x
        split at this <;> omega
      | @backed w' args =>
        have : returnsD d (Event.backedD w' d args :: h) = args.retAfter :: returnsD d h := by simp [returnsD]
        rw [this, List.countP_cons, List.length_cons]
        have h2 := H.backupD (viewOf env m st nd) (st.ctxOf w') args
        simp only [viewOf] at h2 ⊢
        omega
    · have := H.initD s dep tim (heurOf env m s)
      simp only [newD] at this ⊢
      omega
  · intro c nc' hc'
    rcases cn_chg E hc' with ⟨nc, hc, hchg⟩ | ⟨rfl, ht, nd, a, rfl⟩
    · have h1 := D.c c nc hc
      cases hchg with
      | same he => rw [returnsC_cons c e h he]; exact h1
      | stepped ho hk =>
        rw [returnsC_other' (by simp)]
        have := H.visitC nc.y
        dsimp only
        omega
      | @backed w' args =>
        have : returnsC c (Event.backedC w' c args :: h) = args.retAfter :: returnsC c h := by simp [returnsC]
        rw [this, List.length_cons]
        have h2 := H.backupC nc.state nc.action nc.y (kidsX st nc) args
        dsimp only
        omega
    · have := H.initC nd.state a nd.depth nd.time
      simp only [newC] at this ⊢
      omega

theorem ct_reach (H : IsCounter alg cd cc c0) (hr : Reachable env m alg k s0 dp tm tb st h) : CtInv cd cc c0 st h := by
  obtain ⟨ls, hx⟩ := hr
  refine (exec_induct (fun s h => Touch s h ∧ CtInv cd cc c0 s h) (fun _ _ _ _ _ hp _ E => ⟨touch_eff hp.1 E, ct_eff H hp.1 hp.2 E⟩)
    ⟨⟨by simp, by simp⟩, ?_, ?_⟩ hx).2
  · intro d nd hd
    rcases d with _ | d
    · simp [init] at hd
      subst hd
      have := H.initD s0 dp tm (heurOf env m s0)
      simp only [newD] at this ⊢
      omega
    · simp [init] at hd
  · intro c nc hc
    simp [init] at hc

/-- Trials through or into a decision node are at most the trials begun. -/
theorem through_le (hv : alg.Valid) (htb : Leftover tb) (hr : Reachable env m alg k s0 dp tm tb st h) {d : Nat} {nd : DNode S A R X}
    (hd : st.dn[d]? = some nd) : h.countP (Event.selAt d) + h.countP (Event.endAt d) ≤ trialsBegun h := by
  have h1 := c13_visits_at_most_trials hv htb hr hd
  have h2 := (reach_both hv htb hr).2.v1 d nd hd
  omega

theorem via_le (hv : alg.Valid) (htb : Leftover tb) (hr : Reachable env m alg k s0 dp tm tb st h) {c : Nat} {nc : CNode S A R Y}
    (hc : st.cn[c]? = some nc) : h.countP (Event.stepVia c) ≤ trialsBegun h := by
  obtain ⟨I, C⟩ := reach_both hv htb hr
  obtain ⟨d, hd⟩ := (c14_parents hv htb hr).2.1 c nc hc
  obtain ⟨nd, _, h1, _⟩ := childC_facts I.tree hd
  have h2 := through_le hv htb hr h1
  have h3 := C.v3 c
  have h4 : h.countP (Event.selVia c) ≤ h.countP (Event.selAt d) := by
    apply List.countP_mono_left
    intro e he hs
    cases e with
    | selected w d' a' c' =>
      have hcc : c' = c := by simpa [Event.selVia] using hs
      subst hcc
      have := ((c14_parents hv htb hr).2.2.1 d' d a' _ _ (C.evSel w d' a' c' he) hd).1
      subst this
      simp [Event.selAt]
    | _ => simp [Event.selVia] at hs
  omega

end Verif.Search
