import Verif.Proofs.SoftTree

/-! # Nodes that no trial went on from: helper facts for C69 -/

namespace Verif.Search

set_option linter.unusedSimpArgs false
set_option linter.unusedSectionVars false

variable {S A 𝕜 X Y : Type} [DecidableEq S] [DecidableEq A] [AddMonoid 𝕜]
  {env : Env S A 𝕜} {m : Manager S 𝕜} {alg : Alg S A 𝕜 X Y}
  {k : Nat} {s0 : S} {dp tm : Int} {tb : List ((Int × S) × Option Nat)} {st : St S A 𝕜 X Y} {h : List (Event S A 𝕜)}

/-- With mcts mode off no trial ends at a node that is not a leaf. -/
theorem ended_leaf (hm : m.mctsMode = false) (hr : Reachable env m alg k s0 dp tm tb st h) :
    ∀ (d : Nat) nd, st.dn[d]? = some nd → isLeaf env m nd = false → d < st.dn.length ∧ h.countP (Event.endAt d) = 0 := by
  obtain ⟨ls, hx⟩ := hr
  refine (exec_induct (fun st h => (∀ d, st.dn.length ≤ d → h.countP (Event.endAt d) = 0) ∧
    ∀ (d : Nat) nd, st.dn[d]? = some nd → isLeaf env m nd = false → d < st.dn.length ∧ h.countP (Event.endAt d) = 0)
    ?_ ?_ hx).2
  · intro st h w e st' ⟨ih0, ih⟩ _ E
    have hlen : st.dn.length ≤ st'.dn.length := by
      cases E <;> simp
    constructor
    · intro d hd
      rw [List.countP_cons, ih0 d (by omega)]
      cases E <;> simp [Event.endAt] at hd ⊢
      rename_i hd' hs
      have := (List.getElem?_eq_some_iff.1 hd').1
      omega
    · intro d nd' hd' hl
      refine ⟨(List.getElem?_eq_some_iff.1 hd').1, ?_⟩
      have key : ∀ w' d v, e = .ended w' d v → ∃ nd, st.dn[d]? = some nd ∧ isLeaf env m nd = true := by
        intro w' d v he
        cases E <;> simp at he
        rename_i hd2 hs
        obtain ⟨rfl, rfl, rfl⟩ := he
        refine ⟨_, hd2, ?_⟩
        rcases hs with hs | hs
        · exact hs
        · simp [hm] at hs
      rcases dn_chg E hd' with ⟨nd, hd, hchg⟩ | ⟨rfl, ht, _⟩
      · cases hchg with
        | same he =>
          have h1 := (ih d nd' hd hl).2
          rw [List.countP_cons, h1]
          cases e <;> simp [Event.touchesD, Event.endAt] at he ⊢
          exact he
        | selOld hl' ha hf => rw [List.countP_cons, (ih d nd hd hl).2]; simp [Event.endAt]
        | selNew hl' ha hf => rw [List.countP_cons, (ih d nd hd hl).2]; simp [Event.endAt]
        | ended =>
          exfalso
          obtain ⟨nd2, hd2, hs⟩ := key _ _ _ rfl
          rw [hd] at hd2
          obtain rfl := Option.some.inj hd2
          rw [show isLeaf env m nd = false from hl] at hs
          simp at hs
        | backed => rw [List.countP_cons, (ih d nd hd hl).2]; simp [Event.endAt]
      · rw [List.countP_cons, ih0 _ le_rfl]
        cases e <;> simp [Event.touchesD, Event.endAt] at ht ⊢
        exact ht
  · constructor
    · simp
    · intro d nd hd _
      exact ⟨(List.getElem?_eq_some_iff.1 hd).1, by simp⟩

/-- Every outcome recorded at a chance node was observed by some trial. -/
theorem kid_stepped (hr : Reachable env m alg k s0 dp tm tb st h) :
    ∀ (c : Nat) nc, st.cn[c]? = some nc → ∀ p ∈ nc.kids, 0 < h.countP (Event.stepInto p.2) := by
  obtain ⟨ls, hx⟩ := hr
  refine exec_induct (fun st h => ∀ (c : Nat) nc, st.cn[c]? = some nc → ∀ p ∈ nc.kids, 0 < h.countP (Event.stepInto p.2))
    ?_ ?_ hx
  · intro st h w e st' ih _ E c nc' hc p hp
    have mono : 0 < h.countP (Event.stepInto p.2) → 0 < (e :: h).countP (Event.stepInto p.2) := by
      rw [List.countP_cons]; omega
    rcases cn_chg E hc with ⟨nc, hc0, hchg⟩ | ⟨rfl, ht, nd, a, rfl⟩
    · cases hchg with
      | same he => exact mono (ih c nc' hc0 p hp)
      | stepped ho hk =>
        rcases hk with ⟨_, _, rfl⟩ | ⟨_, _, rfl⟩
        · exact mono (ih c nc hc0 p hp)
        · rcases List.mem_append.1 hp with hp | hp
          · exact mono (ih c nc hc0 p hp)
          · obtain rfl := List.mem_singleton.1 hp
            simp [List.countP_cons, Event.stepInto]
      | backed => exact mono (ih c nc hc0 p hp)
    · simp [newC] at hp
  · intro c nc hc
    simp [init] at hc

end Verif.Search

namespace Verif.Backups

open Verif.Search

set_option linter.unusedSectionVars false

variable {S A 𝕜 X Y : Type} [DecidableEq S] [DecidableEq A] [Field 𝕜] [LinearOrder 𝕜] [IsStrictOrderedRing 𝕜]
  {env : Env S A 𝕜} {m : Manager S 𝕜} {alg : Alg S A 𝕜 X Y}
  {k : Nat} {s0 : S} {dp tm : Int} {tb : List ((Int × S) × Option Nat)} {st : St S A 𝕜 X Y} {h : List (Event S A 𝕜)}

/-- Behind every action tried by a finished trial there is a successor. -/
theorem kids_ne (hv : alg.Valid) (htb : Leftover tb) (hr : Reachable env m alg k s0 dp tm tb st h) (hq : Quiescent st)
    {d c : Nat} {a : A} {nc : CNode S A 𝕜 Y} (hc : childC st d a = some c) (hnc : st.cn[c]? = some nc) : nc.kids ≠ [] := by
  intro h0
  have hb := (c39_children_backed hv htb hr hq hc).2
  have h1 := (reach_bk hr).1.c c
  have h2 := List.length_pos_iff.2 hb
  have h3 : 0 < h.countP (Event.stepVia c) := by omega
  obtain ⟨e, he, hs⟩ := List.countP_pos_iff.1 h3
  cases e with
  | stepped w d1 a1 c1 o1 d1' r g =>
    have hcc : c1 = c := by simpa [Event.stepVia] using hs
    subst hcc
    obtain ⟨nc2, _, f1, _, f3, _⟩ := childD_facts (reach_inv hv htb hr).tree ((reach_both hv htb hr).2.evStep w d1 a1 c1 o1 d1' r g he).1
    rw [hnc] at f1
    obtain rfl := Option.some.inj f1
    rw [h0] at f3
    simp at f3
  | _ => simp [Event.stepVia] at hs

end Verif.Backups

namespace Verif.Ments

open Verif.Search Verif.Backups

set_option linter.unusedSectionVars false

variable {S A X Y : Type} [DecidableEq S] [DecidableEq A]
  {env : Env S A ℝ} {m : Manager S ℝ} {alg : Alg S A ℝ X Y}
  {k : Nat} {s0 : S} {dp tm : Int} {tb : List ((Int × S) × Option Nat)} {st : St S A ℝ X Y} {h : List (Event S A ℝ)}

theorem softWeight_full (hm : m.mctsMode = false) (hv : alg.Valid) (htb : Leftover tb) (hr : Reachable env m alg k s0 dp tm tb st h) (hq : Quiescent st)
    {c : Nat} {nc : CNode S A ℝ Y} (hc : st.cn[c]? = some nc) {p : S × Nat} (hp : p ∈ nc.kids) : softWeight env m st h p.2 ≠ 0 := by
  obtain ⟨I, C⟩ := reach_both hv htb hr
  have h1 := kid_stepped hr c nc hc p hp
  obtain ⟨_, nd, _, g2, _⟩ := childD_facts I.tree (childD_of_mem I.tree hc (show (p.1, p.2) ∈ nc.kids from hp))
  have hth : trialsThrough p.2 h = h.countP (Event.selAt p.2) := by
    unfold trialsThrough
    congr 1
    funext e
    cases e <;> rfl
  have hte : trialsEndedAt p.2 h = h.countP (Event.endAt p.2) := by
    unfold trialsEndedAt
    congr 1
  have z : st.ws.countP (Phase.inSel p.2) = 0 := by
    rw [List.countP_eq_zero]
    intro q hq'
    obtain ⟨w, hw⟩ := List.mem_iff_getElem?.1 hq'
    rw [hq w q hw]
    simp [Phase.inSel]
  have h4 := C.v4 p.2
  unfold softWeight
  rw [g2]
  simp only [hth, hte]
  cases hl : isLeaf env m nd with
  | true => simp only [if_true]; omega
  | false =>
    have := (ended_leaf hm hr p.2 nd g2 hl).2
    simp only [Bool.false_eq_true, if_false]
    omega

end Verif.Ments
