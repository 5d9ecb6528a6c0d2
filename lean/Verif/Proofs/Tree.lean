import Verif.Props.Dp
import Verif.Spec.Tree

/-! # The DP value of a node that was never backed up is its heuristic value -/

namespace Verif.Backups

open Verif.Search

set_option linter.unusedSimpArgs false
set_option linter.unusedSectionVars false

variable {S A 𝕜 X Y : Type} [DecidableEq S] [DecidableEq A] [Field 𝕜] [LinearOrder 𝕜] [IsStrictOrderedRing 𝕜]
  {env : Env S A 𝕜} {m : Manager S 𝕜} {alg : Alg S A 𝕜 X Y} {px : X → Dp 𝕜} {py : Y → Dp 𝕜} {lr : S → A → 𝕜}
  {k : Nat} {s0 : S} {dp tm : Int} {tb : List ((Int × S) × Option Nat)} {st st' : St S A 𝕜 X Y} {h : List (Event S A 𝕜)}

def FreshVal (px : X → Dp 𝕜) (st : St S A 𝕜 X Y) (h : List (Event S A 𝕜)) : Prop :=
  ∀ (d : Nat) nd, st.dn[d]? = some nd → returnsD d h = [] → (px nd.x).val = some nd.heur

theorem freshVal_eff (H : HasDp alg px py lr) {w : Nat} {e : Event S A 𝕜} (F : FreshVal px st h) (E : Eff env m alg st w e st') :
    FreshVal px st' (e :: h) := by
  intro d nd' hd' hn
  have hv : ∀ b x, (px (alg.visitD b x)).val = (px x).val := by
    intro b x; rw [H.visitD]; cases b <;> rfl
  rcases dn_chg E hd' with ⟨nd, hd, hchg⟩ | ⟨rfl, ht, s, dep, tim, rfl⟩
  · cases hchg with
    | same he => rw [returnsD_cons d e h he] at hn; exact F d nd' hd hn
    | selOld hl ha hf => rw [returnsD_other (by simp)] at hn; simp only [hv]; exact F d nd hd hn
    | selNew hl ha hf => rw [returnsD_other (by simp)] at hn; simp only [hv]; exact F d nd hd hn
    | ended => rw [returnsD_other (by simp)] at hn; simp only [hv]; exact F d nd hd hn
    | backed => simp [returnsD] at hn
  · simp [newD, H.initD, dpInitD]

theorem freshVal_reach (H : HasDp alg px py lr) (hr : Reachable env m alg k s0 dp tm tb st h) : FreshVal px st h := by
  obtain ⟨ls, hx⟩ := hr
  refine exec_induct (FreshVal px) (fun _ _ _ _ _ hp _ E => freshVal_eff H hp E) ?_ hx
  intro d nd hd _
  rcases d with _ | d
  · simp [init] at hd
    subst hd
    simp [newD, H.initD, dpInitD]
  · simp [init] at hd

theorem bestOf_eq {opp : Bool} {l : List 𝕜} {v : 𝕜} (h : Best opp {x | x ∈ l} v) : bestOf opp l = v := by
  unfold Best at h
  unfold bestOf
  cases opp
  · simp only [Bool.false_eq_true, if_false] at h ⊢
    rw [List.max?_eq_some_iff.2 ⟨h.1, fun b hb => h.2 hb⟩]; rfl
  · simp only [if_true] at h ⊢
    rw [List.min?_eq_some_iff.2 ⟨h.1, fun b hb => h.2 hb⟩]; rfl

/-- Backups at a node when nobody is in a trial: one per trial that went through. -/
theorem returns_through (hr : Reachable env m alg k s0 dp tm tb st h) (hq : Quiescent st) (d : Nat) :
    (returnsD d h).length = trialsThrough d h := by
  obtain ⟨B, _⟩ := reach_bk hr
  have z1 : (st.ws.map (Phase.pendD d)).sum = 0 := List.sum_eq_zero (by
    intro x hx; obtain ⟨p, hp, rfl⟩ := List.mem_map.1 hx
    obtain ⟨w, hw⟩ := List.mem_iff_getElem?.1 hp
    exact (quiescent_free hq).1 d w p hw)
  have h4 := B.d d
  rw [z1] at h4
  have : trialsThrough d h = h.countP (Event.selAt d) := by
    unfold trialsThrough
    congr 1
    funext e
    cases e <;> rfl
  omega

theorem cntD_weight (hv : alg.Valid) (H : HasDp alg px py lr) (htb : Leftover tb) (hr : Reachable env m alg k s0 dp tm tb st h)
    (hq : Quiescent st) (d : Nat) : cntD px st d = weightD env m st h d := by
  unfold cntD weightD
  cases hd : st.dn[d]? with
  | none => rfl
  | some nd =>
    simp only [Option.map_some, Option.getD_some]
    rw [(c38_counts hv H htb hr).1 d nd hd, returns_through hr hq]
    have : trialsEndedAt d h = h.countP (Event.endAt d) := by
      unfold trialsEndedAt
      congr 1
    rw [this]

/-- Whenever no trial is running the DP value is the value of the tree. -/
theorem dp_tree (hv : alg.Valid) (H : HasDp alg px py lr) (hvis : ∀ x, alg.visitD false x = x)
    (hu : m.useTable = false) (htb : Leftover tb) (hr : Reachable env m alg k s0 dp tm tb st h) (hq : Quiescent st) :
    ∀ (n d : Nat) nd, st.dn[d]? = some nd → (m.maxDepth - nd.depth).toNat ≤ n → valD px st d = some (treeValue env m lr st h n d) := by
  obtain ⟨hD, hC⟩ := c39_bellman_consistent hv H hvis hu htb hr hq
  have hF := freshVal_reach H hr
  have I := reach_inv hv htb hr
  have nokids : ∀ (d : Nat) nd, st.dn[d]? = some nd → nd.kids = [] → valD px st d = some nd.heur := by
    intro d nd hd hk
    by_cases hne : returnsD d h = []
    · simp [valD, hd, hF d nd hd hne]
    · obtain ⟨v, _, hb⟩ := hD d nd hd hne
      exfalso
      have : (backedKids py st h d).Nonempty := by
        unfold Best at hb
        split at hb <;> exact ⟨v, hb.1⟩
      obtain ⟨_, a, c, hc, _⟩ := this
      obtain ⟨nd', _, k1, _, k2, _⟩ := childC_facts I.tree hc
      rw [hd] at k1
      obtain rfl := Option.some.inj k1
      rw [hk] at k2
      simp at k2
  intro n
  induction n with
  | zero =>
    intro d nd hd hn
    have hl : isLeaf env m nd = true := by unfold isLeaf; simp; right; omega
    rw [isLeaf_skel] at hl
    have hk : nd.kids = [] := I.tree.heap.dLeaf d nd.skel (by simp [hd]) hl
    rw [nokids d nd hd hk]
    simp [treeValue, hd]
  | succ n ih =>
    intro d nd hd hn
    simp only [treeValue, hd, Option.elim_some]
    by_cases hk : nd.kids = []
    · rw [if_pos hk, nokids d nd hd hk]
    · rw [if_neg hk]
      obtain ⟨p0, hp0⟩ := List.exists_mem_of_ne_nil _ hk
      have hret := (c39_children_backed hv htb hr hq (childC_of_mem I.tree hd (show (p0.1, p0.2) ∈ nd.kids from hp0))).1
      obtain ⟨v, hv1, hb⟩ := hD d nd hd hret
      rw [hv1]
      congr 1
      refine (bestOf_eq ?_).symm
      have hset : backedKids py st h d = {x | x ∈ nd.kids.map fun p => (st.cn[p.2]?).elim 0 (chanceValue env m lr st h (treeValue env m lr st h n))} := by
        have hval : ∀ (c : Nat) a, (a, c) ∈ nd.kids → ∃ nc, st.cn[c]? = some nc ∧ 
            valC py st c = some (chanceValue env m lr st h (treeValue env m lr st h n) nc) ∧ returnsC c h ≠ [] := by
          intro c a hac
          have hcc := childC_of_mem I.tree hd hac
          obtain ⟨nd2, nc, k1, k2, k3, k4⟩ := childC_facts I.tree hcc
          have hrc := (c39_children_backed hv htb hr hq hcc).2
          obtain ⟨l, e1, e2⟩ := hC c nc k2 hrc
          refine ⟨nc, k2, ?_, hrc⟩
          rw [e2, chanceValue]
          congr 3
          have hkids : ∀ q ∈ nc.kids, (cntD px st q.2, valD px st q.2) = (weightD env m st h q.2, some (treeValue env m lr st h n q.2)) := by
            intro q hq'
            obtain ⟨nc', nd', g1, g2, g3, g4, g5, g6⟩ := childD_facts I.tree (childD_of_mem I.tree k2 (show (q.1, q.2) ∈ nc.kids from hq'))
            rw [k2] at g1
            obtain rfl := Option.some.inj g1
            rw [cntD_weight hv H htb hr hq, ih q.2 nd' g2 (by
              rw [hd] at k1; obtain rfl := Option.some.inj k1
              omega)]
          have e3 : nc.kids.map (fun q => (weightD env m st h q.2, some (treeValue env m lr st h n q.2))) = l.map (fun q => (q.1, some q.2)) := by
            rw [← e1]
            exact (List.map_congr_left hkids).symm
          have e4 := congrArg (List.map fun q : Nat × Option 𝕜 => (q.1, q.2.getD 0)) e3
          simpa [Function.comp_def] using e4.symm
        ext u
        simp only [backedKids, Set.mem_ofPred_eq, List.mem_map]
        constructor
        · rintro ⟨a, c, g1, g2, g3⟩
          obtain ⟨nd2, _, k1, _, k3, _⟩ := childC_facts I.tree g1
          rw [hd] at k1
          obtain rfl := Option.some.inj k1
          obtain ⟨nc, j1, j2, _⟩ := hval c a k3
          refine ⟨(a, c), k3, ?_⟩
          simp only [j1, Option.elim_some]
          rw [j2] at g3
          exact Option.some.inj g3
        · rintro ⟨⟨a, c⟩, hac, rfl⟩
          obtain ⟨nc, j1, j2, j3⟩ := hval c a hac
          refine ⟨a, c, childC_of_mem I.tree hd hac, j3, ?_⟩
          simp only [j1, Option.elim_some]
          exact j2
      rw [← hset]
      exact hb

end Verif.Backups
