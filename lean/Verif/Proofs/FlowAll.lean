import Verif.Proofs.Flow
import Verif.Proofs.SearchMore
import Mathlib.Algebra.BigOperators.Group.List.Basic

/-! # Conservation of returns at chance nodes with many successors (C102) -/

namespace Verif.Search

set_option linter.unusedSectionVars false
set_option linter.unusedSimpArgs false

section
variable {S A R X Y : Type} [DecidableEq S] [DecidableEq A] [AddCommMonoid R] {env : Env S A R} {m : Manager S R} {alg : Alg S A R X Y}
  {k : Nat} {s0 : S} {dp tm : Int} {tb : List ((Int × S) × Option Nat)} {st : St S A R X Y} {h : List (Event S A R)}

/-- The values that trials have brought up to decision node `d`. -/
def belowAt (st : St S A R X Y) (d : Nat) (h : List (Event S A R)) : Multiset R :=
  match st.dn[d]? with
  | some nd => below d nd h
  | none => 0

theorem belowAt_some {d : Nat} {nd : DNode S A R X} (hd : st.dn[d]? = some nd) : belowAt st d h = below d nd h := by
  simp [belowAt, hd]

/-- The values of the trials that ended in `d`. -/
def Event.endsM (d : Nat) : Event S A R → Multiset R
  | .ended _ d' x => if d' = d then {x} else 0
  | _ => 0

theorem ends_sum (hr : Reachable env m alg k s0 dp tm tb st h) {d : Nat} {nd : DNode S A R X} (hd : st.dn[d]? = some nd) :
    (h.map (Event.endsM d)).sum = Multiset.replicate (h.countP (Event.endAt d)) nd.heur := by
  have gen : ∀ l : List (Event S A R), (∀ w d' x, Event.ended w d' x ∈ l → ∃ nd, st.dn[d']? = some nd ∧ nd.heur = x) →
      (l.map (Event.endsM d)).sum = Multiset.replicate (l.countP (Event.endAt d)) nd.heur := by
    intro l hh
    induction l with
    | nil => simp
    | cons e l ih =>
      rw [List.map_cons, List.sum_cons, ih (fun w d hv hm => hh w d hv (List.mem_cons_of_mem _ hm)), List.countP_cons]
      cases e with
      | ended w d' x =>
        by_cases hdd : d' = d
        · subst hdd
          obtain ⟨nd', q1, q2⟩ := hh w d' x (by simp)
          rw [hd] at q1; simp at q1; subst q1
          simp [Event.endsM, Event.endAt, q2, Multiset.singleton_add, Multiset.replicate_succ]
        · simp [Event.endsM, Event.endAt, hdd]
      | _ => simp [Event.endsM, Event.endAt]
  exact gen h (ended_heur hr)

theorem sum_pick {α : Type} (f : α → Nat) (X : α → Multiset R) (Y : Multiset R) (d0 : Nat) (l : List α) (hnd : (l.map f).Nodup)
    (hX : ∀ q ∈ l, f q = d0 → X q = Y) :
    (l.map fun q => if d0 = f q then X q else 0).sum = if d0 ∈ l.map f then Y else 0 := by
  induction l with
  | nil => simp
  | cons q l ih =>
    rw [List.map_cons, List.nodup_cons] at hnd
    rw [List.map_cons, List.sum_cons, ih hnd.2 (fun q hq => hX q (by simp [hq]))]
    by_cases hq : d0 = f q
    · subst hq
      rw [if_pos rfl, if_neg hnd.1, if_pos (by simp), hX q (by simp) rfl, add_zero]
    · rw [if_neg hq, zero_add]
      simp only [List.map_cons, List.mem_cons, hq, false_or]

/-- The returns of a chance node and what the workers hold in their hands are the values that came up to its successors, with the
rewards added. -/
theorem flow_chance_held (hv : alg.Valid) (htb : Leftover tb) (ht : m.useTable = false) (hr : Reachable env m alg k s0 dp tm tb st h)
    {c : Nat} {nc : CNode S A R Y} (hc : st.cn[c]? = some nc) :
    (returnsC c h : Multiset R) + (st.ws.map (Phase.pendM c)).sum =
      (nc.kids.map fun q => (belowAt st q.2 h).map (· + env.reward nc.state nc.action q.1)).sum := by
  have I := reach_inv hv htb hr
  obtain ⟨par, up, rew, U⟩ := ups_exist I.tree ht
  have hin : ∀ d' nd', st.dn[d']? = some nd' → ((d' ≠ st.root ∧ up d' = c) ↔ d' ∈ nc.kids.map Prod.snd) := by
    intro d' nd' h1
    constructor
    · rintro ⟨h2, h3⟩
      have hr0 : st.root = 0 := I.tree.root
      obtain ⟨c2, n2, o2, g1, g2⟩ := I.tree.heap.dPar d' nd'.skel (by simp [h1]) (by rw [← hr0]; exact h2)
      simp at g1
      obtain ⟨nc2, g1, rfl⟩ := g1
      have := U.pd _ _ _ (childD_of_mem I.tree g1 g2)
      rw [h3] at this
      subst this
      rw [hc] at g1; simp at g1; subst g1
      have g3 : (o2, d') ∈ nc.kids := g2
      exact List.mem_map.2 ⟨_, g3, rfl⟩
    · intro hm
      obtain ⟨⟨o, d⟩, h2, rfl⟩ := List.mem_map.1 hm
      have hcd : childD st c o = some d := childD_of_mem I.tree hc h2
      refine ⟨?_, U.pd c o d hcd⟩
      rintro rfl
      obtain ⟨nc1, nd1, k1, k2, _, _, k3, _⟩ := childD_facts I.tree hcd
      obtain ⟨i, ds, g1, g2⟩ := I.tree.heap.cPar c nc1.skel (by simp [k1])
      simp at g1
      obtain ⟨nd0, g1, rfl⟩ := g1
      obtain ⟨nd2, nc2, q1, q2, _, _, _, q3, _⟩ := childC_facts I.tree (childC_of_mem I.tree g1 g2)
      rw [k1] at q2; simp at q2; subst q2
      obtain ⟨r, hr, _, hdr, _⟩ := root_node I.tree
      rw [k2] at hr; simp at hr; subst hr
      have := (I.tree.heap.dTime i nd2.skel (by simp [q1])).2
      simp [DNode.skel] at this
      omega
  have hrew : ∀ q ∈ nc.kids, rew q.2 = env.reward nc.state nc.action q.1 := fun q hq =>
    U.pr c nc q.1 q.2 hc (childD_of_mem I.tree hc (show (q.1, q.2) ∈ nc.kids from hq))
  have hnd := ckids_nodup I.tree hc
  have hbelow : ∀ q ∈ nc.kids, belowAt st q.2 h = (h.map fun e => Event.feedsD par q.2 e + Event.endsM q.2 e).sum := by
    intro q hq
    obtain ⟨_, nd, _, a2, _⟩ := childD_facts I.tree (childD_of_mem I.tree hc (show (q.1, q.2) ∈ nc.kids from hq))
    rw [belowAt_some a2, map_sum_add, feedsD_sum hv htb hr U a2, ends_sum hr a2]
    rfl
  refine (flow_c hv htb hr U c).trans ?_
  · have e1 : (nc.kids.map fun q => (belowAt st q.2 h).map (· + env.reward nc.state nc.action q.1)) =
        nc.kids.map fun q => ((h.map fun e => Event.feedsD par q.2 e + Event.endsM q.2 e).sum).map (· + rew q.2) := by
      apply List.map_congr_left
      intro q hq
      rw [hbelow q hq, hrew q hq]
    rw [e1]
    have : ∀ l : List (Event S A R), (∀ e ∈ l, e ∈ h) → (l.map (Event.feeds st.root par up rew c)).sum =
        (nc.kids.map fun q => ((l.map fun e => Event.feedsD par q.2 e + Event.endsM q.2 e).sum).map (· + rew q.2)).sum := by
      intro l hl
      induction l with
      | nil =>
        simp only [List.map_nil, List.sum_nil, Multiset.map_zero]
        have : ∀ l : List (S × Nat), (l.map fun _ => (0 : Multiset R)).sum = 0 := by
          intro l
          induction l with
          | nil => rfl
          | cons a l ih => rw [List.map_cons, List.sum_cons, ih, add_zero]
        rw [this]
      | cons e l ih =>
        rw [List.map_cons, List.sum_cons, ih (fun e he => hl e (List.mem_cons_of_mem _ he))]
        simp only [List.map_cons, List.sum_cons, Multiset.map_add]
        rw [map_sum_add]
        congr 1
        have he := hl e (by simp)
        have zero : ∀ l : List (S × Nat), (l.map fun _ => (0 : Multiset R)).sum = 0 := by
          intro l
          induction l with
          | nil => rfl
          | cons a l ih => rw [List.map_cons, List.sum_cons, ih, add_zero]
        cases e with
        | backedC w c' args =>
          obtain ⟨nd', g1, a, g2⟩ := backed_par hv htb hr U he
          have := sum_pick Prod.snd (fun q : S × Nat => ({args.retAfter + rew q.2} : Multiset R)) {args.retAfter + rew (par c')} (par c') nc.kids hnd
            (fun q _ hq => by rw [hq])
          simp only [Event.feeds, Event.feedsD, Event.endsM, hin _ _ g1, Multiset.map_zero, add_zero]
          rw [← this]
          congr 1
          apply List.map_congr_left
          intro q _
          by_cases hp : par c' = q.2 <;> simp [hp]
        | ended w d' x =>
          obtain ⟨nd', g1, _⟩ := ended_heur hr w d' x he
          have := sum_pick Prod.snd (fun q : S × Nat => ({x + rew q.2} : Multiset R)) {x + rew d'} d' nc.kids hnd
            (fun q _ hq => by rw [hq])
          simp only [Event.feeds, Event.feedsD, Event.endsM, hin _ _ g1, Multiset.map_zero, zero_add]
          rw [← this]
          congr 1
          apply List.map_congr_left
          intro q _
          by_cases hp : d' = q.2 <;> simp [hp]
        | _ => simp only [Event.feeds, Event.feedsD, Event.endsM, Multiset.map_zero, add_zero, zero]
    exact this h (fun e he => he)

/-- The returns of a chance node are the values that came up to its successors, with the rewards added, up to what workers hold in
their hands. -/
theorem flow_chance_all (hv : alg.Valid) (htb : Leftover tb) (ht : m.useTable = false) (hr : Reachable env m alg k s0 dp tm tb st h)
    {c : Nat} {nc : CNode S A R Y} (hc : st.cn[c]? = some nc) :
    ∃ p : Multiset R, p.card ≤ k ∧
      (returnsC c h : Multiset R) + p = (nc.kids.map fun q => (belowAt st q.2 h).map (· + env.reward nc.state nc.action q.1)).sum := by
  refine ⟨_, ?_, flow_chance_held hv htb ht hr hc⟩
  rw [← reach_len hr]
  exact msum_card _ (pendM_card c) _

/-- Between trials nothing is held: the returns of a chance node are exactly the values that came up to its successors, with the rewards
added. -/
theorem flow_chance_quiet (hv : alg.Valid) (htb : Leftover tb) (ht : m.useTable = false) (hr : Reachable env m alg k s0 dp tm tb st h)
    (hq : Quiescent st) {c : Nat} {nc : CNode S A R Y} (hc : st.cn[c]? = some nc) :
    (returnsC c h : Multiset R) = (nc.kids.map fun q => (belowAt st q.2 h).map (· + env.reward nc.state nc.action q.1)).sum := by
  rw [← flow_chance_held hv htb ht hr hc]
  have : st.ws.map (Phase.pendM c) = st.ws.map fun _ => (0 : Multiset R) := by
    apply List.map_congr_left
    intro p hp
    obtain ⟨i, hi⟩ := List.mem_iff_getElem?.1 hp
    rw [hq i p hi]
    rfl
  rw [this, List.map_const', List.sum_replicate, nsmul_zero, add_zero]

/-- Between trials every trial that went through a chance node has been backed up. -/
theorem returnsC_quiet (hr : Reachable env m alg k s0 dp tm tb st h) (hq : Quiescent st) (c : Nat) :
    (returnsC c h).length = h.countP (Event.stepVia c) := by
  have := (reach_bk hr).1.c c
  have e : st.ws.map (Phase.pendC c) = st.ws.map fun _ => 0 := by
    apply List.map_congr_left
    intro p hp
    obtain ⟨i, hi⟩ := List.mem_iff_getElem?.1 hp
    rw [hq i p hi]
    rfl
  rw [e, List.map_const', List.sum_replicate, nsmul_zero, add_zero] at this
  exact this.symm

end

end Verif.Search
