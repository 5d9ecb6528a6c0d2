import Verif.Proofs.DpWith
import Verif.Proofs.FpChance
import Verif.Props.RandomSearch

/-! # How the errors of chance nodes add up over the levels of a search tree (C91) -/

set_option linter.unusedSectionVars false
set_option linter.unusedSimpArgs false

namespace Verif.Backups

open Verif.Search

/-! ## Means and choices of close values -/

section
variable {ι 𝕜 : Type} [Field 𝕜] [LinearOrder 𝕜] [IsStrictOrderedRing 𝕜]

theorem wmean_sub (l : List ι) (w : ι → Nat) (f g : ι → 𝕜) :
    wmean (l.map fun q => (w q, f q)) - wmean (l.map fun q => (w q, g q)) = wmean (l.map fun q => (w q, f q - g q)) := by
  unfold wmean
  simp only [List.map_map, Function.comp_def]
  rw [← sub_div]
  congr 1
  induction l with
  | nil => simp
  | cons q l ih => simp only [List.map_cons, List.sum_cons, ← ih]; ring

theorem wmean_abs {l : List (Nat × 𝕜)} {ε : 𝕜} (hε : 0 ≤ ε) (h : ∀ p ∈ l, |p.2| ≤ ε) : |wmean l| ≤ ε := by
  by_cases hp : ∃ p ∈ l, p.1 ≠ 0
  · exact abs_le.2 (wmean_bounds l (-ε) ε (fun p hp _ => abs_le.1 (h p hp)) hp)
  · rw [wmean_zero l (fun p hq => by by_contra h0; exact hp ⟨p, hq, h0⟩), abs_zero]
    exact hε

theorem wmean_near {l : List ι} {w : ι → Nat} {f g : ι → 𝕜} {ε : 𝕜} (hε : 0 ≤ ε) (h : ∀ q ∈ l, |f q - g q| ≤ ε) :
    |wmean (l.map fun q => (w q, f q)) - wmean (l.map fun q => (w q, g q))| ≤ ε := by
  rw [wmean_sub]
  refine wmean_abs hε ?_
  intro p hp
  obtain ⟨q, hq, rfl⟩ := List.mem_map.1 hp
  exact h q hq

theorem bestOf_le' {opp : Bool} {f g : ι → 𝕜} {l : List ι} {ε : 𝕜} (hl : l ≠ []) (h : ∀ a ∈ l, f a ≤ g a + ε) :
    bestOf opp (l.map f) ≤ bestOf opp (l.map g) + ε := by
  unfold bestOf
  have ne : ∀ f : ι → 𝕜, l.map f ≠ [] := fun f => by simpa using hl
  cases opp
  · simp only [Bool.false_eq_true, if_false]
    obtain ⟨x, hx⟩ := Option.isSome_iff_exists.1 (List.isSome_max?_of_ne_nil (ne f))
    obtain ⟨y, hy⟩ := Option.isSome_iff_exists.1 (List.isSome_max?_of_ne_nil (ne g))
    rw [hx, hy]
    obtain ⟨a, ha, rfl⟩ := List.mem_map.1 (List.max?_eq_some_iff.1 hx).1
    have := (List.max?_eq_some_iff.1 hy).2 (g a) (List.mem_map_of_mem ha)
    have h1 := h a ha
    simp only [Option.getD_some]
    linarith
  · simp only [if_true]
    obtain ⟨x, hx⟩ := Option.isSome_iff_exists.1 (List.isSome_min?_of_ne_nil (ne f))
    obtain ⟨y, hy⟩ := Option.isSome_iff_exists.1 (List.isSome_min?_of_ne_nil (ne g))
    rw [hx, hy]
    obtain ⟨a, ha, rfl⟩ := List.mem_map.1 (List.min?_eq_some_iff.1 hy).1
    have := (List.min?_eq_some_iff.1 hx).2 (f a) (List.mem_map_of_mem ha)
    have h1 := h a ha
    simp only [Option.getD_some]
    linarith

theorem bestOf_near {opp : Bool} {f g : ι → 𝕜} {l : List ι} {ε : 𝕜} (hl : l ≠ []) (h : ∀ a ∈ l, |f a - g a| ≤ ε) :
    |bestOf opp (l.map f) - bestOf opp (l.map g)| ≤ ε := by
  rw [abs_sub_le_iff]
  constructor
  · have := bestOf_le' (opp := opp) (f := f) (g := g) hl (fun a ha => by have := (abs_sub_le_iff.1 (h a ha)).1; linarith)
    linarith
  · have := bestOf_le' (opp := opp) (f := g) (g := f) hl (fun a ha => by have := (abs_sub_le_iff.1 (h a ha)).2; linarith)
    linarith

theorem bestOf_abs {opp : Bool} {f : ι → 𝕜} {l : List ι} {ε : 𝕜} (hl : l ≠ []) (h : ∀ a ∈ l, |f a| ≤ ε) : |bestOf opp (l.map f)| ≤ ε := by
  have h0 : bestOf opp (l.map fun _ => (0 : 𝕜)) = 0 := by
    have ne : l.map (fun _ => (0 : 𝕜)) ≠ [] := by simpa using hl
    unfold bestOf
    cases opp
    · obtain ⟨y, hy⟩ := Option.isSome_iff_exists.1 (List.isSome_max?_of_ne_nil ne)
      obtain ⟨a, ha, e⟩ := List.mem_map.1 (List.max?_eq_some_iff.1 hy).1
      simp only [hy, ← e, Option.getD_some, Bool.false_eq_true, if_false, if_true]
    · obtain ⟨y, hy⟩ := Option.isSome_iff_exists.1 (List.isSome_min?_of_ne_nil ne)
      obtain ⟨a, ha, e⟩ := List.mem_map.1 (List.min?_eq_some_iff.1 hy).1
      simp only [hy, ← e, Option.getD_some, Bool.false_eq_true, if_false, if_true]
  have := bestOf_near (opp := opp) (f := f) (g := fun _ => 0) hl (fun a ha => by simpa using h a ha)
  rwa [h0, sub_zero] at this

end

/-! ## Counts -/

section
variable {S A 𝕜 X Y : Type} [DecidableEq S] [DecidableEq A] [Field 𝕜] [LinearOrder 𝕜] [IsStrictOrderedRing 𝕜]
  {env : Env S A 𝕜} {m : Manager S 𝕜} {alg : Alg S A 𝕜 X Y} {px : X → Dp 𝕜} {py : Y → Dp 𝕜} {lr : S → A → 𝕜}
  {mean : S → A → List (Nat × 𝕜) → 𝕜}
  {k : Nat} {s0 : S} {dp tm : Int} {tb : List ((Int × S) × Option Nat)} {st : St S A 𝕜 X Y} {h : List (Event S A 𝕜)}

/-- A chance node whose trials are over has a child. -/
theorem chance_has_kid (hv : alg.Valid) (htb : Leftover tb) (hr : Reachable env m alg k s0 dp tm tb st h) (hq : Quiescent st) {d c : Nat} {a : A}
    (hc : childC st d a = some c) {nc : CNode S A 𝕜 Y} (hnc : st.cn[c]? = some nc) : nc.kids ≠ [] := by
  obtain ⟨I, C⟩ := reach_both hv htb hr
  obtain ⟨B, _⟩ := reach_bk hr
  have hrc := (c39_children_backed hv htb hr hq hc).2
  have h5 := B.c c
  have hpos : 0 < h.countP (Event.stepVia c) := by
    have := List.length_pos_iff.2 hrc
    omega
  obtain ⟨e, he, hs⟩ := List.countP_pos_iff.1 hpos
  cases e with
  | stepped w d1 a1 c1 o d' r g =>
    have hcc : c1 = c := by simpa [Event.stepVia] using hs
    subst hcc
    obtain ⟨nc2, _, g1, _, g3, _⟩ := childD_facts I.tree (C.evStep w d1 a1 c1 o d' r g he).1
    rw [hnc] at g1
    obtain rfl := Option.some.inj g1
    exact List.ne_nil_of_mem g3
  | _ => simp [Event.stepVia] at hs

/-- The weights of the children of a chance node: at most one more per child than trials. -/
theorem weights_le (hv : alg.Valid) (hu : m.useTable = false) (htb : Leftover tb) (hr : Reachable env m alg k s0 dp tm tb st h) (hq : Quiescent st)
    {d c : Nat} {a : A} (hc : childC st d a = some c) {nc : CNode S A 𝕜 Y} (hnc : st.cn[c]? = some nc) :
    (nc.kids.map fun q => weightD env m st h q.2).sum ≤ nc.kids.length + trialsBegun h := by
  obtain ⟨I, C⟩ := reach_both hv htb hr
  have h1 : (nc.kids.map fun q => weightD env m st h q.2).sum ≤ (nc.kids.map fun q => 1 + (visitsD st q.2 - alg.initVisits)).sum := by
    refine List.sum_le_sum fun q hq' => ?_
    obtain ⟨_, nd', _, g2, _⟩ := childD_facts I.tree (childD_of_mem I.tree hnc (show (q.1, q.2) ∈ nc.kids from hq'))
    have hth : trialsThrough q.2 h = h.countP (Event.selAt q.2) := by
      unfold trialsThrough
      congr 1
      funext e
      cases e <;> rfl
    have hte : trialsEndedAt q.2 h = h.countP (Event.endAt q.2) := by
      unfold trialsEndedAt
      congr 1
    have := C.v1 q.2 nd' g2
    unfold weightD visitsD
    simp only [g2, hth, hte, Option.map_some, Option.getD_some, Option.elim_some]
    split <;> omega
  have h2 : (nc.kids.map fun q => 1 + (visitsD st q.2 - alg.initVisits)).sum = nc.kids.length + nc.visits := by
    rw [c13_chance_visits_tree hv htb hr hq hu hnc]
    generalize nc.kids = l
    induction l with
    | nil => simp
    | cons q l ih => simp only [List.map_cons, List.sum_cons, ih, List.length_cons]; omega
  obtain ⟨nd, nc2, k1, k2, k3, _⟩ := childC_facts I.tree hc
  rw [hnc] at k2
  obtain rfl := Option.some.inj k2
  have h3 := c13_decision_visits hv htb hr hq k1
  have h4 := c13_visits_at_most_trials hv htb hr k1
  have h5 : nc.visits ≤ (nd.kids.map (fun p => visitsC st p.2)).sum := by
    have : visitsC st c = nc.visits := by simp [visitsC, hnc]
    rw [← this]
    exact List.le_sum_of_mem (List.mem_map.2 ⟨(a, c), k3, rfl⟩)
  omega

/-! ## The values of the tree -/

/-- The value of a chance node, from the values of the nodes below it. -/
theorem chance_near (hv : alg.Valid) (H : HasDpW alg px py mean) (hvis : ∀ x, alg.visitD false x = x)
    (hu : m.useTable = false) (htb : Leftover tb) (hr : Reachable env m alg k s0 dp tm tb st h) (hq : Quiescent st)
    {K D N : Nat} {ρ E : 𝕜} (hρ : 0 ≤ ρ) (hE0 : 0 ≤ E) (hlr : ∀ s a, a ∈ env.actions s → |lr s a| ≤ ρ)
    (hK : ∀ s a, a ∈ env.actions s → (env.succ s a).length ≤ K) (hN : K + trialsBegun h ≤ N)
    (hE : ∀ s a l, a ∈ env.actions s → l.length ≤ K → (∀ p ∈ l, |p.2| ≤ (D + 1) * ρ + D * E) → 1 ≤ (l.map Prod.fst).sum → (l.map Prod.fst).sum ≤ N →
      |mean s a l - (lr s a + wmean l)| ≤ E)
    {n : Nat} (ih : ∀ (d : Nat) nd, n ≤ D → st.dn[d]? = some nd → (m.maxDepth - nd.depth).toNat ≤ n →
      |treeValue env m lr st h n d| ≤ (n + 1) * ρ ∧ ∃ v, valD px st d = some v ∧ |v - treeValue env m lr st h n d| ≤ n * E)
    {d c : Nat} {a : A} {nd : DNode S A 𝕜 X} (hnD : n + 1 ≤ D) (hd : st.dn[d]? = some nd) (hn : (m.maxDepth - nd.depth).toNat ≤ n + 1)
    (hac : (a, c) ∈ nd.kids) :
    ∃ nc u, st.cn[c]? = some nc ∧ valC py st c = some u ∧ returnsC c h ≠ [] ∧
      |chanceValue env m lr st h (treeValue env m lr st h n) nc| ≤ (n + 1 + 1) * ρ ∧
      |u - chanceValue env m lr st h (treeValue env m lr st h n) nc| ≤ (n + 1) * E := by
  obtain ⟨_, hC⟩ := consistent_w hv H hvis hu htb hr hq
  have I := reach_inv hv htb hr
  have hn0 : (0 : 𝕜) ≤ n := Nat.cast_nonneg n
  have hcc := childC_of_mem I.tree hd hac
  obtain ⟨nd2, nc, k1, k2, k3, k4, k5, k6, k7, k8⟩ := childC_facts I.tree hcc
  rw [hd] at k1
  obtain rfl := Option.some.inj k1
  have hact : nc.action ∈ env.actions nc.state := by rw [k4, k5]; exact k8
  have hrc := (c39_children_backed hv htb hr hq hcc).2
  obtain ⟨l, e1, e2⟩ := hC c nc k2 hrc
  refine ⟨nc, _, k2, e2, hrc, ?_⟩
  have hkids : ∀ q ∈ nc.kids, |treeValue env m lr st h n q.2| ≤ (n + 1) * ρ ∧
      ∃ v, valD px st q.2 = some v ∧ |v - treeValue env m lr st h n q.2| ≤ n * E := by
    intro q hq'
    obtain ⟨nc', nd', g1, g2, g3, g4, g5, g6⟩ := childD_facts I.tree (childD_of_mem I.tree k2 (show (q.1, q.2) ∈ nc.kids from hq'))
    rw [k2] at g1
    obtain rfl := Option.some.inj g1
    exact ih q.2 nd' (by omega) g2 (by omega)
  have hl : l = nc.kids.map fun q => (weightD env m st h q.2, (valD px st q.2).getD 0) := by
    have e4 := congrArg (List.map fun q : Nat × Option 𝕜 => (q.1, q.2.getD 0)) e1
    simp only [List.map_map, Function.comp_def, Option.getD_some, Prod.mk.eta, List.map_id'] at e4
    rw [← e4]
    exact List.map_congr_left fun q _ => by rw [cntD_weight_w hv H htb hr hq]
  have hnear : ∀ q ∈ nc.kids, |(valD px st q.2).getD 0 - treeValue env m lr st h n q.2| ≤ n * E := by
    intro q hq'
    obtain ⟨_, v, f1, f2⟩ := hkids q hq'
    rw [f1]
    exact f2
  have hnE : 0 ≤ n * E := mul_nonneg hn0 hE0
  have w1 : |wmean l - wmean (nc.kids.map fun q => (weightD env m st h q.2, treeValue env m lr st h n q.2))| ≤ n * E := by
    rw [hl]
    exact wmean_near hnE hnear
  have w2 : |wmean (nc.kids.map fun q => (weightD env m st h q.2, treeValue env m lr st h n q.2))| ≤ (n + 1) * ρ := by
    refine wmean_abs (mul_nonneg (by linarith) hρ) ?_
    intro p hp
    obtain ⟨q, hq', rfl⟩ := List.mem_map.1 hp
    exact (hkids q hq').1
  have hln : l.length ≤ K := by
    rw [hl, List.length_map]
    refine le_trans ?_ (hK nc.state nc.action hact)
    have hsub : ∀ o ∈ nc.kids.map Prod.fst, o ∈ env.succ nc.state nc.action := by
      intro o ho
      obtain ⟨q, hq', rfl⟩ := List.mem_map.1 ho
      obtain ⟨nc', nd', g1, g2, g3, g4, g5, g6, g7⟩ := childD_facts I.tree (childD_of_mem I.tree k2 (show (q.1, q.2) ∈ nc.kids from hq'))
      rw [k2] at g1
      obtain rfl := Option.some.inj g1
      exact g7
    have hnd : (nc.kids.map Prod.fst).Nodup := I.tree.heap.cNodup c nc.skel (by simp [k2])
    have := (List.subperm_of_subset hnd hsub).length_le
    rwa [List.length_map] at this
  have hsum : (l.map Prod.fst).sum = (nc.kids.map fun q => weightD env m st h q.2).sum := by
    rw [hl, List.map_map]
    rfl
  have hkl : nc.kids.length = l.length := by rw [hl, List.length_map]
  have hw := weights_le hv hu htb hr hq hcc k2
  have hpos : 1 ≤ (l.map Prod.fst).sum := by
    rw [hsum]
    obtain ⟨q, hq'⟩ := List.exists_mem_of_ne_nil _ (chance_has_kid hv htb hr hq hcc k2)
    have h1 : weightD env m st h q.2 ≤ (nc.kids.map fun q => weightD env m st h q.2).sum := List.le_sum_of_mem (List.mem_map.2 ⟨q, hq', rfl⟩)
    obtain ⟨_, nd', _, g2, _⟩ := childD_facts I.tree (childD_of_mem I.tree k2 (show (q.1, q.2) ∈ nc.kids from hq'))
    have h2 : 1 ≤ weightD env m st h q.2 := by
      unfold weightD
      simp only [g2]
      omega
    omega
  have hmean := hE nc.state nc.action l hact hln (by
    intro p hp
    rw [hl] at hp
    obtain ⟨q, hq', rfl⟩ := List.mem_map.1 hp
    have a1 := hnear q hq'
    have a2 := (hkids q hq').1
    have a3 := abs_sub_abs_le_abs_sub ((valD px st q.2).getD 0) (treeValue env m lr st h n q.2)
    have hnq : (n : 𝕜) + 1 ≤ D := by exact_mod_cast hnD
    dsimp only
    nlinarith) hpos (by omega)
  unfold chanceValue
  have hr1 := hlr nc.state nc.action hact
  constructor
  · have := abs_add_le (lr nc.state nc.action) (wmean (nc.kids.map fun q => (weightD env m st h q.2, treeValue env m lr st h n q.2)))
    linarith
  · have := abs_sub_le (mean nc.state nc.action l) (lr nc.state nc.action + wmean l)
      (lr nc.state nc.action + wmean (nc.kids.map fun q => (weightD env m st h q.2, treeValue env m lr st h n q.2)))
    rw [add_sub_add_left_eq_sub] at this
    linarith

/-- Values of nodes and trees, when chance nodes are computed with an error of at most `E`. -/
theorem tree_near (hv : alg.Valid) (H : HasDpW alg px py mean) (hvis : ∀ x, alg.visitD false x = x)
    (hu : m.useTable = false) (htb : Leftover tb) (hr : Reachable env m alg k s0 dp tm tb st h) (hq : Quiescent st)
    {K D N : Nat} {ρ E : 𝕜} (hρ : 0 ≤ ρ) (hE0 : 0 ≤ E) (hheur : ∀ s, |heurOf env m s| ≤ ρ) (hlr : ∀ s a, a ∈ env.actions s → |lr s a| ≤ ρ)
    (hK : ∀ s a, a ∈ env.actions s → (env.succ s a).length ≤ K) (hN : K + trialsBegun h ≤ N)
    (hE : ∀ s a l, a ∈ env.actions s → l.length ≤ K → (∀ p ∈ l, |p.2| ≤ (D + 1) * ρ + D * E) → 1 ≤ (l.map Prod.fst).sum → (l.map Prod.fst).sum ≤ N →
      |mean s a l - (lr s a + wmean l)| ≤ E) :
    ∀ (n d : Nat) nd, n ≤ D → st.dn[d]? = some nd → (m.maxDepth - nd.depth).toNat ≤ n →
      |treeValue env m lr st h n d| ≤ (n + 1) * ρ ∧ ∃ v, valD px st d = some v ∧ |v - treeValue env m lr st h n d| ≤ n * E := by
  obtain ⟨hD, hC⟩ := consistent_w hv H hvis hu htb hr hq
  have hF := freshVal_reach_w H hr
  have I := reach_inv hv htb hr
  have nokids : ∀ (d : Nat) nd, st.dn[d]? = some nd → nd.kids = [] → valD px st d = some nd.heur := by
    intro d nd hd hk
    by_cases hne : returnsD d h = []
    · simp [valD, hd, hF d nd hd hne]
    · obtain ⟨v, _, hb⟩ := hD d nd hd hne
      exfalso
      have : (backedKids py st h d).Nonempty := by
        unfold Best at hb
        split at hb <;> exact ⟨v, hb.1⟩
      obtain ⟨_, a, c, hc, _⟩ := this
      obtain ⟨nd', _, k1, _, k2, _⟩ := childC_facts I.tree hc
      rw [hd] at k1
      obtain rfl := Option.some.inj k1
      rw [hk] at k2
      simp at k2
  have heur : ∀ (d : Nat) nd, st.dn[d]? = some nd → |nd.heur| ≤ ρ := by
    intro d nd hd
    rw [show nd.heur = heurOf env m nd.state from I.tree.heap.dHeur d nd.skel (by simp [hd])]
    exact hheur _
  intro n
  induction n with
  | zero =>
    intro d nd hnD hd hn
    have hl : isLeaf env m nd = true := by unfold isLeaf; simp; right; omega
    rw [isLeaf_skel] at hl
    have hk : nd.kids = [] := I.tree.heap.dLeaf d nd.skel (by simp [hd]) hl
    rw [nokids d nd hd hk]
    simp only [treeValue, hd, Option.elim_some, Nat.cast_zero, zero_add, one_mul]
    exact ⟨heur d nd hd, _, rfl, by simp⟩
  | succ n ih =>
    intro d nd hnD hd hn
    have hn0 : (0 : 𝕜) ≤ n := Nat.cast_nonneg n
    simp only [treeValue, hd, Option.elim_some]
    by_cases hk : nd.kids = []
    · rw [if_pos hk, nokids d nd hd hk]
      refine ⟨?_, _, rfl, ?_⟩
      · have := heur d nd hd
        push_cast
        nlinarith
      · simp only [sub_self, abs_zero]; positivity
    · rw [if_neg hk]
      obtain ⟨p0, hp0⟩ := List.exists_mem_of_ne_nil _ hk
      have hret := (c39_children_backed hv htb hr hq (childC_of_mem I.tree hd (show (p0.1, p0.2) ∈ nd.kids from hp0))).1
      obtain ⟨v, hv1, hb⟩ := hD d nd hd hret
      -- the children
      have hval := fun c a hac => chance_near (c := c) (a := a) hv H hvis hu htb hr hq hρ hE0 hlr hK hN hE ih hnD hd hn hac
      have hv2 : v = bestOf (isOpponent m nd.time) (nd.kids.map fun p => (valC py st p.2).getD 0) := by
        refine (bestOf_eq ?_).symm
        have hset : backedKids py st h d = {x | x ∈ nd.kids.map fun p => (valC py st p.2).getD 0} := by
          ext u
          simp only [backedKids, Set.mem_ofPred_eq, List.mem_map]
          constructor
          · rintro ⟨a, c, g1, g2, g3⟩
            obtain ⟨nd2, _, k1, _, k3, _⟩ := childC_facts I.tree g1
            rw [hd] at k1
            obtain rfl := Option.some.inj k1
            exact ⟨(a, c), k3, by simp [g3]⟩
          · rintro ⟨⟨a, c⟩, hac, rfl⟩
            obtain ⟨nc, u, j1, j2, j3, _⟩ := hval c a hac
            exact ⟨a, c, childC_of_mem I.tree hd hac, j3, by simp [j2]⟩
        rw [← hset]
        exact hb
      refine ⟨?_, v, hv1, ?_⟩
      · refine bestOf_abs hk ?_
        rintro ⟨a, c⟩ hac
        obtain ⟨nc, u, j1, _, _, j4, _⟩ := hval c a hac
        simp only [j1, Option.elim_some]
        push_cast
        exact j4
      · rw [hv2]
        push_cast
        refine bestOf_near hk ?_
        rintro ⟨a, c⟩ hac
        obtain ⟨nc, u, j1, j2, _, _, j5⟩ := hval c a hac
        simp only [j1, j2, Option.elim_some, Option.getD_some]
        exact j5

end

end Verif.Backups
