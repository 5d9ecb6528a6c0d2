import Verif.Proofs.Game

/-!
# What the DP values of a finished search mean: C66, C67

`treeValue` (the minimax value of the search tree) and `gameValue` (the value of the game, which does not mention the search) are
defined in `Verif.Spec.Tree`.  The theorems hold for every algorithm that keeps DP values through the mixin classes (`HasDp`), that is
for DB-MENTS, DENTS and EST (`c38_instances`).
-/

namespace Verif.Backups

open Verif.Search

set_option linter.unusedSimpArgs false
set_option linter.unusedSectionVars false

variable {S A 𝕜 X Y : Type} [DecidableEq S] [DecidableEq A] [Field 𝕜] [LinearOrder 𝕜] [IsStrictOrderedRing 𝕜]
  {env : Env S A 𝕜} {m : Manager S 𝕜} {alg : Alg S A 𝕜 X Y} {px : X → Dp 𝕜} {py : Y → Dp 𝕜} {lr : S → A → 𝕜}
  {k : Nat} {s0 : S} {dp tm : Int} {tb : List ((Int × S) × Option Nat)} {st : St S A 𝕜 X Y} {h : List (Event S A 𝕜)}
  {next : S → A → S}

/-! ## C66 -/

/-- C66.  Without a transposition table, whenever no trial is running, the DP value of every decision node is the minimax value of the
tree below it: its heuristic value if it has no children, otherwise the largest (the opponent's: the smallest) value of a child, where
a child's value is its reward plus the mean of the values of the nodes below, weighted by one plus the number of trials that went on
from the node or ended in it as a leaf.  However many workers there were, and in whatever order their backups came. -/
theorem c66_minimax_of_tree (hv : alg.Valid) (H : HasDp alg px py lr) (hvis : ∀ x, alg.visitD false x = x)
    (hu : m.useTable = false) (htb : Leftover tb) (hr : Reachable env m alg k s0 dp tm tb st h) (hq : Quiescent st)
    {d : Nat} {nd : DNode S A 𝕜 X} (hd : st.dn[d]? = some nd) :
    valD px st d = some (treeValue env m lr st h (remaining m nd.depth) d) :=
  dp_tree hv H hvis hu htb hr hq _ d nd hd (by simp [remaining])

/-- C66.  So the values at the end do not depend on the order of the backups: two runs, of any numbers of workers, that end with the
same tree and the same weights end with the same values. -/
theorem c66_order_irrelevant (hv : alg.Valid) (H : HasDp alg px py lr) (hvis : ∀ x, alg.visitD false x = x)
    (hu : m.useTable = false) (htb : Leftover tb) (hr : Reachable env m alg k s0 dp tm tb st h) (hq : Quiescent st)
    {k' : Nat} {st' : St S A 𝕜 X Y} {h' : List (Event S A 𝕜)}
    (hr' : Reachable env m alg k' s0 dp tm tb st' h') (hq' : Quiescent st')
    (hdn : st'.dn.map DNode.skel = st.dn.map DNode.skel) (hcn : st'.cn.map CNode.skel = st.cn.map CNode.skel)
    (hw : ∀ d, weightD env m st' h' d = weightD env m st h d) (d : Nat) : valD px st' d = valD px st d := by
  have h1 : ∀ d : Nat, (st'.dn[d]?).map DNode.skel = (st.dn[d]?).map DNode.skel := by
    intro d
    rw [← List.getElem?_map, ← List.getElem?_map, hdn]
  have h2 : ∀ c : Nat, (st'.cn[c]?).map CNode.skel = (st.cn[c]?).map CNode.skel := by
    intro c
    rw [← List.getElem?_map, ← List.getElem?_map, hcn]
  have hT : ∀ n d, treeValue env m lr st' h' n d = treeValue env m lr st h n d := by
    intro n
    induction n with
    | zero =>
      intro d
      have := h1 d
      simp only [treeValue]
      cases e1 : st'.dn[d]? <;> cases e2 : st.dn[d]? <;> rw [e1, e2] at this <;> simp at this ⊢
      exact congrArg (·.heur) this
    | succ n ih =>
      intro d
      have := h1 d
      simp only [treeValue]
      cases e1 : st'.dn[d]? <;> cases e2 : st.dn[d]? <;> rw [e1, e2] at this <;> simp only [Option.map_some, Option.map_none, Option.some.injEq, reduceCtorEq] at this
      · rfl
      · rename_i nd' nd
        have a1 : nd'.heur = nd.heur := congrArg (·.heur) this
        have a2 : nd'.kids = nd.kids := congrArg (·.kids) this
        have a3 : nd'.time = nd.time := congrArg (·.time) this
        simp only [Option.elim_some, a1, a2, a3]
        have hch : ∀ c : Nat, (st'.cn[c]?).elim 0 (chanceValue env m lr st' h' (treeValue env m lr st' h' n)) =
            (st.cn[c]?).elim 0 (chanceValue env m lr st h (treeValue env m lr st h n)) := by
          intro c
          have := h2 c
          cases e1 : st'.cn[c]? <;> cases e2 : st.cn[c]? <;> rw [e1, e2] at this <;> simp only [Option.map_some, Option.map_none, Option.some.injEq, reduceCtorEq] at this
          · rfl
          · rename_i nc' nc
            have b1 : nc'.state = nc.state := congrArg (·.state) this
            have b2 : nc'.action = nc.action := congrArg (·.action) this
            have b3 : nc'.kids = nc.kids := congrArg (·.kids) this
            simp only [Option.elim_some, chanceValue, b1, b2, b3, hw, ih]
        simp only [hch]
  cases e : st.dn[d]? with
  | none =>
    have := h1 d
    rw [e] at this
    simp at this
    simp [valD, e, this]
  | some nd =>
    have := h1 d
    rw [e] at this
    simp only [Option.map_some, Option.map_eq_some_iff] at this
    obtain ⟨nd', e', hs⟩ := this
    rw [c66_minimax_of_tree hv H hvis hu htb hr hq e, c66_minimax_of_tree hv H hvis hu htb hr' hq' e', hT,
      show nd'.depth = nd.depth from congrArg (·.depth) hs]

/-- The toy run (two workers, opponent to move at odd times, three trials): the values 101, 101, 20, 0 of its four decision nodes. -/
example : ∃ st h, Reachable Uct.Toy.env Uct.Toy.mgr (Toy.alg Toy.lr) 2 0 0 0 [] st h ∧
    (st.ws.all (fun p => decide (p = Phase.idle)) &&
     ((List.range 4).map fun d => treeValue Uct.Toy.env Uct.Toy.mgr Toy.lr st h 3 d) == [101, 101, 20, 0] &&
     ((List.range 4).map fun d => weightD Uct.Toy.env Uct.Toy.mgr st h d) == [4, 1, 2, 2]) = true :=
  Toy.run _ (by decide +kernel)

/-! ## C67 -/

/-- C67.  In a deterministic environment, if the search has tried every action of every node that is not a leaf and no trial is
running, the DP value of the root is the value of the game with `max_depth` moves to go: the search is exact. -/
theorem c67_exact_value (hdet : ∀ s a, a ∈ env.actions s → env.succ s a = [next s a])
    (hlr : ∀ s a, a ∈ env.actions s → lr s a = env.reward s a (next s a)) (hne : ∀ s, env.isSink s = false → env.actions s ≠ [])
    (hv : alg.Valid) (H : HasDp alg px py lr) (hvis : ∀ x, alg.visitD false x = x) (hu : m.useTable = false) (htb : Leftover tb)
    (hr : Reachable env m alg k s0 dp tm tb st h) (hq : Quiescent st) (hx : Exhausted env m st) :
    valD px st st.root = some (gameValue env m next (remaining m dp) tm s0) ∧
    ∀ (d : Nat) nd, st.dn[d]? = some nd → valD px st d = some (gameValue env m next (remaining m nd.depth) nd.time nd.state) := by
  have key : ∀ (d : Nat) nd, st.dn[d]? = some nd → valD px st d = some (gameValue env m next (remaining m nd.depth) nd.time nd.state) := by
    intro d nd hd
    rw [c66_minimax_of_tree hv H hvis hu htb hr hq hd]
    congr 1
    exact game_tree hdet hlr hne hv htb hr hq hx _ d nd hd rfl
  refine ⟨?_, key⟩
  obtain ⟨nd, h1, h2, h3, h4⟩ := root_node (reach_inv hv htb hr).tree
  rw [key _ nd h1, h2, h3, h4]

/-- C67.  And the DP value of an action is the reward plus the value of the game after it. -/
theorem c67_exact_action_values (hdet : ∀ s a, a ∈ env.actions s → env.succ s a = [next s a])
    (hlr : ∀ s a, a ∈ env.actions s → lr s a = env.reward s a (next s a)) (hne : ∀ s, env.isSink s = false → env.actions s ≠ [])
    (hv : alg.Valid) (H : HasDp alg px py lr) (hvis : ∀ x, alg.visitD false x = x) (hu : m.useTable = false) (htb : Leftover tb)
    (hr : Reachable env m alg k s0 dp tm tb st h) (hq : Quiescent st) (hx : Exhausted env m st)
    {d c : Nat} {a : A} {nd : DNode S A 𝕜 X} (hd : st.dn[d]? = some nd) (hc : childC st d a = some c) :
    valC py st c = some (env.reward nd.state a (next nd.state a) +
      gameValue env m next (remaining m (nd.depth + 1)) (nd.time + 1) (next nd.state a)) := by
  obtain ⟨nd2, nc, d', nd', k1, k2, k3, k4, k5, k6, k7, k8, k9, k10⟩ := det_kid hdet hv htb hr hq hc
  rw [hd] at k1
  obtain rfl := Option.some.inj k1
  obtain ⟨_, hC⟩ := c39_bellman_consistent hv H hvis hu htb hr hq
  obtain ⟨l, e1, e2⟩ := hC c nc k2 (c39_children_backed hv htb hr hq hc).2
  rw [e2, k3, k4, hlr _ _ k5]
  congr 2
  rw [k6] at e1
  simp only [List.map_cons, List.map_nil] at e1
  rw [(c67_exact_value hdet hlr hne hv H hvis hu htb hr hq hx).2 d' nd' k7, cntD_weight hv H htb hr hq] at e1
  match l, e1 with
  | _ :: _ :: _, e1 => simp at e1
  | [q], e1 =>
    simp only [List.map_cons, List.map_nil, List.cons.injEq, Prod.mk.injEq, Option.some.injEq, and_true] at e1
    have hq0 : q.1 ≠ 0 := by
      rw [← e1.1]
      simp [weightD, k7]
    rw [show q = (q.1, q.2) from rfl, wmean_single _ _ hq0, ← e1.2, k8, k9, k10]

open Verif.Uct Verif.Ments in
/-- C67.  The action recommended by DP value (with the default threshold of one visit, or none) at any node that is not a leaf is then
an optimal move of the game for the player to move there. -/
theorem c67_recommends_optimal (hdet : ∀ s a, a ∈ env.actions s → env.succ s a = [next s a])
    (hlr : ∀ s a, a ∈ env.actions s → lr s a = env.reward s a (next s a)) (hne : ∀ s, env.isSink s = false → env.actions s ≠ [])
    (hv : alg.Valid) (H : HasDp alg px py lr) (hvis : ∀ x, alg.visitD false x = x) (hu : m.useTable = false) (htb : Leftover tb)
    (hr : Reachable env m alg k s0 dp tm tb st h) (hq : Quiescent st) (hx : Exhausted env m st)
    {d : Nat} {nd : DNode S A 𝕜 X} (hd : st.dn[d]? = some nd) (hleaf : isLeaf env m nd = false)
    {low : 𝕜} {threshold : Int} (ht : threshold ≤ 1)
    (hlow : ∀ a ∈ env.actions nd.state, low ≤ (if isOpponent m nd.time then -1 else 1) *
      (env.reward nd.state a (next nd.state a) + gameValue env m next (remaining m (nd.depth + 1)) (nd.time + 1) (next nd.state a)))
    (raw : Nat) {iter : List (A × 𝕜) → List (A × 𝕜)} (hi : IterOk iter) :
    ∃ a ∈ env.actions nd.state,
      recommendBestOrRandom low threshold (viewOf env m st nd).opp (viewOf env m st nd).actions
        ((viewOf env m st nd).kids.map fun k => (k.1, (py k.2.2).n, (py k.2.2).val.getD 0)) raw iter = some a ∧
      Best (isOpponent m nd.time)
        {x | ∃ b ∈ env.actions nd.state, env.reward nd.state b (next nd.state b) +
          gameValue env m next (remaining m (nd.depth + 1)) (nd.time + 1) (next nd.state b) = x}
        (env.reward nd.state a (next nd.state a) +
          gameValue env m next (remaining m (nd.depth + 1)) (nd.time + 1) (next nd.state a)) := by
  have I := reach_inv hv htb hr
  obtain ⟨_, _, D⟩ := dp_reach hv H htb hr
  let Q : A → 𝕜 := fun a => env.reward nd.state a (next nd.state a) +
    gameValue env m next (remaining m (nd.depth + 1)) (nd.time + 1) (next nd.state a)
  have hsink : env.isSink nd.state = false := by
    simp [isLeaf] at hleaf
    exact hleaf.1
  set kids := (viewOf env m st nd).kids.map fun k => (k.1, (py k.2.2).n, (py k.2.2).val.getD 0) with hkids
  have hkid : ∀ p ∈ kids, p.1 ∈ env.actions nd.state ∧ 1 ≤ p.2.1 ∧ p.2.2 = Q p.1 := by
    intro p hp
    obtain ⟨q, hq', rfl⟩ := List.mem_map.1 hp
    obtain ⟨c, nc, g1, g2, g3⟩ := mem_kidsY.1 hq'
    have hcc := childC_of_mem I.tree hd g1
    obtain ⟨nd2, nc2, f1, f2, _, _, _, _, _, f8⟩ := childC_facts I.tree hcc
    rw [hd] at f1
    obtain rfl := Option.some.inj f1
    have hval := c67_exact_action_values hdet hlr hne hv H hvis hu htb hr hq hx hd hcc
    refine ⟨f8, ?_, ?_⟩
    · rw [g3]
      dsimp only
      rw [(D.c c nc g2).1]
      exact List.length_pos_iff.2 (c39_children_backed hv htb hr hq hcc).2
    · rw [g3]
      simp only [valC, g2, Option.bind_some] at hval
      simp only [Q]
      rw [hval]
      rfl
  have hall : ∀ a ∈ env.actions nd.state, ∃ n, (a, n, Q a) ∈ kids := by
    intro a ha
    obtain ⟨c, hc⟩ := hx d nd hd hleaf a ha
    obtain ⟨nd2, nc, f1, f2, f3, _⟩ := childC_facts I.tree hc
    rw [hd] at f1
    obtain rfl := Option.some.inj f1
    have hm : (a, (py nc.y).n, (py nc.y).val.getD 0) ∈ kids :=
      List.mem_map.2 ⟨(a, nc.visits, nc.y), mem_kidsY.2 ⟨c, nc, f3, f2, rfl⟩, rfl⟩
    have := (hkid _ hm).2.2
    simp only at this
    rw [this] at hm
    exact ⟨_, hm⟩
  obtain ⟨a0, ha0⟩ := List.exists_mem_of_ne_nil _ (hne _ hsink)
  obtain ⟨n0, hn0⟩ := hall a0 ha0
  have hkne : kids ≠ [] := List.ne_nil_of_mem hn0
  obtain ⟨a, n, x, hm, h1, h2, _⟩ := c37_best_value (low := low) (threshold := threshold) (opp := isOpponent m nd.time)
    (kids := kids) hkne (by
      intro p hp
      obtain ⟨g1, _, g3⟩ := hkid p hp
      rw [g3]
      exact hlow p.1 g1) raw hi
  obtain ⟨_, hbest⟩ := h2 ⟨_, hn0, by have := (hkid _ hn0).2.1; simp only at this ⊢; omega⟩
  obtain ⟨ha, _, hxa⟩ := hkid _ hm
  simp only at hxa ha
  refine ⟨a, ha, ?_, ?_⟩
  · unfold recommendBestOrRandom
    rw [if_neg (by simpa using hkne)]
    exact h1
  · have hle : ∀ b ∈ env.actions nd.state, (if isOpponent m nd.time then (-1 : 𝕜) else 1) * Q b ≤ (if isOpponent m nd.time then -1 else 1) * Q a := by
      intro b hb
      obtain ⟨nb, hnb⟩ := hall b hb
      have := hbest _ hnb (by have := (hkid _ hnb).2.1; simp only at this ⊢; omega)
      rw [← hxa]
      exact this
    unfold Best
    split
    · next ho =>
      refine ⟨⟨a, ha, rfl⟩, ?_⟩
      rintro _ ⟨b, hb, rfl⟩
      have := hle b hb
      simp only [ho, if_true] at this
      linarith
    · next ho =>
      refine ⟨⟨a, ha, rfl⟩, ?_⟩
      rintro _ ⟨b, hb, rfl⟩
      have := hle b hb
      simp only [ho] at this
      simpa using this

/-- Two workers play out a deterministic game of two moves, the opponent second, and the run meets the hypotheses: nobody is in a trial,
everything was tried, the root has the value of the game, and the recommended action is the better one. -/
example : ∃ st h, Reachable Det.env Det.mgr (Toy.alg Det.lr) 2 0 0 0 [] st h ∧
    (st.ws.all (fun p => decide (p = Phase.idle)) && st.dn.length == 7 &&
     (List.range 7).all (fun d => (st.dn[d]?).any fun nd => isLeaf Det.env Det.mgr nd ||
       (Det.env.actions nd.state).all fun a => (childC st d a).isSome) &&
     valD id st 0 == some (gameValue Det.env Det.mgr Det.next 2 0 0) &&
     ((st.dn[0]?).any fun nd => recommendBestOrRandom (-1000) 0 false [0, 1]
       ((viewOf Det.env Det.mgr st nd).kids.map fun k => (k.1, k.2.2.n, k.2.2.val.getD 0)) 0 id == some 0)) = true :=
  Det.run _ (by decide +kernel)

end Verif.Backups
