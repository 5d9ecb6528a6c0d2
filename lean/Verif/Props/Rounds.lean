import Verif.Proofs.Rounds
import Verif.Props.Tree

/-!
# With a transposition table, values become exact after as many rounds as the game has moves: C108

`Rounds … n st h` (`Verif.Spec.Rounds`): the search has tried every action of every node and has then run `n` rounds, each of which tried
every action of every node again.  `gameValue` is the value of the game, `moveValue` that of a move.
-/

set_option linter.unusedSectionVars false
set_option linter.unusedSimpArgs false

namespace Verif.Backups

open Verif.Search

section
variable {S A 𝕜 X Y : Type} [DecidableEq S] [DecidableEq A] [Field 𝕜] [LinearOrder 𝕜] [IsStrictOrderedRing 𝕜]
  {env : Env S A 𝕜} {m : Manager S 𝕜} {alg : Alg S A 𝕜 X Y} {px : X → Dp 𝕜} {py : Y → Dp 𝕜} {lr : S → A → 𝕜}
  {k : Nat} {s0 : S} {dp tm : Int} {tb : List ((Int × S) × Option Nat)} {st : St S A 𝕜 X Y} {h : List (Event S A 𝕜)}
  {next : S → A → S}

/-- C108.  After `n` rounds every decision node with at most `n + 1` moves to go has the value of the game, and every action there the
value of the move; with or without a transposition table. -/
theorem c108_rounds (hdet : ∀ s a, a ∈ env.actions s → env.succ s a = [next s a])
    (hlr : ∀ s a, a ∈ env.actions s → lr s a = env.reward s a (next s a)) (hne : ∀ s, env.isSink s = false → env.actions s ≠ [])
    (hv : alg.Valid) (H : HasDp alg px py lr) (htb : Leftover tb) {n : Nat} (hR : Rounds env m alg k s0 dp tm tb n st h) :
    (∀ (d : Nat) nd, st.dn[d]? = some nd → remaining m nd.depth ≤ n + 1 →
      valD px st d = some (gameValue env m next (remaining m nd.depth) nd.time nd.state)) ∧
    (∀ (d : Nat) nd (a : A) (c : Nat), st.dn[d]? = some nd → childC st d a = some c → remaining m nd.depth ≤ n + 1 →
      valC py st c = some (moveValue env m next (remaining m (nd.depth + 1)) nd.time nd.state a)) := by
  obtain ⟨hr, hq, N⟩ := rounds_near hdet hlr hne hv H htb hR
  have I := reach_inv hv htb hr
  constructor
  · intro d nd hd hrem
    simp only [valD, hd, Option.bind_some]
    exact N.d d nd hd hrem
  · intro d nd a c hd hc hrem
    obtain ⟨nd2, nc, k1, k2, k3, k4, k5, k6, k7, k8⟩ := childC_facts I.tree hc
    rw [hd] at k1
    obtain rfl := Option.some.inj k1
    have := (N.c c nc k2 (by rw [k6]; exact hrem)).1
    unfold ExC at this
    rw [k4, k5, k6, k7] at this
    simpa only [valC, k2, Option.bind_some] using this

/-- C108.  After as many rounds as the game has moves, less one, the root has the value of the game, and so has every other node. -/
theorem c108_root (hdet : ∀ s a, a ∈ env.actions s → env.succ s a = [next s a])
    (hlr : ∀ s a, a ∈ env.actions s → lr s a = env.reward s a (next s a)) (hne : ∀ s, env.isSink s = false → env.actions s ≠ [])
    (hv : alg.Valid) (H : HasDp alg px py lr) (htb : Leftover tb) {n : Nat} (hR : Rounds env m alg k s0 dp tm tb n st h)
    (hn : remaining m dp ≤ n + 1) :
    valD px st st.root = some (gameValue env m next (remaining m dp) tm s0) ∧
    ∀ (d : Nat) nd, st.dn[d]? = some nd → valD px st d = some (gameValue env m next (remaining m nd.depth) nd.time nd.state) := by
  obtain ⟨hr, hq, _⟩ := rounds_near hdet hlr hne hv H htb hR
  have T := (reach_inv hv htb hr).tree
  have key : ∀ (d : Nat) nd, st.dn[d]? = some nd →
      valD px st d = some (gameValue env m next (remaining m nd.depth) nd.time nd.state) := by
    intro d nd hd
    refine (c108_rounds hdet hlr hne hv H htb hR).1 d nd hd ?_
    have h5 := (T.heap.dTime d nd.skel (by simp [hd])).2
    simp only [DNode.skel] at h5
    unfold remaining at hn ⊢
    omega
  refine ⟨?_, key⟩
  obtain ⟨nd, h1, h2, h3, h4⟩ := root_node T
  rw [key _ nd h1, h2, h3, h4]

open Verif.Uct Verif.Ments in
/-- C108.  And the action recommended by DP value at a node with at most `n + 1` moves to go is an optimal move of the game. -/
theorem c108_recommends_optimal (hdet : ∀ s a, a ∈ env.actions s → env.succ s a = [next s a])
    (hlr : ∀ s a, a ∈ env.actions s → lr s a = env.reward s a (next s a)) (hne : ∀ s, env.isSink s = false → env.actions s ≠ [])
    (hv : alg.Valid) (H : HasDp alg px py lr) (htb : Leftover tb) {n : Nat} (hR : Rounds env m alg k s0 dp tm tb n st h)
    {d : Nat} {nd : DNode S A 𝕜 X} (hd : st.dn[d]? = some nd) (hleaf : isLeaf env m nd = false) (hrem : remaining m nd.depth ≤ n + 1)
    {low : 𝕜} {threshold : Int} (ht : threshold ≤ 1)
    (hlow : ∀ a ∈ env.actions nd.state, low ≤ (if isOpponent m nd.time then -1 else 1) *
      moveValue env m next (remaining m (nd.depth + 1)) nd.time nd.state a)
    (raw : Nat) {iter : List (A × 𝕜) → List (A × 𝕜)} (hi : IterOk iter) :
    ∃ a ∈ env.actions nd.state,
      recommendBestOrRandom low threshold (viewOf env m st nd).opp (viewOf env m st nd).actions
        ((viewOf env m st nd).kids.map fun k => (k.1, (py k.2.2).n, (py k.2.2).val.getD 0)) raw iter = some a ∧
      Best (isOpponent m nd.time)
        {x | ∃ b ∈ env.actions nd.state, moveValue env m next (remaining m (nd.depth + 1)) nd.time nd.state b = x}
        (moveValue env m next (remaining m (nd.depth + 1)) nd.time nd.state a) := by
  obtain ⟨hr, hq, N⟩ := rounds_near hdet hlr hne hv H htb hR
  obtain ⟨I, _, D⟩ := dp_reach hv H htb hr
  have F : Full env m st := N.grow.resolve_left (by omega)
  let Q : A → 𝕜 := fun a => moveValue env m next (remaining m (nd.depth + 1)) nd.time nd.state a
  have hsink : env.isSink nd.state = false := by
    simp [isLeaf] at hleaf
    exact hleaf.1
  set kids := (viewOf env m st nd).kids.map fun k => (k.1, (py k.2.2).n, (py k.2.2).val.getD 0) with hkids
  have hkid : ∀ p ∈ kids, p.1 ∈ env.actions nd.state ∧ 1 ≤ p.2.1 ∧ p.2.2 = Q p.1 := by
    intro p hp
    obtain ⟨q, hq', rfl⟩ := List.mem_map.1 hp
    obtain ⟨c, nc, g1, g2, g3⟩ := mem_kidsY.1 hq'
    have hcc := childC_of_mem I.tree hd g1
    obtain ⟨nd2, nc2, f1, f2, _, _, _, _, _, f8⟩ := childC_facts I.tree hcc
    rw [hd] at f1
    obtain rfl := Option.some.inj f1
    have hval := (c108_rounds hdet hlr hne hv H htb hR).2 d nd _ c hd hcc hrem
    refine ⟨f8, ?_, ?_⟩
    · rw [g3]
      dsimp only
      rw [(D.c c nc g2).1]
      exact List.length_pos_iff.2 (c39_children_backed hv htb hr hq hcc).2
    · rw [g3]
      simp only [valC, g2, Option.bind_some] at hval
      simp only [Q]
      rw [hval]
      rfl
  have hall : ∀ a ∈ env.actions nd.state, ∃ n, (a, n, Q a) ∈ kids := by
    intro a ha
    obtain ⟨c, hc⟩ := F.1 d nd hd hleaf a ha
    obtain ⟨nd2, nc, f1, f2, f3, _⟩ := childC_facts I.tree hc
    rw [hd] at f1
    obtain rfl := Option.some.inj f1
    have hm : (a, (py nc.y).n, (py nc.y).val.getD 0) ∈ kids :=
      List.mem_map.2 ⟨(a, nc.visits, nc.y), mem_kidsY.2 ⟨c, nc, f3, f2, rfl⟩, rfl⟩
    have := (hkid _ hm).2.2
    simp only at this
    rw [this] at hm
    exact ⟨_, hm⟩
  obtain ⟨a0, ha0⟩ := List.exists_mem_of_ne_nil _ (hne _ hsink)
  obtain ⟨n0, hn0⟩ := hall a0 ha0
  have hkne : kids ≠ [] := List.ne_nil_of_mem hn0
  obtain ⟨a, n, x, hm, h1, h2, _⟩ := c37_best_value (low := low) (threshold := threshold) (opp := isOpponent m nd.time)
    (kids := kids) hkne (by
      intro p hp
      obtain ⟨g1, _, g3⟩ := hkid p hp
      rw [g3]
      exact hlow p.1 g1) raw hi
  obtain ⟨_, hbest⟩ := h2 ⟨_, hn0, by have := (hkid _ hn0).2.1; simp only at this ⊢; omega⟩
  obtain ⟨ha, _, hxa⟩ := hkid _ hm
  simp only at hxa ha
  refine ⟨a, ha, ?_, ?_⟩
  · unfold recommendBestOrRandom
    rw [if_neg (by simpa using hkne)]
    exact h1
  · have hle : ∀ b ∈ env.actions nd.state, (if isOpponent m nd.time then (-1 : 𝕜) else 1) * Q b ≤ (if isOpponent m nd.time then -1 else 1) * Q a := by
      intro b hb
      obtain ⟨nb, hnb⟩ := hall b hb
      have := hbest _ hnb (by have := (hkid _ hnb).2.1; simp only at this ⊢; omega)
      rw [← hxa]
      exact this
    unfold Best
    split
    · next ho =>
      refine ⟨⟨a, ha, rfl⟩, ?_⟩
      rintro _ ⟨b, hb, rfl⟩
      have := hle b hb
      simp only [ho, if_true] at this
      linarith
    · next ho =>
      refine ⟨⟨a, ha, rfl⟩, ?_⟩
      rintro _ ⟨b, hb, rfl⟩
      have := hle b hb
      simp only [ho] at this
      simpa using this

end

/-! ## The game of two moves with one state per timestep -/

namespace Dag

theorem hasDp : HasDp (Toy.alg lr) id id lr := ⟨fun _ _ _ _ => rfl, fun _ _ _ _ => rfl, fun _ _ => rfl, fun _ => rfl, fun _ _ _ => rfl, fun _ _ _ _ _ => rfl⟩

theorem valid : (Toy.alg lr).Valid := by
  intro v _ a h
  simpa [Toy.alg] using h

theorem quiet_of {st : St Nat Nat ℚ (Dp ℚ) (Dp ℚ)} (h : (st.ws.all fun p => decide (p = Phase.idle)) = true) : Quiescent st := by
  intro w p hp
  simpa using List.all_eq_true.1 h p (List.mem_of_getElem? hp)

theorem exhausted_of {st : St Nat Nat ℚ (Dp ℚ) (Dp ℚ)}
    (h : ((List.range st.dn.length).all fun d => (st.dn[d]?).all fun nd => isLeaf env mgr nd ||
      (env.actions nd.state).all fun a => (childC st d a).isSome) = true) : Exhausted env mgr st := by
  intro d nd hd hl a ha
  have h1 := List.all_eq_true.1 h d (List.mem_range.2 (List.getElem?_eq_some_iff.1 hd).1)
  rw [hd] at h1
  simp only [Option.all_some, hl, Bool.false_or] at h1
  exact Option.isSome_iff_exists.1 (List.all_eq_true.1 h1 a ha)

theorem tried_of {st : St Nat Nat ℚ (Dp ℚ) (Dp ℚ)} {r : List (Event Nat Nat ℚ)}
    (h : ((List.range st.dn.length).all fun d => (st.dn[d]?).all fun nd => isLeaf env mgr nd ||
      (env.actions nd.state).all fun a => r.any fun e => match e with | .selected _ d' a' _ => d' == d && a' == a | _ => false) = true) :
    TriedAll env mgr st r := by
  intro d nd hd hl a ha
  have h1 := List.all_eq_true.1 h d (List.mem_range.2 (List.getElem?_eq_some_iff.1 hd).1)
  rw [hd] at h1
  simp only [Option.all_some, hl, Bool.false_or] at h1
  obtain ⟨e, he, h2⟩ := List.any_eq_true.1 (List.all_eq_true.1 h1 a ha)
  cases e with
  | selected w d' a' c =>
    simp only [Bool.and_eq_true, beq_iff_eq] at h2
    obtain ⟨rfl, rfl⟩ := h2
    exact ⟨w, c, he⟩
  | _ => simp at h2

theorem first_some : ∃ p, first = some p := by
  have : first.isSome = true := by decide +kernel
  exact Option.isSome_iff_exists.1 this

theorem first_rounds : ∃ st h, first = some (st, h) ∧ Rounds env mgr (Toy.alg lr) 2 0 0 0 [] 0 st h := by
  obtain ⟨⟨st, h⟩, hf⟩ := first_some
  refine ⟨st, h, hf, .zero ⟨sched, hf⟩ ?_ ?_⟩
  · have : first.all (fun p => p.1.ws.all fun p => decide (p = Phase.idle)) = true := by decide +kernel
    rw [hf] at this
    exact quiet_of this
  · have : first.all (fun p => (List.range p.1.dn.length).all fun d => (p.1.dn[d]?).all fun nd => isLeaf env mgr nd ||
      (env.actions nd.state).all fun a => (childC p.1 d a).isSome) = true := by decide +kernel
    rw [hf] at this
    exact exhausted_of this

end Dag

/-- C108.  With a transposition table a search of a deterministic game that has tried everything can have a wrong value at the root (10 for
15), with the wrong move recommended, and an action whose value does not agree with that of the node it leads to (5, although the reward is 5
and the node has the value 10). -/
theorem c108_stale_false : ∃ st h, Reachable Dag.env Dag.mgr (Toy.alg Dag.lr) 2 0 0 0 [] st h ∧ Quiescent st ∧
    Exhausted Dag.env Dag.mgr st ∧ valD id st st.root = some 10 ∧ gameValue Dag.env Dag.mgr Dag.next 2 0 0 = 15 ∧
    (∃ nd, st.dn[st.root]? = some nd ∧ recommendBestOrRandom (-1000) 0 (viewOf Dag.env Dag.mgr st nd).opp (viewOf Dag.env Dag.mgr st nd).actions
      ((viewOf Dag.env Dag.mgr st nd).kids.map fun k => (k.1, k.2.2.n, k.2.2.val.getD 0)) 0 id = some 1) ∧
    moveValue Dag.env Dag.mgr Dag.next 1 0 0 1 < moveValue Dag.env Dag.mgr Dag.next 1 0 0 0 ∧
    childC st st.root 0 = some 0 ∧ childD st 0 1 = some 1 ∧ valC id st 0 = some 5 ∧ Dag.lr 0 0 = 5 ∧ valD id st 1 = some 10 := by
  obtain ⟨st, h, hf, hR⟩ := Dag.first_rounds
  cases hR with
  | zero hr hq hx =>
    refine ⟨st, h, hr, hq, hx, ?_⟩
    have key : Dag.first.all (fun p => decide (valD id p.1 p.1.root = some 10 ∧ gameValue Dag.env Dag.mgr Dag.next 2 0 0 = 15 ∧
      moveValue Dag.env Dag.mgr Dag.next 1 0 0 1 < moveValue Dag.env Dag.mgr Dag.next 1 0 0 0 ∧
      childC p.1 p.1.root 0 = some 0 ∧ childD p.1 0 1 = some 1 ∧ valC id p.1 0 = some 5 ∧ Dag.lr 0 0 = 5 ∧ valD id p.1 1 = some 10) &&
      (p.1.dn[p.1.root]?).any fun nd => recommendBestOrRandom (-1000) 0 (viewOf Dag.env Dag.mgr p.1 nd).opp (viewOf Dag.env Dag.mgr p.1 nd).actions
      ((viewOf Dag.env Dag.mgr p.1 nd).kids.map fun k => (k.1, k.2.2.n, k.2.2.val.getD 0)) 0 id == some 1) = true := by decide +kernel
    rw [hf] at key
    simp only [Option.all_some, Bool.and_eq_true, decide_eq_true_eq] at key
    obtain ⟨⟨k1, k2, k3, k4, k5, k6, k7, k8⟩, k9⟩ := key
    refine ⟨k1, k2, ?_, k3, k4, k5, k6, k7, k8⟩
    cases hd : st.dn[st.root]? with
    | none => rw [hd] at k9; simp at k9
    | some nd =>
      rw [hd] at k9
      exact ⟨nd, rfl, by simpa using k9⟩

/-- C108.  The number of rounds is sharp: no round has been run, and the root, with two moves to go, does not have the value of the game. -/
theorem c108_sharp : ∃ st h, Rounds Dag.env Dag.mgr (Toy.alg Dag.lr) 2 0 0 0 [] 0 st h ∧ remaining Dag.mgr 0 = 2 ∧
    valD id st st.root ≠ some (gameValue Dag.env Dag.mgr Dag.next (remaining Dag.mgr 0) 0 0) := by
  obtain ⟨st, h, hf, hR⟩ := Dag.first_rounds
  refine ⟨st, h, hR, rfl, ?_⟩
  have key : Dag.first.all (fun p => decide (valD id p.1 p.1.root ≠ some (gameValue Dag.env Dag.mgr Dag.next (remaining Dag.mgr 0) 0 0))) = true := by
    decide +kernel
  rw [hf] at key
  simpa using key

/-- The same search after one round of two interleaved trials meets the hypotheses of the theorems above; its root has the value 15. -/
example : ∃ st h, Rounds Dag.env Dag.mgr (Toy.alg Dag.lr) 2 0 0 0 [] 1 st h ∧ remaining Dag.mgr 0 ≤ 1 + 1 ∧ valD id st st.root = some 15 ∧
    HasDp (Toy.alg Dag.lr) id id Dag.lr ∧ (Toy.alg Dag.lr).Valid ∧ Leftover ([] : List ((Int × Nat) × Option Nat)) ∧
    (∀ s a, a ∈ Dag.env.actions s → Dag.env.succ s a = [Dag.next s a]) := by
  obtain ⟨st, h, hf, hR⟩ := Dag.first_rounds
  have h1 : (Dag.first.all fun p => (execFrom Dag.env Dag.mgr (Toy.alg Dag.lr) p.1 p.2 Dag.round).any fun q =>
      (q.1.ws.all fun p => decide (p = Phase.idle)) && decide (q.2 = q.2.take 22 ++ p.2) &&
      decide (valD id q.1 q.1.root = some 15) &&
      (List.range p.1.dn.length).all fun d => (p.1.dn[d]?).all fun nd => isLeaf Dag.env Dag.mgr nd ||
      (Dag.env.actions nd.state).all fun a => (q.2.take 22).any fun e => match e with
        | .selected _ d' a' _ => d' == d && a' == a | _ => false) = true := by decide +kernel
  rw [hf] at h1
  simp only [Option.all_some] at h1
  cases hx : execFrom Dag.env Dag.mgr (Toy.alg Dag.lr) st h Dag.round with
  | none => rw [hx] at h1; simp at h1
  | some q =>
    obtain ⟨st', h'⟩ := q
    rw [hx] at h1
    simp only [Option.any_some, Bool.and_eq_true, decide_eq_true_eq] at h1
    obtain ⟨⟨⟨k1, k2⟩, k3⟩, k4⟩ := h1
    rw [k2] at hx
    exact ⟨st', _, .succ hR hx (Dag.quiet_of k1) (Dag.tried_of k4), by decide, k3, Dag.hasDp, Dag.valid, by simp [Leftover], fun _ _ _ => rfl⟩

end Verif.Backups
