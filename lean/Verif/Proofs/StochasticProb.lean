import Verif.Proofs.Stochastic
import Mathlib.Tactic.ByContra

/-! # Searches of stochastic environments: the tree is well sampled with high probability (C90) -/

set_option linter.unusedSectionVars false
set_option linter.unusedSimpArgs false

namespace Verif.Random

open Verif.Search Verif.Eval Verif.Spec Verif.Backups

section
variable {S A X Y : Type} [DecidableEq S] [DecidableEq A]
  {env : Env S A ℝ} {m : Manager S ℝ} {alg : Alg S A ℝ X Y} {k : Nat} {s0 : S} {dp tm : Int}
  {tb : List ((Int × S) × Option Nat)} {st : St S A ℝ X Y} {h : List (Event S A ℝ)} {D : Dice S A ℝ X Y} {N : Nat} {pa po : ℝ}
  {sched : Scheduler S A ℝ} {M B : Nat} {V η : ℝ}

/-- The number of chance nodes is bounded. -/
theorem chance_count (hv : alg.Valid) (htb : Leftover tb) (hr : Reachable env m alg k s0 dp tm tb st h)
    (hB : ∀ l ∈ plays env (m.maxDepth - dp).toNat s0, (env.actions (endState s0 l)).length ≤ B) :
    st.cn.length ≤ (plays env (m.maxDepth - dp).toNat s0).length * B := by
  classical
  have I := reach_inv hv htb hr
  obtain ⟨_, P2, P3, _⟩ := c14_parents hv htb hr
  obtain ⟨nr, r1, r2, r3, _⟩ := root_node I.tree
  set L := plays env (m.maxDepth - dp).toNat s0 with hL
  let pairs : List (List (A × S) × A) := L.flatMap fun l => (env.actions (endState s0 l)).map fun a => (l, a)
  have hlen : pairs.length ≤ L.length * B := by
    have : ∀ L : List (List (A × S)), (∀ l ∈ L, (env.actions (endState s0 l)).length ≤ B) →
        (L.flatMap fun l => (env.actions (endState s0 l)).map fun a => (l, a)).length ≤ L.length * B := by
      intro L hB
      induction L with
      | nil => simp
      | cons l L ih =>
        have ih := ih fun l hl => hB l (by simp [hl])
        simp only [List.flatMap_cons, List.length_append, List.length_map, List.length_cons]
        have := hB l (by simp)
        rw [Nat.add_mul]
        omega
    exact this L hB
  have hex : ∀ c : Fin st.cn.length, ∃ p : List (A × S) × A, p ∈ pairs ∧ ∃ d, Leads st st.root p.1 d ∧ childC st d p.2 = some c.1 := by
    rintro ⟨c, hc⟩
    obtain ⟨nc, hnc⟩ : ∃ nc, st.cn[c]? = some nc := ⟨_, List.getElem?_eq_getElem hc⟩
    obtain ⟨d, hd⟩ := P2 c nc hnc
    obtain ⟨nd, _, f1, _, f3, _, _, _, _, f8⟩ := childC_facts I.tree hd
    have hdep := (I.tree.heap.dTime d nd.skel (by simp [f1])).2
    simp only [DNode.skel] at hdep
    obtain ⟨l, k1, k2, k3⟩ := every_node hv htb hr (nd.depth - dp).toNat d nd f1 (by omega)
    obtain ⟨nd', q1, q2, _⟩ := k1.node I.tree r1
    rw [f1] at q1
    obtain rfl := Option.some.inj q1
    rw [r2] at q2
    have hlt : nd.depth < m.maxDepth := by
      by_contra hx
      have := I.tree.heap.dLeaf d nd.skel (by simp [f1]) (by rw [← isLeaf_skel]; simp only [isLeaf, Bool.or_eq_true, decide_eq_true_eq]; right; omega)
      simp only [DNode.skel] at this
      rw [this] at f3
      simp at f3
    refine ⟨(l, nc.action), ?_, d, k1, hd⟩
    refine List.mem_flatMap.2 ⟨l, mem_plays.2 ⟨k2, by omega⟩, List.mem_map.2 ⟨nc.action, ?_, rfl⟩⟩
    rw [← q2]
    exact f8
  choose φ hφ1 hφ2 using hex
  have hinj : Function.Injective φ := by
    intro c c' he
    obtain ⟨d, h1, h2⟩ := hφ2 c
    obtain ⟨d', h1', h2'⟩ := hφ2 c'
    rw [he] at h1 h2
    obtain rfl := h1.unique h1'
    rw [h2] at h2'
    exact Fin.ext (Option.some.inj h2')
  have hnd : ((List.finRange st.cn.length).map φ).Nodup := (List.nodup_finRange _).map hinj
  have hsub : (List.finRange st.cn.length).map φ ⊆ pairs := by
    intro p hp
    obtain ⟨c, _, rfl⟩ := List.mem_map.1 hp
    exact hφ1 c
  have := (List.subperm_of_subset hnd hsub).length_le
  rw [List.length_map, List.length_finRange] at this
  omega

theorem excess_centred (hX : Explores env m alg D k s0 dp tm tb N pa po)
    (hV : ∀ n t s, n ≤ (m.maxDepth - dp).toNat → |expValue env m D.obs n t s| ≤ V) :
    Centred env D dp (excess env m D.obs) (2 * V) := by
  refine ⟨fun s a dep tim hs ha hdep => ?_, fun s a dep tim o hs ha hdep ho => ?_⟩
  · obtain ⟨x1, _⟩ := hX.obs s a hs ha
    unfold excess
    simp only [sub_eq_add_neg]
    rw [mean1_add, mean1_const x1]
    ring
  · obtain ⟨x1, _⟩ := hX.obs s a hs ha
    have hr : remaining m (dep + 1) ≤ (m.maxDepth - dp).toNat := by unfold remaining; omega
    have h1 := hV _ (tim + 1) o hr
    have h2 := mean1_abs x1 (f := fun o => expValue env m D.obs (remaining m (dep + 1)) (tim + 1) o) (fun o => hV _ (tim + 1) o hr)
    unfold excess
    have := abs_sub (expValue env m D.obs (remaining m (dep + 1)) (tim + 1) o)
      (mean1 (D.obs s a) fun o => expValue env m D.obs (remaining m (dep + 1)) (tim + 1) o)
    linarith

/-- A tree in which every play has been followed more than `M` times and no chance node is far from its expectation is well sampled. -/
theorem sampled_of (hl : env.Live) (hv : alg.Valid) (htb : Leftover tb) (hu : m.useTable = false) (hr : Reachable env m alg k s0 dp tm tb st h)
    (hB : ∀ s, (env.actions s).length ≤ B) (h1 : ∀ play ∈ plays env (m.maxDepth - dp).toNat s0, M < hits play h)
    (h2 : ∀ c < (plays env (m.maxDepth - dp).toNat s0).length * B, ¬ ∃ nc, st.cn[c]? = some nc ∧ M ≤ h.countP (Event.stepVia c) ∧
      η * h.countP (Event.stepVia c) < |sampleSum (excess env m D.obs nc.state nc.action nc.depth nc.time) c h|) :
    Sampled env m D.obs s0 dp M η st h := by
  obtain ⟨I, C⟩ := reach_both hv htb hr
  obtain ⟨_, P2, _⟩ := c14_parents hv htb hr
  obtain ⟨nr, r1, r2, r3, _⟩ := root_node I.tree
  have often : ∀ play ∈ plays env (m.maxDepth - dp).toNat s0, play ≠ [] → ∃ e, Leads st st.root play e ∧ M ≤ h.countP (Event.stepInto e) := by
    intro play hp hne
    rcases hits_visits (play := play) hv htb hr with h0 | ⟨e, he, hv'⟩
    · have := h1 play hp; omega
    · refine ⟨e, he, ?_⟩
      obtain ⟨nd, q1, q2, q3, _⟩ := he.node I.tree r1
      have hnr : e ≠ st.root := by
        rintro rfl
        rw [r1] at q1
        obtain rfl := Option.some.inj q1
        have := List.length_pos_of_ne_nil hne
        omega
      have h4 := C.v4 e
      rw [if_neg hnr] at h4
      have := h1 play hp
      omega
  refine ⟨often, fun c nc hc => ?_⟩
  have hlt : c < st.cn.length := (List.getElem?_eq_some_iff.1 hc).1
  obtain ⟨d, hd⟩ := P2 c nc hc
  obtain ⟨nd, _, f1, _, f3, _⟩ := childC_facts I.tree hd
  have hleaf : isLeaf env m nd = false := by
    rw [Bool.eq_false_iff]
    intro hx
    rw [isLeaf_skel] at hx
    have := I.tree.heap.dLeaf d nd.skel (by simp [f1]) hx
    simp only [DNode.skel] at this
    rw [this] at f3
    simp at f3
  have hvia := via_often hl hv htb hu hr often f1 hd hleaf
  have := h2 c (lt_of_lt_of_le hlt (chance_count hv htb hr fun l _ => hB _))
  by_contra hx
  exact this ⟨nc, hc, hvia, not_le.1 hx⟩

/-- The probability of a union. -/
theorem prob_union (hv : alg.Valid) (htb : Leftover tb) (ht : TableOk m tb) (hX : Explores env m alg D k s0 dp tm tb N pa po) {ι : Type} (l : List ι)
    (P : ι → St S A ℝ X Y → List (Event S A ℝ) → Prop) {p : ℝ} (n : Nat) (hp : ∀ i ∈ l, probAfter env m alg D k s0 dp tm tb N sched n (P i) ≤ p) :
    probAfter env m alg D k s0 dp tm tb N sched n (fun st h => ∃ i ∈ l, P i st h) ≤ l.length * p := by
  classical
  have h2 : probAfter env m alg D k s0 dp tm tb N sched n (fun st h => ∃ i ∈ l, P i st h) ≤
      (l.map fun i => probAfter env m alg D k s0 dp tm tb N sched n (P i)).sum := by
    unfold probAfter
    rw [← expect_sum]
    refine expect_le hv htb ht hX (fun st h _ _ => ?_) n reach_start (by simp [trialsBegun])
    split
    · next hx =>
      obtain ⟨i, hi, hx⟩ := hx
      refine le_trans (le_of_eq (if_pos hx).symm) (List.single_le_sum ?_ _ (List.mem_map.2 ⟨i, hi, rfl⟩))
      intro x hx
      obtain ⟨q, _, rfl⟩ := List.mem_map.1 hx
      split <;> norm_num
    · exact List.sum_nonneg (by
        intro x hx
        obtain ⟨q, _, rfl⟩ := List.mem_map.1 hx
        split <;> norm_num)
  refine le_trans h2 ?_
  have := List.sum_le_card_nsmul (l.map fun i => probAfter env m alg D k s0 dp tm tb N sched n (P i)) p (by
    intro x hx
    obtain ⟨i, hi, rfl⟩ := List.mem_map.1 hx
    exact hp i hi)
  simpa using this

theorem prob_or (hv : alg.Valid) (htb : Leftover tb) (ht : TableOk m tb) (hX : Explores env m alg D k s0 dp tm tb N pa po)
    (P Q : St S A ℝ X Y → List (Event S A ℝ) → Prop) (n : Nat) :
    probAfter env m alg D k s0 dp tm tb N sched n (fun st h => P st h ∨ Q st h) ≤
      probAfter env m alg D k s0 dp tm tb N sched n P + probAfter env m alg D k s0 dp tm tb N sched n Q := by
  classical
  unfold probAfter
  rw [← expect_add]
  refine expect_le hv htb ht hX (fun st h _ _ => ?_) n reach_start (by simp [trialsBegun])
  by_cases hP : P st h <;> by_cases hQ : Q st h <;> simp [hP, hQ]

/-- The tree is well sampled with high probability. -/
theorem sampled_prob (hl : env.Live) (hv : alg.Valid) (htb : Leftover tb) (hu : m.useTable = false) (hX : Explores env m alg D k s0 dp tm tb N pa po)
    (hpa : 0 ≤ pa ∧ pa ≤ 1) (hpo : 0 ≤ po ∧ po ≤ 1) (hdp : dp ≤ m.maxDepth)
    (hB : ∀ s, (env.actions s).length ≤ B) (hV0 : 0 < V) (hV : ∀ n t s, n ≤ (m.maxDepth - dp).toNat → |expValue env m D.obs n t s| ≤ V)
    (hη0 : 0 < η) (hη : η ≤ V)
    (hk : 0 < k) (hsch : Productive env m alg k s0 dp tm tb N sched) {n : Nat} (hn : (4 * (m.maxDepth - dp).toNat + 4) * N ≤ n) :
    1 - (plays env (m.maxDepth - dp).toNat s0).length * (rareBound (pa * po) (m.maxDepth - dp).toNat M N + B * farBound V η M) ≤
    probAfter env m alg D k s0 dp tm tb N sched n (fun st h => Finished N st h ∧ Sampled env m D.obs s0 dp M η st h) := by
  classical
  have ht : TableOk m tb := fun h => by rw [hu] at h; exact absurd h (by simp)
  set L := plays env (m.maxDepth - dp).toNat s0 with hL
  rw [← prob_finished hv htb ht hX hdp hk hsch hn]
  have h1 := (c77_prob_range hv htb ht hX n (sched := sched) (fun st h => Sampled env m D.obs s0 dp M η st h)).2.2
  let F : Nat → St S A ℝ X Y → List (Event S A ℝ) → Prop := fun c st h => ∃ nc, st.cn[c]? = some nc ∧ M ≤ h.countP (Event.stepVia c) ∧
      η * h.countP (Event.stepVia c) < |sampleSum (excess env m D.obs nc.state nc.action nc.depth nc.time) c h|
  have h2 : probAfter env m alg D k s0 dp tm tb N sched n (fun st h => ¬ Sampled env m D.obs s0 dp M η st h) ≤
      probAfter env m alg D k s0 dp tm tb N sched n (fun st h => (∃ play ∈ L, Finished N st h ∧ hits play h ≤ M) ∨ ∃ c ∈ List.range (L.length * B), F c st h) := by
    rw [prob_finished hv htb ht hX hdp hk hsch hn]
    refine prob_mono hv htb ht hX ?_
    rintro st h hr ⟨hf, hns⟩
    by_contra hx
    push Not at hx
    refine hns (sampled_of hl hv htb hu hr hB (fun play hp => hx.1 play hp hf) fun c hc => ?_)
    exact hx.2 c (List.mem_range.2 hc)
  have h3 := prob_or hv htb ht hX (sched := sched) (fun st h => ∃ play ∈ L, Finished N st h ∧ hits play h ≤ M) (fun st h => ∃ c ∈ List.range (L.length * B), F c st h) n
  have h4 := prob_union hv htb ht hX (sched := sched) L (fun play st h => Finished N st h ∧ hits play h ≤ M) n
    (p := rareBound (pa * po) (m.maxDepth - dp).toNat M N) (fun play hp => by
      obtain ⟨v1, v2⟩ := mem_plays.1 hp
      exact le_trans (play_rare hv htb ht hX hpa hpo v1 (by omega) M n)
        (rareBound_mono (mul_nonneg hpa.1 hpo.1) (mul_le_one₀ hpa.2 hpo.1 hpo.2) v2 M N))
  have h5 := prob_union hv htb ht hX (sched := sched) (List.range (L.length * B)) F n (p := farBound V η M) (fun c _ => by
    have := samples_far hv htb ht hX (sched := sched) (excess_centred hX hV) (by linarith : (0 : ℝ) < 2 * V) hη0 (by linarith) c M n
    refine le_trans this (le_of_eq ?_)
    unfold farBound
    congr 4
    ring)
  rw [List.length_range] at h5
  push_cast at h5
  have e : (L.length : ℝ) * (rareBound (pa * po) (m.maxDepth - dp).toNat M N + B * farBound V η M) =
      L.length * rareBound (pa * po) (m.maxDepth - dp).toNat M N + L.length * B * farBound V η M := by ring
  rw [e]
  linarith

end

end Verif.Random
