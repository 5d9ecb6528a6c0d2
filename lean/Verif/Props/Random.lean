import Verif.Proofs.RandomEnd
import Mathlib.Analysis.SpecificLimits.Basic
import Mathlib.Analysis.SpecificLimits.Normed

/-!
# Property C77: a search that explores finds everything, with probability tending to one

`probAfter` (the probability that something holds after a number of steps), `Explores` (the assumption on the random choices), `plays`
(the plays of the game) and `Explored` (the tree has a node for a play) are defined in `Verif.Spec.Random`.
-/

set_option linter.unusedSectionVars false
set_option linter.unusedSimpArgs false

namespace Verif.Random

open Verif.Search Verif.Eval Verif.Spec

section
variable {S A R X Y : Type} [DecidableEq S] [DecidableEq A] [AddMonoid R]
variable {env : Env S A R} {m : Manager S R} {alg : Alg S A R X Y} {k : Nat} {s0 : S} {dp tm : Int}
  {tb : List ((Int × S) × Option Nat)} {play : List (A × S)} {D : Dice S A R X Y} {N : Nat} {pa po : ℝ}
  {sched : Scheduler S A R}

/-! ## Probabilities -/

/-- Probabilities are probabilities. -/
theorem c77_prob_range (hv : alg.Valid) (htb : Leftover tb) (ht : TableOk m tb) (hX : Explores env m alg D k s0 dp tm tb N pa po)
    (n : Nat) (P : St S A R X Y → List (Event S A R) → Prop) :
    0 ≤ probAfter env m alg D k s0 dp tm tb N sched n P ∧ probAfter env m alg D k s0 dp tm tb N sched n P ≤ 1 ∧
    probAfter env m alg D k s0 dp tm tb N sched n P + probAfter env m alg D k s0 dp tm tb N sched n (fun st h => ¬ P st h) = 1 := by
  classical
  have hb : trialsBegun ([] : List (Event S A R)) ≤ N := by simp [trialsBegun]
  refine ⟨?_, ?_, ?_⟩
  · rw [← expect_zero (env := env) (m := m) (alg := alg) (D := D) (N := N) (sched := sched) n (init env m alg k s0 dp tm tb) []]
    refine expect_le hv htb ht hX (fun st h _ _ => ?_) n reach_start hb
    split <;> norm_num
  · rw [← expect_const hv htb ht hX (sched := sched) (1 : ℝ) n reach_start hb]
    refine expect_le hv htb ht hX (fun st h _ _ => ?_) n reach_start hb
    split <;> norm_num
  · unfold probAfter
    rw [← expect_add]
    refine Eq.trans ?_ (expect_const hv htb ht hX (sched := sched) (1 : ℝ) n reach_start hb)
    congr 1
    funext st h
    by_cases hP : P st h <;> simp [hP]

/-- What always holds when something else does is at least as probable. -/
theorem prob_mono (hv : alg.Valid) (htb : Leftover tb) (ht : TableOk m tb) (hX : Explores env m alg D k s0 dp tm tb N pa po) {n : Nat}
    {P Q : St S A R X Y → List (Event S A R) → Prop} (hPQ : ∀ st h, Reachable env m alg k s0 dp tm tb st h → P st h → Q st h) :
    probAfter env m alg D k s0 dp tm tb N sched n P ≤ probAfter env m alg D k s0 dp tm tb N sched n Q := by
  classical
  unfold probAfter
  refine expect_le hv htb ht hX (fun st h hr _ => ?_) n reach_start (by simp [trialsBegun])
  by_cases hP : P st h
  · simp [hP, hPQ st h hr hP]
  · rw [if_neg hP]
    split <;> norm_num

/-! ## One play -/

/-- C77.  Whatever the schedule, and however long the search has run: the probability that all its `N` trials are over and yet a given
possible play of the game is not in the tree is at most `missBound`, which tends to 0 with growing `N`. -/
theorem c77_play_missed (hv : alg.Valid) (htb : Leftover tb) (ht : TableOk m tb) (hX : Explores env m alg D k s0 dp tm tb N pa po)
    (hpa : 0 ≤ pa ∧ pa ≤ 1) (hpo : 0 ≤ po ∧ po ≤ 1) (hp : ValidPlay env s0 play) (hl : dp + play.length ≤ m.maxDepth) (n : Nat) :
    probAfter env m alg D k s0 dp tm tb N sched n (fun st h => Finished N st h ∧ ¬ Explored st play) ≤ missBound (pa * po) play.length N := by
  classical
  have P : Probs pa po := ⟨hpa.1, hpa.2, hpo.1, hpo.2⟩
  have hb : trialsBegun ([] : List (Event S A R)) ≤ N := by simp [trialsBegun]
  have hm0 : 0 ≤ missBound (pa * po) play.length N := by
    have := P.pow0 play.length
    unfold missBound
    positivity
  unfold probAfter
  refine le_trans (expect_le hv htb ht hX (g := fun st h => missBound (pa * po) play.length N * gap k play pa po st h) ?_ n reach_start hb) ?_
  · intro st h hr _
    split
    · next hf => exact gap_finished hv htb ht P hp hl hr hf.1 hf.2
    · exact mul_nonneg hm0 (gap_nonneg P st h)
  · rw [expect_mul]
    refine le_trans (mul_le_mul_of_nonneg_left (le_trans (expect_gap hv htb ht P hX hp hl n reach_start hb) (gap_le_pot P _ _)) hm0) ?_
    rw [pot_start, mul_one]

/-- C77.  Under a schedule that is not idle the search is surely over after `(4D + 4)N` steps, where `D` is the depth of the search. -/
theorem c77_ends (hv : alg.Valid) (htb : Leftover tb) (ht : TableOk m tb) (hX : Explores env m alg D k s0 dp tm tb N pa po) (hdp : dp ≤ m.maxDepth)
    (hk : 0 < k) (hsch : Productive env m alg k s0 dp tm tb N sched) {n : Nat} (hn : (4 * (m.maxDepth - dp).toNat + 4) * N ≤ n) :
    probAfter env m alg D k s0 dp tm tb N sched n (fun st h => Finished N st h) = 1 := by
  classical
  have hb : trialsBegun ([] : List (Event S A R)) ≤ N := by simp [trialsBegun]
  unfold probAfter
  rw [expect_congr hv htb ht hX hdp hk hsch (g := fun _ _ => 1) (fun st h _ hf => by simp [hf]) n reach_start hb (by simpa using hn),
    expect_const hv htb ht hX _ n reach_start hb]

/-- So the probability of anything can be computed at the end. -/
theorem prob_finished (hv : alg.Valid) (htb : Leftover tb) (ht : TableOk m tb) (hX : Explores env m alg D k s0 dp tm tb N pa po) (hdp : dp ≤ m.maxDepth)
    (hk : 0 < k) (hsch : Productive env m alg k s0 dp tm tb N sched) {n : Nat} (hn : (4 * (m.maxDepth - dp).toNat + 4) * N ≤ n)
    (P : St S A R X Y → List (Event S A R) → Prop) :
    probAfter env m alg D k s0 dp tm tb N sched n P = probAfter env m alg D k s0 dp tm tb N sched n (fun st h => Finished N st h ∧ P st h) := by
  classical
  unfold probAfter
  exact expect_congr hv htb ht hX hdp hk hsch (fun st h _ hf => by simp [hf]) n reach_start (by simp [trialsBegun]) (by simpa using hn)

/-! ## Everything -/

theorem missBound_mono {p : ℝ} (h0 : 0 ≤ p) (h1 : p ≤ 1) {L L' : Nat} (hL : L ≤ L') (N : Nat) : missBound p L N ≤ missBound p L' N := by
  unfold missBound
  have a0 : (0 : ℝ) ≤ p ^ L' := pow_nonneg h0 _
  have a1 : p ^ L' ≤ p ^ L := pow_le_pow_of_le_one h0 h1 hL
  have e1 : (2 : ℝ) ^ L ≤ 2 ^ L' := pow_le_pow_right₀ (by norm_num) hL
  have e2 : (1 + p ^ L' / 2) ^ (N - L') ≤ (1 + p ^ L / 2) ^ (N - L) :=
    le_trans (pow_le_pow_left₀ (by positivity) (by linarith) _) (pow_le_pow_right₀ (by linarith) (by omega))
  exact div_le_div₀ (by positivity) e1 (by positivity) e2

/-- C77.  The probability that every possible play of at most `D` steps (the depth of the search) is in the tree at the end of the search is
at least `1 - missBound` times their number. -/
theorem c77_everything_found (hv : alg.Valid) (htb : Leftover tb) (ht : TableOk m tb) (hX : Explores env m alg D k s0 dp tm tb N pa po)
    (hpa : 0 ≤ pa ∧ pa ≤ 1) (hpo : 0 ≤ po ∧ po ≤ 1) (hdp : dp ≤ m.maxDepth)
    (hk : 0 < k) (hsch : Productive env m alg k s0 dp tm tb N sched) {n : Nat} (hn : (4 * (m.maxDepth - dp).toNat + 4) * N ≤ n) :
    1 - (plays env (m.maxDepth - dp).toNat s0).length * missBound (pa * po) (m.maxDepth - dp).toNat N ≤
    probAfter env m alg D k s0 dp tm tb N sched n
      (fun st h => Finished N st h ∧ ∀ play ∈ plays env (m.maxDepth - dp).toNat s0, Explored st play) := by
  classical
  set L := plays env (m.maxDepth - dp).toNat s0 with hL
  rw [← prob_finished hv htb ht hX hdp hk hsch hn]
  have h1 := (c77_prob_range hv htb ht hX n (sched := sched) (fun st _ => ∀ play ∈ L, Explored st play)).2.2
  have h2 : probAfter env m alg D k s0 dp tm tb N sched n (fun st _ => ¬ ∀ play ∈ L, Explored st play) ≤
      (L.map fun play => probAfter env m alg D k s0 dp tm tb N sched n (fun st _ => ¬ Explored st play)).sum := by
    unfold probAfter
    rw [← expect_sum]
    refine expect_le hv htb ht hX (fun st h _ _ => ?_) n reach_start (by simp [trialsBegun])
    split
    · next hx =>
      push Not at hx
      obtain ⟨play, hp, hx⟩ := hx
      refine le_trans (le_of_eq (if_pos hx).symm) (List.single_le_sum ?_ _ (List.mem_map.2 ⟨play, hp, rfl⟩))
      intro x hx
      obtain ⟨q, _, rfl⟩ := List.mem_map.1 hx
      split <;> norm_num
    · exact List.sum_nonneg (by
        intro x hx
        obtain ⟨q, _, rfl⟩ := List.mem_map.1 hx
        split <;> norm_num)
  have h3 : (L.map fun play => probAfter env m alg D k s0 dp tm tb N sched n (fun st _ => ¬ Explored st play)).sum ≤
      L.length * missBound (pa * po) (m.maxDepth - dp).toNat N := by
    have : ∀ l : List (List (A × S)), (∀ play ∈ l, play ∈ L) →
        (l.map fun play => probAfter env m alg D k s0 dp tm tb N sched n (fun st _ => ¬ Explored st play)).sum ≤
        l.length * missBound (pa * po) (m.maxDepth - dp).toNat N := by
      intro l hl
      induction l with
      | nil => simp
      | cons play l ih =>
        obtain ⟨v1, v2⟩ := mem_plays.1 (hl play (List.mem_cons_self ..))
        have e1 := ih fun q hq => hl q (List.mem_cons_of_mem _ hq)
        have e2 : probAfter env m alg D k s0 dp tm tb N sched n (fun st _ => ¬ Explored st play) ≤
            missBound (pa * po) (m.maxDepth - dp).toNat N := by
          rw [prob_finished hv htb ht hX hdp hk hsch hn]
          exact le_trans (c77_play_missed hv htb ht hX hpa hpo v1 (by omega) n)
            (missBound_mono (mul_nonneg hpa.1 hpo.1) (mul_le_one₀ hpa.2 hpo.1 hpo.2) v2 N)
        simp only [List.map_cons, List.sum_cons, List.length_cons]
        push_cast
        linarith
    exact this L fun _ h => h
  linarith

/-- C77.  Then the tree is complete: every node that is not a leaf has a child for every action, and every child has all its outcomes. -/
theorem c77_complete (hl : env.Live) (hv : alg.Valid) (htb : Leftover tb) {st : St S A R X Y} {h : List (Event S A R)}
    (hr : Reachable env m alg k s0 dp tm tb st h) (hx : ∀ play ∈ plays env (m.maxDepth - dp).toNat s0, Explored st play)
    {d : Nat} {nd : DNode S A R X} (hd : st.dn[d]? = some nd) (hleaf : isLeaf env m nd = false) {a : A} (ha : a ∈ env.actions nd.state) :
    ∃ c, childC st d a = some c ∧ ∀ o ∈ env.succ nd.state a, ∃ d', childD st c o = some d' := by
  have T := (reach_inv hv htb hr).tree
  obtain ⟨nr, g1, g2, g3, _⟩ := root_node T
  have hdep := (T.heap.dTime d nd.skel (by simp [hd])).2
  simp only [DNode.skel] at hdep
  simp only [isLeaf, Bool.or_eq_false_iff, decide_eq_false_iff_not] at hleaf
  obtain ⟨l, k1, k2, k3⟩ := every_node hv htb hr (nd.depth - dp).toNat d nd hd (by omega)
  obtain ⟨nd', q1, q2, _⟩ := k1.node T g1
  rw [hd] at q1
  obtain rfl := Option.some.inj q1
  rw [g2] at q2
  have key : ∀ o ∈ env.succ nd.state a, ∃ c d', childC st d a = some c ∧ childD st c o = some d' := by
    intro o ho
    obtain ⟨e, he⟩ := hx (l ++ [(a, o)]) (mem_plays.2 ⟨validPlay_snoc k2 (by rw [← q2]; exact hleaf.1) (by rw [← q2]; exact ha) (by rw [← q2]; exact ho), by
      simp [k3]; omega⟩)
    obtain ⟨e1, c, h1, h2, h3⟩ := he.unsnoc
    obtain rfl := k1.unique h1
    exact ⟨c, e, h2, h3⟩
  obtain ⟨o, ho⟩ := List.exists_mem_of_ne_nil _ (hl.succs nd.state hleaf.1 a ha)
  obtain ⟨c, d', h1, _⟩ := key o ho
  refine ⟨c, h1, fun o' ho' => ?_⟩
  obtain ⟨c', d'', h2, h3⟩ := key o' ho'
  rw [h1] at h2
  obtain rfl := Option.some.inj h2
  exact ⟨d'', h3⟩

end

/-! ## The bound tends to 0 -/

open Filter Topology in
/-- C77.  If the exploration probability `p N` does not fall too quickly with the number of trials the bound tends to 0. -/
theorem c77_bound_vanishes {p : Nat → ℝ} (L : Nat) (h0 : ∀ N, 0 ≤ p N) (hp : Tendsto (fun N : Nat => (N : ℝ) * p N ^ L) atTop atTop) (h1 : ∀ N, p N ≤ 1) :
    Tendsto (fun N => missBound (p N) L N) atTop (𝓝 0) := by
  have hb : ∀ N, missBound (p N) L N ≤ 2 ^ L / (1 + ((N : ℝ) * p N ^ L - L) / 2) ∨ (N : ℝ) * p N ^ L - L ≤ -2 := by
    intro N
    by_cases hN : (N : ℝ) * p N ^ L - L ≤ -2
    · exact .inr hN
    · left
      push Not at hN
      unfold missBound
      have hq := pow_nonneg (h0 N) L
      have hq1 : p N ^ L ≤ 1 := pow_le_one₀ (h0 N) (h1 N)
      have := one_add_mul_le_pow (a := p N ^ L / 2) (by linarith) (N - L)
      have h2 : (N : ℝ) * p N ^ L - L ≤ ((N - L : ℕ) : ℝ) * p N ^ L := by
        rcases Nat.le_total L N with h | h
        · rw [Nat.cast_sub h]
          have : (L : ℝ) * p N ^ L ≤ L * 1 := mul_le_mul_of_nonneg_left hq1 (by positivity)
          nlinarith
        · rw [Nat.sub_eq_zero_of_le h]
          have : (N : ℝ) * p N ^ L ≤ N * 1 := mul_le_mul_of_nonneg_left hq1 (by positivity)
          have h' : (N : ℝ) ≤ L := by exact_mod_cast h
          simp only [Nat.cast_zero, zero_mul]
          linarith
      refine div_le_div_of_nonneg_left (by positivity) (by linarith) ?_
      linarith
  have hlim : Tendsto (fun N : Nat => (2 : ℝ) ^ L / (1 + ((N : ℝ) * p N ^ L - L) / 2)) atTop (𝓝 0) := by
    refine Tendsto.div_atTop tendsto_const_nhds ?_
    refine tendsto_atTop_add_const_left _ _ ?_
    refine Tendsto.atTop_div_const (by norm_num) ?_
    exact tendsto_atTop_add_const_right _ _ hp
  refine squeeze_zero' (Eventually.of_forall fun N => ?_) ?_ hlim
  · have := pow_nonneg (h0 N) L
    unfold missBound
    positivity
  · filter_upwards [hp.eventually_gt_atTop (L : ℝ)] with N hN
    rcases hb N with h | h
    · exact h
    · linarith

open Filter Topology in
/-- C77.  In particular if it is constant. -/
theorem c77_bound_vanishes_const {p : ℝ} (h0 : 0 < p) (h1 : p ≤ 1) (L : Nat) : Tendsto (fun N => missBound p L N) atTop (𝓝 0) :=
  c77_bound_vanishes L (fun _ => h0.le) (Tendsto.atTop_mul_const (by positivity) tendsto_natCast_atTop_atTop) (fun _ => h1)

end Verif.Random
