import Verif.Proofs.Calls
import Verif.Props.Rounds
import Verif.Props.RandomSearch

/-!
# Several calls of a random search with a transposition table: C109

`probCalls` (`Verif.Spec.Calls`): the probability that something holds after several calls of run_trials with `N` trials each on the same tree.
`Rounds` is defined in `Verif.Spec.Rounds`, `plays`, `Explores` and `missBound` in `Verif.Spec.Random`.
-/

set_option linter.unusedSectionVars false
set_option linter.unusedSimpArgs false

namespace Verif.Random

open Verif.Search Verif.Eval Verif.Spec Verif.Backups

section
variable {S A 𝕜 X Y : Type} [DecidableEq S] [DecidableEq A] [Field 𝕜] [LinearOrder 𝕜] [IsStrictOrderedRing 𝕜]
variable {env : Env S A 𝕜} {m : Manager S 𝕜} {alg : Alg S A 𝕜 X Y} {k : Nat} {s0 : S} {dp tm : Int}
  {tb : List ((Int × S) × Option Nat)} {st : St S A 𝕜 X Y} {h : List (Event S A 𝕜)} {D : Dice S A 𝕜 X Y} {N n : Nat} {pa po : ℝ}
  {scheds : Nat → Scheduler S A 𝕜}

/-- If every possible play was followed between two moments of rest then every action of every node was selected. -/
theorem tried_all (hl : env.Live) (hv : alg.Valid) (htb : Leftover tb) (ht : TableOk m tb) (hr : Reachable env m alg k s0 dp tm tb st h) (hq : Quiescent st)
    {ls : List (Nat × Choice S A)} {st' : St S A 𝕜 X Y} {r : List (Event S A 𝕜)} (hx : execFrom env m alg st h ls = some (st', r ++ h))
    (hp : ∀ play ∈ plays env (m.maxDepth - dp).toNat s0, hits play h < hits play (r ++ h)) : TriedAll env m st r := by
  intro d nd hd hleaf a ha
  have T := (reach_inv hv htb hr).tree
  obtain ⟨nr, g1, g2, g3, _⟩ := root_node T
  have hdep := (T.heap.dTime d nd.skel (by simp [hd])).2
  simp only [DNode.skel] at hdep
  simp only [isLeaf, Bool.or_eq_false_iff, decide_eq_false_iff_not] at hleaf
  obtain ⟨l, k1, k2, k3⟩ := every_node hv htb hr (nd.depth - dp).toNat d nd hd (by omega)
  obtain ⟨nd', q1, q2, _⟩ := k1.node T g1
  rw [hd] at q1
  obtain rfl := Option.some.inj q1
  rw [g2] at q2
  obtain ⟨o, ho⟩ := List.exists_mem_of_ne_nil _ (hl.succs nd.state hleaf.1 a ha)
  have hmem : l ++ [(a, o)] ∈ plays env (m.maxDepth - dp).toNat s0 :=
    mem_plays.2 ⟨validPlay_snoc k2 (by rw [← q2]; exact hleaf.1) (by rw [← q2]; exact ha) (by rw [← q2]; exact ho), by simp [k3]; omega⟩
  obtain ⟨v1, v2⟩ := mem_plays.1 hmem
  obtain ⟨r', e1, e2⟩ := hit_selected hv htb ht v1 (by omega) hr hq hx
  obtain rfl := List.append_cancel_right e1
  obtain ⟨a', o', w, d', c, f1, f2, f3⟩ := e2 (hp _ hmem) l.length (by simp)
  rw [List.getElem?_append_right le_rfl] at f1
  simp only [Nat.sub_self, List.getElem?_cons_zero, Option.some.injEq, Prod.mk.injEq] at f1
  obtain ⟨rfl, rfl⟩ := f1
  rw [List.take_left' rfl] at f3
  have hle := exec_le hx
  rw [hle.root] at f3
  obtain rfl := (k1.mono hle).unique f3
  exact ⟨w, c, f2⟩

/-- What has been achieved after `i` calls. -/
def After (env : Env S A 𝕜) (m : Manager S 𝕜) (alg : Alg S A 𝕜 X Y) (k : Nat) (s0 : S) (dp tm : Int) (tb : List ((Int × S) × Option Nat)) (N : Nat) :
    Nat → St S A 𝕜 X Y → List (Event S A 𝕜) → Prop
  | 0, st, h => Finished 0 st h
  | i + 1, st, h => Finished ((i + 1) * N) st h ∧ Rounds env m alg k s0 dp tm tb i st h

theorem After.fin {i : Nat} (H : After env m alg k s0 dp tm tb N i st h) : Finished (i * N) st h := by
  cases i with
  | zero => simpa [After] using H
  | succ i => exact H.1

/-- A call in which every possible play was followed achieves one round more. -/
theorem after_next (hl : env.Live) (hv : alg.Valid) (htb : Leftover tb) (ht : TableOk m tb) {i : Nat} (hr : Reachable env m alg k s0 dp tm tb st h)
    (H : After env m alg k s0 dp tm tb N i st h) {ls : List (Nat × Choice S A)} {st' : St S A 𝕜 X Y} {h' : List (Event S A 𝕜)}
    (hx : execFrom env m alg st h ls = some (st', h')) (hf : Finished ((i + 1) * N) st' h')
    (hp : ∀ play ∈ plays env (m.maxDepth - dp).toNat s0, hits play h < hits play h') : After env m alg k s0 dp tm tb N (i + 1) st' h' := by
  refine ⟨hf, ?_⟩
  have hr' := reach_append hr hx
  cases i with
  | zero =>
    refine .zero hr' hf.1 ?_
    intro d nd hd hleaf a ha
    obtain ⟨c, hc, _⟩ := c77_complete hl hv htb hr' (fun play hpl => by
      rcases hits_visits (play := play) hv htb hr' with h0 | ⟨e, he, _⟩
      · have := hp play hpl
        omega
      · exact ⟨e, he⟩) hd hleaf ha
    exact ⟨c, hc⟩
  | succ i =>
    obtain ⟨h1, h2⟩ := H
    obtain ⟨r, rfl⟩ : ∃ r, h' = r ++ h :=
      exec_induct (fun _ h' => ∃ r, h' = r ++ h) (fun _ _ _ e _ ⟨r, hr⟩ _ _ => ⟨e :: r, by rw [hr]; rfl⟩) ⟨[], rfl⟩ hx
    exact .succ h2 hx hf.1 (tried_all hl hv htb ht hr h1.1 hx hp)

open Classical in
theorem calls_fail (hl : env.Live) (hv : alg.Valid) (htb : Leftover tb) (ht : TableOk m tb) {C : Nat}
    (hX : Explores env m alg D k s0 dp tm tb (C * N) pa po) (P : Probs pa po) (hdp : dp ≤ m.maxDepth) (hk : 0 < k)
    (hsch : ∀ i < C, Productive env m alg k s0 dp tm tb ((i + 1) * N) (scheds i)) (hn : (4 * (m.maxDepth - dp).toNat + 4) * (C * N) ≤ n) (c : Nat) :
    ∀ {i : Nat} {st : St S A 𝕜 X Y} {h : List (Event S A 𝕜)}, i + c = C → Reachable env m alg k s0 dp tm tb st h → After env m alg k s0 dp tm tb N i st h →
    expectCalls env m alg D N n scheds (fun st h => if After env m alg k s0 dp tm tb N C st h then 0 else 1) c i st h ≤
      c * ((plays env (m.maxDepth - dp).toNat s0).length * missBound (pa * po) (m.maxDepth - dp).toNat N) := by
  set L := plays env (m.maxDepth - dp).toNat s0 with hL
  set b := missBound (pa * po) (m.maxDepth - dp).toNat N with hbd
  have hb0 : 0 ≤ b := by
    have := P.pow0 (m.maxDepth - dp).toNat
    rw [hbd]; unfold missBound
    positivity
  induction c with
  | zero =>
    intro i st h hi hr H
    obtain rfl : i = C := by omega
    simp [expectCalls, H]
  | succ c ih =>
    intro i st h hi hr H
    have hF := H.fin
    have hbeg := (c13_root_visits hv htb hr hF.1).2
    rw [hF.2] at hbeg
    have hlt : i + 1 ≤ C := by omega
    have hX' := hX.mono (Nat.mul_le_mul_right N hlt)
    have hb' : trialsBegun h ≤ (i + 1) * N := le_trans (by omega) (Nat.mul_le_mul_right N (show i ≤ i + 1 by omega))
    unfold expectCalls
    set g : St S A 𝕜 X Y → List (Event S A 𝕜) → ℝ := fun st h => expectCalls env m alg D N n scheds
      (fun st h => if After env m alg k s0 dp tm tb N C st h then 0 else 1) c (i + 1) st h with hg
    rw [expect_congr hv htb ht hX' hdp hk (hsch i (by omega)) (g := fun st h => if Finished ((i + 1) * N) st h then g st h else 0)
      (fun st h _ hf => by rw [if_pos hf]) n hr hb' (le_trans (Nat.mul_le_mul_left _ (Nat.mul_le_mul_right N hlt)) (by omega))]
    refine le_trans (expect_le_from hv htb ht hX' (g := fun st' h' => (c * (L.length * b) : ℝ) +
      (L.map fun play => if Finished ((i + 1) * N) st' h' ∧ hits play h' ≤ hits play h then (1 : ℝ) else 0).sum) n hr hb' ?_) ?_
    · intro st' h' ls hx hr' hb2
      have hsum : 0 ≤ (L.map fun play => if Finished ((i + 1) * N) st' h' ∧ hits play h' ≤ hits play h then (1 : ℝ) else 0).sum := by
        refine List.sum_nonneg ?_
        intro x hx
        obtain ⟨q, _, rfl⟩ := List.mem_map.1 hx
        split <;> norm_num
      have hc0 : (0 : ℝ) ≤ c * (L.length * b) := by positivity
      split
      · next hf =>
        by_cases hall : ∀ play ∈ L, hits play h < hits play h'
        · have := ih (by omega) hr' (after_next hl hv htb ht hr H hx hf hall)
          linarith
        · push Not at hall
          obtain ⟨play, hpl, hle⟩ := hall
          have h1 : g st' h' ≤ 1 := by
            rw [hg]
            refine le_trans (calls_le hv htb ht hX (g := fun _ _ => 1) (fun st h _ => by split <;> norm_num) c (by omega) hr' hb2) ?_
            rw [calls_const hv htb ht hX 1 c (by omega) hr' hb2]
          have h2 : (1 : ℝ) ≤ (L.map fun play => if Finished ((i + 1) * N) st' h' ∧ hits play h' ≤ hits play h then (1 : ℝ) else 0).sum := by
            refine le_trans (le_of_eq (if_pos ⟨hf, hle⟩).symm) (List.single_le_sum ?_ _ (List.mem_map.2 ⟨play, hpl, rfl⟩))
            intro x hx
            obtain ⟨q, _, rfl⟩ := List.mem_map.1 hx
            split <;> norm_num
          linarith
      · linarith
    · rw [expect_add, expect_sum, expect_const hv htb ht hX' _ n hr hb']
      have : ∀ l : List (List (A × S)), (∀ play ∈ l, play ∈ L) →
          (l.map fun play => expectAfter env m alg D ((i + 1) * N) (scheds i)
            (fun st' h' => if Finished ((i + 1) * N) st' h' ∧ hits play h' ≤ hits play h then (1 : ℝ) else 0) n st h).sum ≤ l.length * b := by
        intro l hl'
        induction l with
        | nil => simp
        | cons play l ihl =>
          obtain ⟨v1, v2⟩ := mem_plays.1 (hl' play (List.mem_cons_self ..))
          have e1 := ihl fun q hq => hl' q (List.mem_cons_of_mem _ hq)
          have e2 := play_window (sched := scheds i) hv htb ht hX' P v1 (by omega) hr hF.1 hb' n
          have e3 : (i + 1) * N - trialsBegun h = N := by
            rw [hbeg, Nat.add_mul]
            omega
          rw [e3] at e2
          have e4 := le_trans e2 (missBound_mono P.mul0 P.mul1 v2 N)
          simp only [List.map_cons, List.sum_cons, List.length_cons]
          push_cast
          linarith
      have h3 := this L fun _ h => h
      push_cast
      linarith

open Classical in
/-- C109.  Whatever happened in earlier calls: if no trial is running, the probability that a call of run_trials (up to a total of `N` trials)
ends without any of its trials having followed a given possible play to its end is bounded as for a new tree. -/
theorem c109_play_followed {play : List (A × S)} {sched : Scheduler S A 𝕜} (hv : alg.Valid) (htb : Leftover tb) (ht : TableOk m tb)
    (hX : Explores env m alg D k s0 dp tm tb N pa po)
    (hpa : 0 ≤ pa ∧ pa ≤ 1) (hpo : 0 ≤ po ∧ po ≤ 1) (hp : ValidPlay env s0 play) (hl : dp + play.length ≤ m.maxDepth)
    (hr : Reachable env m alg k s0 dp tm tb st h) (hq : Quiescent st) (hb : trialsBegun h ≤ N) (n : Nat) :
    expectAfter env m alg D N sched (fun st' h' => if Finished N st' h' ∧ hits play h' ≤ hits play h then 1 else 0) n st h ≤
      missBound (pa * po) play.length (N - trialsBegun h) :=
  play_window (sched := sched) hv htb ht hX ⟨hpa.1, hpa.2, hpo.1, hpo.2⟩ hp hl hr hq hb n

/-- C109.  After `C + 1` calls with `N` trials each all trials are over and `C` rounds have been run since everything was tried, with at least this
probability, whatever the schedules. -/
theorem c109_rounds (hl : env.Live) (hv : alg.Valid) (htb : Leftover tb) (ht : TableOk m tb) {C : Nat}
    (hX : Explores env m alg D k s0 dp tm tb ((C + 1) * N) pa po) (hpa : 0 ≤ pa ∧ pa ≤ 1) (hpo : 0 ≤ po ∧ po ≤ 1) (hdp : dp ≤ m.maxDepth) (hk : 0 < k)
    (hsch : ∀ i ≤ C, Productive env m alg k s0 dp tm tb ((i + 1) * N) (scheds i)) (hn : (4 * (m.maxDepth - dp).toNat + 4) * ((C + 1) * N) ≤ n) :
    1 - (C + 1) * ((plays env (m.maxDepth - dp).toNat s0).length * missBound (pa * po) (m.maxDepth - dp).toNat N) ≤
    probCalls env m alg D k s0 dp tm tb N n scheds (C + 1)
      (fun st h => Finished ((C + 1) * N) st h ∧ Rounds env m alg k s0 dp tm tb C st h) := by
  classical
  have h0 : Quiescent (init env m alg k s0 dp tm tb) := by
    intro w p hp
    simp only [init, List.getElem?_replicate] at hp
    split at hp
    · exact (Option.some.inj hp).symm
    · cases hp
  have h1 := calls_fail hl hv htb ht hX ⟨hpa.1, hpa.2, hpo.1, hpo.2⟩ hdp hk (fun i hi => hsch i (by omega)) hn (C + 1) (i := 0) (by omega) reach_start
    ⟨h0, by simp [trialsCompleted]⟩
  have h2 := calls_const (scheds := scheds) (n := n) hv htb ht hX 1 (C + 1) (i := 0) (by omega) (reach_start (env := env)) (by simp [trialsBegun])
  have h3 := calls_add (env := env) (m := m) (alg := alg) (D := D) (N := N) (n := n) (scheds := scheds)
    (fun st h => if Finished ((C + 1) * N) st h ∧ Rounds env m alg k s0 dp tm tb C st h then (1 : ℝ) else 0)
    (fun st h => if After env m alg k s0 dp tm tb N (C + 1) st h then (0 : ℝ) else 1) (C + 1) 0 (init env m alg k s0 dp tm tb) []
  have h4 : (fun st h => (if Finished ((C + 1) * N) st h ∧ Rounds env m alg k s0 dp tm tb C st h then (1 : ℝ) else 0) +
      (if After env m alg k s0 dp tm tb N (C + 1) st h then (0 : ℝ) else 1)) = fun _ _ => 1 := by
    funext st h
    by_cases hh : Finished ((C + 1) * N) st h ∧ Rounds env m alg k s0 dp tm tb C st h
    · rw [if_pos hh, if_pos (show After env m alg k s0 dp tm tb N (C + 1) st h from hh), add_zero]
    · rw [if_neg hh, if_neg (show ¬ After env m alg k s0 dp tm tb N (C + 1) st h from hh), zero_add]
  rw [h4, h2] at h3
  push_cast at h1
  unfold probCalls
  have h5 : ∀ (x y z : ℝ), 1 = x + y → y ≤ z → 1 - z ≤ x := fun x y z h h' => by linarith
  refine h5 _ _ _ ?_ h1
  rw [h3]
  congr!

theorem calls_mono (hv : alg.Valid) (htb : Leftover tb) (ht : TableOk m tb) {C : Nat} (hX : Explores env m alg D k s0 dp tm tb (C * N) pa po)
    {P Q : St S A 𝕜 X Y → List (Event S A 𝕜) → Prop} (hPQ : ∀ st h, Reachable env m alg k s0 dp tm tb st h → P st h → Q st h) :
    probCalls env m alg D k s0 dp tm tb N n scheds C P ≤ probCalls env m alg D k s0 dp tm tb N n scheds C Q := by
  classical
  unfold probCalls
  refine calls_le hv htb ht hX (fun st h hr => ?_) C (by omega) reach_start (by simp [trialsBegun])
  by_cases hP : P st h
  · simp [hP, hPQ st h hr hP]
  · rw [if_neg hP]
    split <;> norm_num

/-- C109.  `probCalls` is a probability. -/
theorem c109_prob_range (hv : alg.Valid) (htb : Leftover tb) (ht : TableOk m tb) {C : Nat} (hX : Explores env m alg D k s0 dp tm tb (C * N) pa po)
    (P : St S A 𝕜 X Y → List (Event S A 𝕜) → Prop) :
    0 ≤ probCalls env m alg D k s0 dp tm tb N n scheds C P ∧ probCalls env m alg D k s0 dp tm tb N n scheds C P ≤ 1 ∧
    probCalls env m alg D k s0 dp tm tb N n scheds C P + probCalls env m alg D k s0 dp tm tb N n scheds C (fun st h => ¬ P st h) = 1 := by
  classical
  have hb : trialsBegun ([] : List (Event S A 𝕜)) ≤ 0 * N := by simp [trialsBegun]
  have hc := fun x : ℝ => calls_const (scheds := scheds) (n := n) hv htb ht hX x C (i := 0) (by omega) reach_start hb
  refine ⟨?_, ?_, ?_⟩
  · rw [← hc 0]
    exact calls_le hv htb ht hX (fun st h _ => by split <;> norm_num) C (by omega) reach_start hb
  · rw [← hc 1]
    exact calls_le hv htb ht hX (fun st h _ => by split <;> norm_num) C (by omega) reach_start hb
  · unfold probCalls
    rw [← calls_add]
    refine Eq.trans ?_ (hc 1)
    congr 1
    funext st h
    by_cases hP : P st h <;> simp [hP]

end

section
variable {S A X Y : Type} [DecidableEq S] [DecidableEq A] {env : Env S A ℝ} {m : Manager S ℝ} {alg : Alg S A ℝ X Y} {k : Nat} {s0 : S}
  {dp tm : Int} {tb : List ((Int × S) × Option Nat)} {D : Dice S A ℝ X Y} {N n : Nat} {pa po : ℝ} {scheds : Nat → Scheduler S A ℝ}
  {lr : S → A → ℝ} {next : S → A → S}

/-- The value of every node of the tree is the value of the game from there. -/
def AllExact (env : Env S A ℝ) (m : Manager S ℝ) (next : S → A → S) (px : X → Dp ℝ) (st : St S A ℝ X Y) : Prop :=
  ∀ (d : Nat) nd, st.dn[d]? = some nd → valD px st d = some (gameValue env m next (remaining m nd.depth) nd.time nd.state)

/-- C109.  Deterministic game, values by dynamic programming, with or without a transposition table: after as many calls of `N` trials as the
game has moves every value in the tree is exact and every recommendation at the root is an optimal move, with at least this probability. -/
theorem c109_solves {px : X → Dp ℝ} {py : Y → Dp ℝ} {C : Nat} (hdet : ∀ s a, a ∈ env.actions s → env.succ s a = [next s a])
    (hlr : ∀ s a, a ∈ env.actions s → lr s a = env.reward s a (next s a)) (hl : env.Live)
    (hv : alg.Valid) (H : HasDp alg px py lr) (htb : Leftover tb) (ht : TableOk m tb)
    (hX : Explores env m alg D k s0 dp tm tb ((C + 1) * N) pa po) (hpa : 0 ≤ pa ∧ pa ≤ 1) (hpo : 0 ≤ po ∧ po ≤ 1) (hdp : dp < m.maxDepth)
    (hC : remaining m dp ≤ C + 1) (hs0 : env.isSink s0 = false) {low : ℝ} {threshold : Int} (hth : threshold ≤ 1)
    (hlow : ∀ a ∈ env.actions s0, low ≤ (if isOpponent m tm then -1 else 1) *
      (env.reward s0 a (next s0 a) + gameValue env m next (remaining m (dp + 1)) (tm + 1) (next s0 a)))
    (hk : 0 < k) (hsch : ∀ i ≤ C, Productive env m alg k s0 dp tm tb ((i + 1) * N) (scheds i))
    (hn : (4 * (m.maxDepth - dp).toNat + 4) * ((C + 1) * N) ≤ n) :
    1 - (C + 1) * ((plays env (m.maxDepth - dp).toNat s0).length * missBound (pa * po) (m.maxDepth - dp).toNat N) ≤
    probCalls env m alg D k s0 dp tm tb N n scheds (C + 1) (fun st h => Finished ((C + 1) * N) st h ∧
      valD px st st.root = some (gameValue env m next (remaining m dp) tm s0) ∧ AllExact env m next px st ∧
      RecommendsOptimal env m next py low threshold st) := by
  refine le_trans (c109_rounds hl hv htb ht hX hpa hpo hdp.le hk hsch hn) (calls_mono hv htb ht hX ?_)
  rintro st h hr ⟨h1, h2⟩
  obtain ⟨e1, e2⟩ := c108_root hdet hlr hl.acts hv H htb h2 hC
  refine ⟨h1, e1, e2, ?_⟩
  intro nd hd raw iter hi
  obtain ⟨nr, g1, g2, g3, g4⟩ := root_node (reach_inv hv htb hr).tree
  rw [hd] at g1
  obtain rfl := Option.some.inj g1
  refine c108_recommends_optimal hdet hlr hl.acts hv H htb h2 hd ?_ (by rw [g3]; exact hC) hth ?_ raw hi
  · simp [isLeaf, g2, g3, hs0, hdp]
  · rw [g2, g3, g4]; exact hlow

open Verif.Ments Verif.Dents

/-- C109 for DB-MENTS. -/
theorem c109_dbments_solves {cfg : Cfg S A} {eps : ℝ} {B C : Nat} {iter : View S A DB DB → List (A × ℝ) → List (A × ℝ)}
    (hdet : ∀ s a, a ∈ env.actions s → env.succ s a = [next s a])
    (hlr : ∀ s a, a ∈ env.actions s → lr s a = env.reward s a (next s a)) (hl : env.Live)
    (htb : Leftover tb) (ht : TableOk m tb) (G : GoodCfg cfg env) (hnd : ∀ s, (env.actions s).Nodup)
    (hB : ∀ s, (env.actions s).length ≤ B) (heps : 0 ≤ eps) (hit : ∀ v l, List.Perm (iter v l) l)
    (hp : 1 / 10 ^ 16 ≤ softExplore cfg B ((C + 1) * N)) (hdp : dp < m.maxDepth) (hC : remaining m dp ≤ C + 1) (hs0 : env.isSink s0 = false)
    {low : ℝ} {threshold : Int} (hth : threshold ≤ 1) (hlow : ∀ a ∈ env.actions s0, low ≤ (if isOpponent m tm then -1 else 1) *
      (env.reward s0 a (next s0 a) + gameValue env m next (remaining m (dp + 1)) (tm + 1) (next s0 a)))
    (hk : 0 < k) (hsch : ∀ i ≤ C, Productive env m (dbments eps cfg lr) k s0 dp tm tb ((i + 1) * N) (scheds i))
    (hn : (4 * (m.maxDepth - dp).toNat + 4) * ((C + 1) * N) ≤ n) :
    1 - (C + 1) * ((plays env (m.maxDepth - dp).toNat s0).length * missBound (softExplore cfg B ((C + 1) * N)) (m.maxDepth - dp).toNat N) ≤
    probCalls env m (dbments eps cfg lr) (softDice eps cfg (mentsQ cfg DB.soft) iter (certain next)) k s0 dp tm tb N n scheds (C + 1)
      (fun st h => Finished ((C + 1) * N) st h ∧ valD DB.dp st st.root = some (gameValue env m next (remaining m dp) tm s0) ∧
        AllExact env m next DB.dp st ∧ RecommendsOptimal env m next DB.dp low threshold st) := by
  have hX := c77_dbments_explores (m := m) (lr := lr) (k := k) (s0 := s0) (dp := dp) (tm := tm) htb G hl hnd hB heps hit (certain_ok hdet) hp
  have := c109_solves hdet hlr hl (dbments_valid eps cfg lr) (dbments_hasDp eps cfg lr) htb ht hX
    (c77_explore_range G.max1 hp) ⟨zero_le_one, le_rfl⟩ hdp hC hs0 hth hlow hk hsch hn
  rwa [mul_one] at this

/-- C109 for DENTS with DP values. -/
theorem c109_dents_solves {cfg : DCfg S A} {eps : ℝ} {B C : Nat} {iter : View S A DX DY → List (A × ℝ) → List (A × ℝ)}
    (hdet : ∀ s a, a ∈ env.actions s → env.succ s a = [next s a])
    (hlr : ∀ s a, a ∈ env.actions s → lr s a = env.reward s a (next s a)) (hl : env.Live) (hdpv : cfg.useDp = true)
    (htb : Leftover tb) (ht : TableOk m tb) (G : GoodCfg cfg.toCfg env) (hnd : ∀ s, (env.actions s).Nodup)
    (hB : ∀ s, (env.actions s).length ≤ B) (heps : 0 ≤ eps) (hit : ∀ v l, List.Perm (iter v l) l)
    (hp : 1 / 10 ^ 16 ≤ softExplore cfg.toCfg B ((C + 1) * N)) (hdp : dp < m.maxDepth) (hC : remaining m dp ≤ C + 1) (hs0 : env.isSink s0 = false)
    {low : ℝ} {threshold : Int} (hth : threshold ≤ 1) (hlow : ∀ a ∈ env.actions s0, low ≤ (if isOpponent m tm then -1 else 1) *
      (env.reward s0 a (next s0 a) + gameValue env m next (remaining m (dp + 1)) (tm + 1) (next s0 a)))
    (hk : 0 < k) (hsch : ∀ i ≤ C, Productive env m (dents eps cfg env m lr) k s0 dp tm tb ((i + 1) * N) (scheds i))
    (hn : (4 * (m.maxDepth - dp).toNat + 4) * ((C + 1) * N) ≤ n) :
    1 - (C + 1) * ((plays env (m.maxDepth - dp).toNat s0).length * missBound (softExplore cfg.toCfg B ((C + 1) * N)) (m.maxDepth - dp).toNat N) ≤
    probCalls env m (dents eps cfg env m lr) (softDice eps cfg.toCfg (dentsQ cfg) iter (certain next)) k s0 dp tm tb N n scheds (C + 1)
      (fun st h => Finished ((C + 1) * N) st h ∧ valD DX.dp st st.root = some (gameValue env m next (remaining m dp) tm s0) ∧
        AllExact env m next DX.dp st ∧ RecommendsOptimal env m next DY.dp low threshold st) := by
  have hX := c77_dents_explores (m := m) (lr := lr) (k := k) (s0 := s0) (dp := dp) (tm := tm) htb G hl hnd hB heps hit (certain_ok hdet) hp
  have := c109_solves hdet hlr hl (dents_valid eps cfg env m lr) (dents_hasDp eps env m lr hdpv) htb ht hX
    (c77_explore_range G.max1 hp) ⟨zero_le_one, le_rfl⟩ hdp hC hs0 hth hlow hk hsch hn
  rwa [mul_one] at this

/-- C109 for EST with DP values. -/
theorem c109_est_solves {cfg : DCfg S A} {eps : ℝ} {B C : Nat} {iter : View S A DX DY → List (A × ℝ) → List (A × ℝ)}
    (hdet : ∀ s a, a ∈ env.actions s → env.succ s a = [next s a])
    (hlr : ∀ s a, a ∈ env.actions s → lr s a = env.reward s a (next s a)) (hl : env.Live) (hdpv : cfg.useDp = true)
    (htb : Leftover tb) (ht : TableOk m tb) (G : GoodCfg cfg.toCfg env) (hnd : ∀ s, (env.actions s).Nodup)
    (hB : ∀ s, (env.actions s).length ≤ B) (heps : 0 ≤ eps) (hit : ∀ v l, List.Perm (iter v l) l)
    (hp : 1 / 10 ^ 16 ≤ softExplore cfg.toCfg B ((C + 1) * N)) (hdp : dp < m.maxDepth) (hC : remaining m dp ≤ C + 1) (hs0 : env.isSink s0 = false)
    {low : ℝ} {threshold : Int} (hth : threshold ≤ 1) (hlow : ∀ a ∈ env.actions s0, low ≤ (if isOpponent m tm then -1 else 1) *
      (env.reward s0 a (next s0 a) + gameValue env m next (remaining m (dp + 1)) (tm + 1) (next s0 a)))
    (hk : 0 < k) (hsch : ∀ i ≤ C, Productive env m (est eps cfg env m lr) k s0 dp tm tb ((i + 1) * N) (scheds i))
    (hn : (4 * (m.maxDepth - dp).toNat + 4) * ((C + 1) * N) ≤ n) :
    1 - (C + 1) * ((plays env (m.maxDepth - dp).toNat s0).length * missBound (softExplore cfg.toCfg B ((C + 1) * N)) (m.maxDepth - dp).toNat N) ≤
    probCalls env m (est eps cfg env m lr) (softDice eps cfg.toCfg (estQ cfg) iter (certain next)) k s0 dp tm tb N n scheds (C + 1)
      (fun st h => Finished ((C + 1) * N) st h ∧ valD DX.dp st st.root = some (gameValue env m next (remaining m dp) tm s0) ∧
        AllExact env m next DX.dp st ∧ RecommendsOptimal env m next DY.dp low threshold st) := by
  have hX := c77_est_explores (m := m) (lr := lr) (k := k) (s0 := s0) (dp := dp) (tm := tm) htb G hl hnd hB heps hit (certain_ok hdet) hp
  have := c109_solves hdet hlr hl (est_valid eps cfg env m lr) (est_hasDp eps env m lr hdpv) htb ht hX
    (c77_explore_range G.max1 hp) ⟨zero_le_one, le_rfl⟩ hdp hC hs0 hth hlow hk hsch hn
  rwa [mul_one] at this

open Filter Topology in
/-- C109.  The bound tends to 0 with growing `N` if the probability `p N` of an action (and an outcome) in a search of `(C + 1) * N` trials does
not fall too quickly. -/
theorem c109_bound_vanishes {p : Nat → ℝ} (L C P : Nat) (h0 : ∀ N, 0 ≤ p N) (hp : Tendsto (fun N : Nat => (N : ℝ) * p N ^ L) atTop atTop)
    (h1 : ∀ N, p N ≤ 1) : Tendsto (fun N => ((C : ℝ) + 1) * (P * missBound (p N) L N)) atTop (𝓝 0) := by
  have := ((c77_bound_vanishes L h0 hp h1).const_mul (P : ℝ)).const_mul ((C : ℝ) + 1)
  simpa using this

end

/-! ## Example -/

/-- As `rMgr`, with a transposition table: both moves lead to the same node. -/
def tMgr : Manager Unit ℝ := { rMgr with useTable := true, numMutexes := 1 }

theorem tExplore : softExplore rCfg 2 ((1 + 1) * 500) = 1 / 4 := by
  have h : Real.log (((1 + 1) * 500 : ℕ) + 1) ≤ 500 := by
    have h2 : Real.log (((1 + 1) * 500 : ℕ) + 1) = 2 * Real.log (Real.sqrt (((1 + 1) * 500 : ℕ) + 1)) := by
      rw [Real.log_sqrt (by positivity)]; ring
    have h3 := Real.log_le_sub_one_of_pos (x := Real.sqrt (((1 + 1) * 500 : ℕ) + 1)) (by positivity)
    have h4 : Real.sqrt (((1 + 1) * 500 : ℕ) + 1) ≤ 32 := by
      rw [Real.sqrt_le_left (by norm_num)]
      norm_num
    rw [h2]
    linarith
  have h0 : 0 < Real.log (((1 + 1) * 500 : ℕ) + 1) := Real.log_pos (by norm_num)
  have h1 : (1 / 2 : ℝ) ≤ 250 / Real.log (((1 + 1) * 500 : ℕ) + 1) := by
    rw [div_le_div_iff₀ (by norm_num) h0]
    linarith
  have h2 : min (minEps rCfg / Real.log (((1 + 1) * 500 : ℕ) + 1)) rCfg.maxExplore = 1 / 2 := by
    have : minEps rCfg = 250 := by norm_num [minEps, rCfg]
    rw [this]
    exact min_eq_right h1
  rw [softExplore, h2]
  norm_num

open Verif.Ments Verif.Dents in
/-- A DB-MENTS search with a transposition table, two calls with 500 trials by three workers, under some schedule: with probability at least
0.999 every value in the tree is exact, the root's is 2, and every recommendation is an optimal move. -/
example : ∃ scheds : Nat → Scheduler Unit Bool ℝ, 999 / 1000 ≤
    probCalls rEnv tMgr (dbments 0 rCfg fun _ a => if a then 1 else 0) (softDice 0 rCfg (mentsQ rCfg DB.soft) (fun _ l => l) (certain fun _ _ => ()))
      3 () 0 0 [] 500 12000 scheds 2 (fun st h => Finished 1000 st h ∧ valD DB.dp st st.root = some 2 ∧ AllExact rEnv tMgr (fun _ _ => ()) DB.dp st ∧
        RecommendsOptimal rEnv tMgr (fun _ _ => ()) DB.dp (-10) 1 st) := by
  have hdet : ∀ s a, a ∈ rEnv.actions s → rEnv.succ s a = [()] := fun _ _ _ => rfl
  have hl : rEnv.Live := ⟨by simp [rEnv], by simp [rEnv]⟩
  have G : GoodCfg rCfg rEnv := by
    refine ⟨by simp [rCfg], by norm_num [rCfg], by norm_num [rCfg], by norm_num [rCfg], ?_, by simp [rCfg], ?_, ?_, ?_⟩
    · simp only [rCfg]; exact Real.log_nonneg (by norm_num)
    all_goals intro f hf; simp [rCfg] at hf
  have hgv : gameValue rEnv tMgr (fun _ _ => ()) (remaining tMgr 0) 0 () = 2 := by
    norm_num [remaining, tMgr, rMgr, gameValue, rEnv, bestOf, heurOf, isOpponent, show Int.toNat 2 = 2 from rfl, List.max?]
  have hgv1 : gameValue rEnv tMgr (fun _ _ => ()) (remaining tMgr (0 + 1)) (0 + 1) () = 1 := by
    norm_num [remaining, tMgr, rMgr, gameValue, rEnv, bestOf, heurOf, isOpponent, show Int.toNat 1 = 1 from rfl, List.max?]
  have htb : Leftover ([] : List ((Int × Unit) × Option Nat)) := by simp [Leftover]
  have ht : TableOk tMgr ([] : List ((Int × Unit) × Option Nat)) := by simp [TableOk, tMgr]
  choose scheds hsch using fun i : Nat => productive_exists (env := rEnv) (m := tMgr) (k := 3) (s0 := ()) (dp := 0) (tm := 0) (N := (i + 1) * 500)
    (dbments_valid 0 rCfg fun _ a => if a then 1 else 0) htb ht
  refine ⟨scheds, ?_⟩
  have := c109_dbments_solves (cfg := rCfg) (eps := 0) (B := 2) (C := 1) (iter := fun _ l => l) (env := rEnv) (m := tMgr) (next := fun _ _ => ())
    (lr := fun _ a => if a then 1 else 0) (k := 3) (s0 := ()) (dp := 0) (tm := 0) (tb := []) (N := 500) (scheds := scheds) (low := -10)
    (threshold := 1) (n := 12000) hdet (fun _ _ _ => rfl) hl htb ht G (by simp [rEnv]) (by simp [rEnv]) le_rfl
    (fun _ l => List.Perm.refl l) (by rw [tExplore]; norm_num) (by simp [tMgr, rMgr]) (by decide) rfl le_rfl
    (by intro a _; rw [hgv1]; cases a <;> norm_num [isOpponent, tMgr, rMgr, rEnv]) (by norm_num) (fun i _ => hsch i) (by simp [tMgr, rMgr])
  rw [tExplore, hgv] at this
  refine le_trans ?_ this
  have hlen : (plays rEnv (tMgr.maxDepth - 0).toNat ()).length = 7 := by
    rfl
  rw [hlen, show (tMgr.maxDepth - 0).toNat = 2 from rfl]
  have h1 : (2000 : ℝ) ≤ (33 / 32) ^ 249 := by norm_num
  have h2 : (4000000 : ℝ) ≤ (33 / 32) ^ 498 := by
    rw [show (498 : ℕ) = 249 * 2 from rfl, pow_mul]
    nlinarith
  have h3 : 4 / (33 / 32 : ℝ) ^ 498 ≤ 4 / 4000000 := div_le_div_of_nonneg_left (by norm_num) (by norm_num) h2
  have h4 : missBound (1 / 4) 2 500 = 4 / (33 / 32 : ℝ) ^ 498 := by norm_num [missBound]
  rw [h4]
  push_cast
  linarith

end Verif.Random
