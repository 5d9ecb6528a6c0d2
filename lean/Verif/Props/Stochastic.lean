import Verif.Proofs.StochasticProb
import Verif.Props.RandomSearch

/-!
# Property C90: searches of stochastic environments find the optimal values

`expValue` (the value of the game), `actionValue`, `NearOptimal` and the bounds are defined in `Verif.Spec.Stochastic`; `probAfter`, `Explores` and
`plays` in `Verif.Spec.Random`.
-/

set_option linter.unusedSectionVars false
set_option linter.unusedSimpArgs false

namespace Verif.Random

open Verif.Search Verif.Eval Verif.Spec Verif.Backups Verif.Sampling

section
variable {S A X Y : Type} [DecidableEq S] [DecidableEq A]
  {env : Env S A ℝ} {m : Manager S ℝ} {alg : Alg S A ℝ X Y} {lr : S → A → ℝ} {k : Nat} {s0 : S} {dp tm : Int}
  {tb : List ((Int × S) × Option Nat)} {D : Dice S A ℝ X Y} {N : Nat} {pa po : ℝ}
  {sched : Scheduler S A ℝ} {K M B : Nat} {V η : ℝ}

/-- The values of a game with bounded rewards and heuristic values are bounded. -/
theorem c90_values_bounded {obs : S → A → List (S × ℝ)} {r : ℝ} (hobs : Transitions env obs po) (hl : env.Live) (hr : ∀ s a o, |env.reward s a o| ≤ r)
    (hh : ∀ s, |heurOf env m s| ≤ r) (n : Nat) : ∀ t s, |expValue env m obs n t s| ≤ (n + 1) * r := by
  induction n with
  | zero => intro t s; simpa [expValue] using hh s
  | succ n ih =>
    intro t s
    have h0 : 0 ≤ r := le_trans (abs_nonneg _) (hh s)
    unfold expValue
    split
    · rw [abs_zero]; positivity
    · next hs =>
      have hs' : env.isSink s = false := by simpa using hs
      have hz : bestOf (isOpponent m t) ((env.actions s).map fun _ => (0 : ℝ)) = 0 := by
        obtain ⟨a, ha⟩ := List.exists_mem_of_ne_nil _ (hl.acts s hs')
        have : bestOf (isOpponent m t) ((env.actions s).map fun _ => (0 : ℝ)) = bestOf (isOpponent m t) [0] :=
          bestOf_congr (fun x => by simp only [List.mem_map, List.mem_singleton]; exact ⟨fun ⟨_, _, h⟩ => h.symm, fun h => ⟨a, ha, h.symm⟩⟩)
        rw [this]
        cases isOpponent m t <;> simp [bestOf]
      have := Verif.Ments.bestOf_close (opp := isOpponent m t) (f := fun a => mean1 (obs s a) (fun o => env.reward s a o) +
        mean1 (obs s a) fun o => expValue env m obs n (t + 1) o) (g := fun _ => (0 : ℝ)) (ε := ((n + 1 : ℕ) + 1) * r) (hl.acts s hs') (fun a ha => by
          obtain ⟨x1, _⟩ := hobs s a hs' ha
          rw [sub_zero]
          refine le_trans (abs_add_le _ _) ?_
          have h1 := mean1_abs x1 (f := fun o => env.reward s a o) (fun o => hr s a o)
          have h2 := mean1_abs x1 (f := fun o => expValue env m obs n (t + 1) o) (fun o => ih (t + 1) o)
          push_cast
          linarith)
      rwa [hz, sub_zero] at this

open Verif.Uct Verif.Ments in
/-- Every recommendation by DP value at the root is within `ε` of optimal. -/
def RecommendsNear (env : Env S A ℝ) (m : Manager S ℝ) (obs : S → A → List (S × ℝ)) (py : Y → Dp ℝ) (low : ℝ) (threshold : Int) (ε : ℝ)
    (st : St S A ℝ X Y) : Prop :=
  ∀ nd, st.dn[st.root]? = some nd → ∀ (raw : Nat) (iter : List (A × ℝ) → List (A × ℝ)), IterOk iter →
    ∃ a ∈ env.actions nd.state,
      recommendBestOrRandom low threshold (viewOf env m st nd).opp (viewOf env m st nd).actions
        ((viewOf env m st nd).kids.map fun k => (k.1, (py k.2.2).n, (py k.2.2).val.getD 0)) raw iter = some a ∧
      NearOptimal env m obs (remaining m (nd.depth + 1)) nd.time nd.state a ε

open Verif.Uct Verif.Ments in
/-- Every recommendation by DP value in a well sampled tree is close to optimal. -/
theorem near_at {px : X → Dp ℝ} {py : Y → Dp ℝ} {obs : S → A → List (S × ℝ)} {st : St S A ℝ X Y} {h : List (Event S A ℝ)}
    (hl : env.Live) (hv : alg.Valid) (H : HasDp alg px py lr) (hvis : ∀ x, alg.visitD false x = x) (htb : Leftover tb) (hu : m.useTable = false)
    (hr : Reachable env m alg k s0 dp tm tb st h) (hq : Quiescent st)
    (hobs : Transitions env obs po) (hlr : ∀ s a, env.isSink s = false → a ∈ env.actions s → lr s a = mean1 (obs s a) fun o => env.reward s a o)
    (hV0 : 0 ≤ V) (hV : ∀ n t s, n ≤ (m.maxDepth - dp).toNat → |expValue env m obs n t s| ≤ V) (hη : 0 ≤ η)
    (hK0 : 0 < K) (hK : ∀ s a, (env.succ s a).length ≤ K) (hM : 2 * K ≤ M) (W : Sampled env m obs s0 dp M η st h)
    {d : Nat} {nd : DNode S A ℝ X} (hd : st.dn[d]? = some nd) (hleaf : isLeaf env m nd = false) {low : ℝ} {threshold : Int} (hth : threshold ≤ M)
    (hlow : ∀ a ∈ env.actions nd.state, low + remaining m nd.depth * sampleError V η K M ≤ (if isOpponent m nd.time then -1 else 1) *
      actionValue env m obs (remaining m (nd.depth + 1)) nd.time nd.state a) (raw : Nat) {iter : List (A × ℝ) → List (A × ℝ)} (hi : IterOk iter) :
    ∃ a ∈ env.actions nd.state,
      recommendBestOrRandom low threshold (viewOf env m st nd).opp (viewOf env m st nd).actions
        ((viewOf env m st nd).kids.map fun k => (k.1, (py k.2.2).n, (py k.2.2).val.getD 0)) raw iter = some a ∧
      NearOptimal env m obs (remaining m (nd.depth + 1)) nd.time nd.state a (2 * (remaining m nd.depth * sampleError V η K M)) := by
  have I := reach_inv hv htb hr
  obtain ⟨_, _, Dp⟩ := dp_reach hv H htb hr
  obtain ⟨Bk, _⟩ := reach_bk hr
  set κ := sampleError V η K M with hκ
  let Q : A → ℝ := actionValue env m obs (remaining m (nd.depth + 1)) nd.time nd.state
  have hlf := hleaf
  simp only [isLeaf, Bool.or_eq_false_iff, decide_eq_false_iff_not] at hlf
  obtain ⟨hsn, hdl⟩ := hlf
  have hrem : (m.maxDepth - nd.depth).toNat = remaining m (nd.depth + 1) + 1 := by unfold remaining; omega
  have hrem' : (remaining m nd.depth : ℝ) = remaining m (nd.depth + 1) + 1 := by
    have : remaining m nd.depth = remaining m (nd.depth + 1) + 1 := by unfold remaining; omega
    rw [this]; push_cast; ring
  obtain ⟨_, hC⟩ := c39_bellman_consistent hv H hvis hu htb hr hq
  have hval : ∀ a c, childC st d a = some c → ∃ nc x, st.cn[c]? = some nc ∧ (py nc.y).val = some x ∧ M ≤ (py nc.y).n ∧
      |x - Q a| ≤ remaining m nd.depth * κ := by
    intro a c hc
    obtain ⟨nd2, nc, k1, k2, k3, k4, k5, k6, k7, k8⟩ := childC_facts I.tree hc
    rw [hd] at k1
    obtain rfl := Option.some.inj k1
    have hrc := (c39_children_backed hv htb hr hq hc).2
    obtain ⟨l, e1, e2⟩ := hC c nc k2 hrc
    have hch := chance_close hl hv htb hu hr hobs hlr hV0 hV hη hK0 hK hM W (w := weightD env m st h)
      (fun c o d' hcd => (weights_close hv htb hu hr hq hcd).1)
      (dp_close hl hv htb hu hr hq hobs hlr hV0 hV hη hK0 hK hM W (remaining m (nd.depth + 1))) hd hc k2 hrem hsn
    have e5 : l = nc.kids.map fun q => (weightD env m st h q.2, treeValue env m lr st h (remaining m (nd.depth + 1)) q.2) := by
      have hkids : ∀ q ∈ nc.kids, (cntD px st q.2, valD px st q.2) = (weightD env m st h q.2, some (treeValue env m lr st h (remaining m (nd.depth + 1)) q.2)) := by
        intro q hq'
        obtain ⟨nc', nd', f1, f2, _, _, f5, _⟩ := childD_facts I.tree (childD_of_mem I.tree k2 (show (q.1, q.2) ∈ nc.kids from hq'))
        rw [k2] at f1
        obtain rfl := Option.some.inj f1
        rw [cntD_weight hv H htb hr hq, c66_minimax_of_tree hv H hvis hu htb hr hq f2, show remaining m nd'.depth = remaining m (nd.depth + 1) by
          rw [f5, k6]]
      have e3 : nc.kids.map (fun q => (weightD env m st h q.2, some (treeValue env m lr st h (remaining m (nd.depth + 1)) q.2))) = l.map (fun q => (q.1, some q.2)) := by
        rw [← e1]
        exact (List.map_congr_left hkids).symm
      have e4 := congrArg (List.map fun q : Nat × Option ℝ => (q.1, q.2.getD 0)) e3
      simpa [Function.comp_def] using e4.symm
    refine ⟨nc, lr nc.state nc.action + wmean l, k2, ?_, ?_, ?_⟩
    · simpa [valC, k2] using e2
    · rw [(Dp.c c nc k2).1]
      have z : (st.ws.map (Phase.pendC c)).sum = 0 := List.sum_eq_zero (by
        intro x hx
        obtain ⟨p, hp, rfl⟩ := List.mem_map.1 hx
        obtain ⟨w, hw⟩ := List.mem_iff_getElem?.1 hp
        rw [hq w p hw]
        rfl)
      have := Bk.c c
      have := hch.1
      omega
    · rw [e5, hrem', add_mul, one_mul]
      exact hch.2
  have hx : Exhausted env m st := by
    intro d nd hd hleaf a ha
    obtain ⟨c, hc, _⟩ := c77_complete hl hv htb hr W.explored hd hleaf ha
    exact ⟨c, hc⟩
  set kids := (viewOf env m st nd).kids.map fun k => (k.1, (py k.2.2).n, (py k.2.2).val.getD 0) with hkids
  have hkid : ∀ p ∈ kids, p.1 ∈ env.actions nd.state ∧ M ≤ p.2.1 ∧ |p.2.2 - Q p.1| ≤ remaining m nd.depth * κ := by
    intro p hp
    obtain ⟨q, hq', rfl⟩ := List.mem_map.1 hp
    obtain ⟨c, nc, e1, e2, e3⟩ := mem_kidsY.1 hq'
    have hcc := childC_of_mem I.tree hd e1
    obtain ⟨nd2, nc2, f1, f2, _, _, _, _, _, f8⟩ := childC_facts I.tree hcc
    rw [hd] at f1
    obtain rfl := Option.some.inj f1
    obtain ⟨nc', x, q1, q2, q3, q4⟩ := hval _ c hcc
    rw [e2] at q1
    obtain rfl := Option.some.inj q1
    refine ⟨f8, ?_, ?_⟩
    · rw [e3]; exact q3
    · rw [e3]; dsimp only; rw [q2]; exact q4
  have hall : ∀ a ∈ env.actions nd.state, ∃ n x, (a, n, x) ∈ kids := by
    intro a ha
    obtain ⟨c, hc⟩ := hx d nd hd hleaf a ha
    obtain ⟨nd2, nc, f1, f2, f3, _⟩ := childC_facts I.tree hc
    rw [hd] at f1
    obtain rfl := Option.some.inj f1
    exact ⟨_, _, List.mem_map.2 ⟨(a, nc.visits, nc.y), mem_kidsY.2 ⟨c, nc, f3, f2, rfl⟩, rfl⟩⟩
  obtain ⟨a0, ha0⟩ := List.exists_mem_of_ne_nil _ (hl.acts _ hsn)
  obtain ⟨n0, x0, hn0⟩ := hall a0 ha0
  have hkne : kids ≠ [] := List.ne_nil_of_mem hn0
  have hth' : ∀ p ∈ kids, threshold ≤ (p.2.1 : Int) := by
    intro p hp
    have := (hkid p hp).2.1
    omega
  obtain ⟨a, n, x, hm, h1, h2, _⟩ := c37_best_value (low := low) (threshold := threshold) (opp := isOpponent m nd.time)
    (kids := kids) hkne (by
      intro p hp
      obtain ⟨r1, _, r3⟩ := hkid p hp
      have r4 := hlow p.1 r1
      obtain ⟨r5, r6⟩ := abs_le.1 r3
      simp only [Q] at r5 r6
      by_cases ho : isOpponent m nd.time = true
      · rw [if_pos ho] at r4 ⊢; linarith
      · rw [if_neg ho] at r4 ⊢; linarith) raw hi
  obtain ⟨_, hbest⟩ := h2 ⟨_, hn0, hth' _ hn0⟩
  obtain ⟨ha, _, hxa⟩ := hkid _ hm
  refine ⟨a, ha, ?_, ?_⟩
  · unfold recommendBestOrRandom
    rw [if_neg (by simpa using hkne)]
    exact h1
  · intro b hb
    obtain ⟨nb, xb, hnb⟩ := hall b hb
    have t1 := hbest _ hnb (hth' _ hnb)
    obtain ⟨_, _, t2⟩ := hkid _ hnb
    obtain ⟨t3, t4⟩ := abs_le.1 t2
    obtain ⟨t5, t6⟩ := abs_le.1 hxa
    simp only [Q] at t3 t4 t5 t6
    split at t1
    · next ho => rw [if_pos ho]; linarith
    · next ho => rw [if_neg ho]; linarith

open Verif.Uct Verif.Ments in
theorem recommends_near {px : X → Dp ℝ} {py : Y → Dp ℝ} {obs : S → A → List (S × ℝ)} {st : St S A ℝ X Y} {h : List (Event S A ℝ)}
    (hl : env.Live) (hv : alg.Valid) (H : HasDp alg px py lr) (hvis : ∀ x, alg.visitD false x = x) (htb : Leftover tb) (hu : m.useTable = false)
    (hr : Reachable env m alg k s0 dp tm tb st h) (hq : Quiescent st)
    (hobs : Transitions env obs po) (hlr : ∀ s a, env.isSink s = false → a ∈ env.actions s → lr s a = mean1 (obs s a) fun o => env.reward s a o)
    (hV0 : 0 ≤ V) (hV : ∀ n t s, n ≤ (m.maxDepth - dp).toNat → |expValue env m obs n t s| ≤ V) (hη : 0 ≤ η)
    (hK0 : 0 < K) (hK : ∀ s a, (env.succ s a).length ≤ K) (hM : 2 * K ≤ M) (W : Sampled env m obs s0 dp M η st h)
    (hdp : dp < m.maxDepth) (hs0 : env.isSink s0 = false) {low : ℝ} {threshold : Int} (hth : threshold ≤ M)
    (hlow : ∀ a ∈ env.actions s0, low + remaining m dp * sampleError V η K M ≤ (if isOpponent m tm then -1 else 1) *
      actionValue env m obs (remaining m (dp + 1)) tm s0 a) :
    RecommendsNear env m obs py low threshold (2 * (remaining m dp * sampleError V η K M)) st := by
  intro nd hd raw iter hi
  have I := reach_inv hv htb hr
  obtain ⟨nr, g1, g2, g3, g4⟩ := root_node I.tree
  rw [hd] at g1
  obtain rfl := Option.some.inj g1
  rw [← g3]
  exact near_at hl hv H hvis htb hu hr hq hobs hlr hV0 hV hη hK0 hK hM W hd (by simp [isLeaf, g2, g3, hs0, hdp]) hth
    (by rw [g2, g3, g4]; exact hlow) raw hi

/-- C90.  Values by dynamic programming, any environment: at the end of the search the value of the root is close to the value of the game, and
every recommendation at the root is close to optimal, with at least this probability. -/
theorem c90_solves {px : X → Dp ℝ} {py : Y → Dp ℝ} (hl : env.Live) (hv : alg.Valid) (H : HasDp alg px py lr) (hvis : ∀ x, alg.visitD false x = x)
    (hu : m.useTable = false) (htb : Leftover tb) (hX : Explores env m alg D k s0 dp tm tb N pa po)
    (hlr : ∀ s a, env.isSink s = false → a ∈ env.actions s → lr s a = mean1 (D.obs s a) fun o => env.reward s a o)
    (hpa : 0 ≤ pa ∧ pa ≤ 1) (hpo : 0 ≤ po ∧ po ≤ 1) (hB : ∀ s, (env.actions s).length ≤ B)
    (hV0 : 0 < V) (hV : ∀ n t s, n ≤ (m.maxDepth - dp).toNat → |expValue env m D.obs n t s| ≤ V) (hη0 : 0 < η) (hη : η ≤ V)
    (hK0 : 0 < K) (hK : ∀ s a, (env.succ s a).length ≤ K) (hM : 2 * K ≤ M)
    (hdp : dp < m.maxDepth) (hs0 : env.isSink s0 = false) {low : ℝ} {threshold : Int} (hth : threshold ≤ M)
    (hlow : ∀ a ∈ env.actions s0, low + remaining m dp * sampleError V η K M ≤ (if isOpponent m tm then -1 else 1) *
      actionValue env m D.obs (remaining m (dp + 1)) tm s0 a)
    (hk : 0 < k) (hsch : Productive env m alg k s0 dp tm tb N sched) {n : Nat} (hn : (4 * (m.maxDepth - dp).toNat + 4) * N ≤ n) :
    1 - (plays env (m.maxDepth - dp).toNat s0).length * (rareBound (pa * po) (m.maxDepth - dp).toNat M N + B * farBound V η M) ≤
    probAfter env m alg D k s0 dp tm tb N sched n (fun st h => Finished N st h ∧
      (∃ v, valD px st st.root = some v ∧ |v - expValue env m D.obs (remaining m dp) tm s0| ≤ remaining m dp * sampleError V η K M) ∧
      RecommendsNear env m D.obs py low threshold (2 * (remaining m dp * sampleError V η K M)) st) := by
  have ht : TableOk m tb := fun h => by rw [hu] at h; exact absurd h (by simp)
  refine le_trans (sampled_prob hl hv htb hu hX hpa hpo hdp.le hB hV0 hV hη0 hη hk hsch hn) (prob_mono hv htb ht hX ?_)
  rintro st h hr ⟨h1, h2⟩
  obtain ⟨nr, g1, g2, g3, g4⟩ := root_node (reach_inv hv htb hr).tree
  refine ⟨h1, ⟨_, c66_minimax_of_tree hv H hvis hu htb hr h1.1 g1, ?_⟩,
    recommends_near hl hv H hvis htb hu hr h1.1 hX.obs hlr hV0.le hV hη0.le hK0 hK hM h2 hdp hs0 hth hlow⟩
  have := dp_close hl hv htb hu hr h1.1 hX.obs hlr hV0.le hV hη0.le hK0 hK hM h2 (remaining m dp) st.root nr g1 (by simp [remaining, g3])
  rwa [g3, ← g2, ← g4]

open Verif.Ments in
/-- C90.  MENTS's soft values at a constant temperature: at the end of the search the soft value of the root is close to the value of the game up
to `temp * log B` per move, with at least this probability. -/
theorem c90_soft_solves {px : X → Soft} {py : Y → Soft} {cfg : Cfg S A} (hl : env.Live) (hv : alg.Valid) (H : HasSoft alg px py cfg lr)
    (hprior : PriorTotal cfg env) (hdec : cfg.decay = none) (htemp : 0 < cfg.temp) (hvis : ∀ x, alg.visitD false x = x)
    (hu : m.useTable = false) (htb : Leftover tb) (hX : Explores env m alg D k s0 dp tm tb N pa po)
    (hlr : ∀ s a, env.isSink s = false → a ∈ env.actions s → lr s a = mean1 (D.obs s a) fun o => env.reward s a o)
    (hpa : 0 ≤ pa ∧ pa ≤ 1) (hpo : 0 ≤ po ∧ po ≤ 1) (hB : ∀ s, (env.actions s).length ≤ B)
    (hV0 : 0 < V) (hV : ∀ n t s, n ≤ (m.maxDepth - dp).toNat → |expValue env m D.obs n t s| ≤ V) (hη0 : 0 < η) (hη : η ≤ V)
    (hK0 : 0 < K) (hK : ∀ s a, (env.succ s a).length ≤ K) (hM : 2 * K ≤ M) (hdp : dp ≤ m.maxDepth)
    (hk : 0 < k) (hsch : Productive env m alg k s0 dp tm tb N sched) {n : Nat} (hn : (4 * (m.maxDepth - dp).toNat + 4) * N ≤ n) :
    1 - (plays env (m.maxDepth - dp).toNat s0).length * (rareBound (pa * po) (m.maxDepth - dp).toNat M N + B * farBound V η M) ≤
    probAfter env m alg D k s0 dp tm tb N sched n (fun st h => Finished N st h ∧ ∃ v, softD px st st.root = some v ∧
      |v - expValue env m D.obs (remaining m dp) tm s0| ≤ remaining m dp * (cfg.temp * Real.log B + sampleError V η K M)) := by
  have ht : TableOk m tb := fun h => by rw [hu] at h; exact absurd h (by simp)
  refine le_trans (sampled_prob hl hv htb hu hX hpa hpo hdp hB hV0 hV hη0 hη hk hsch hn) (prob_mono hv htb ht hX ?_)
  rintro st h hr ⟨h1, h2⟩
  obtain ⟨nr, g1, g2, g3, g4⟩ := root_node (reach_inv hv htb hr).tree
  refine ⟨h1, _, c68_soft_value_of_tree hv H hprior hdec hvis hu htb hr h1.1 g1, ?_⟩
  have := soft_close htemp hB hl hv htb hu hr h1.1 hX.obs hlr hV0.le hV hη0.le hK0 hK hM h2 (remaining m dp) st.root nr g1 (by simp [remaining, g3])
  rwa [g3, ← g2, ← g4]

end

/-! ## The bounds tend to 0 -/

open Filter Topology

/-- C90.  With a fixed probability of exploration, the probability that some play is followed too rarely tends to 0 with the number of trials. -/
theorem c90_rare_vanishes {p : ℝ} (hp : 0 < p) (L M : Nat) : Tendsto (fun N => rareBound p L M N) atTop (𝓝 0) := by
  unfold rareBound
  have h1 : (1 : ℝ) < 1 + p ^ L / 2 := by have := pow_pos hp L; linarith
  have h2 : Tendsto (fun N : ℕ => N - (L + M)) atTop atTop := tendsto_sub_atTop_nat (L + M)
  exact Tendsto.div_atTop tendsto_const_nhds ((tendsto_pow_atTop_atTop_of_one_lt h1).comp h2)

/-- C90.  The probability that the mean of many samples is far off tends to 0 with the number of samples. -/
theorem c90_far_vanishes {V η : ℝ} (hV : 0 < V) (hη : 0 < η) : Tendsto (fun M => farBound V η M) atTop (𝓝 0) := by
  unfold farBound
  have h1 : Tendsto (fun M : ℕ => -(η ^ 2 * M / (16 * V ^ 2))) atTop atBot := by
    have h2 : Tendsto (fun M : ℕ => (η ^ 2 / (16 * V ^ 2)) * (M : ℝ)) atTop atTop :=
      Tendsto.const_mul_atTop (by positivity) tendsto_natCast_atTop_atTop
    refine tendsto_neg_atTop_atBot.comp (h2.congr fun M => by ring)
  have := (Real.tendsto_exp_atBot.comp h1).const_mul 2
  simpa using this

/-- C90.  The error that a chance node adds tends to twice the sampling accuracy. -/
theorem c90_error_limit (V η : ℝ) (K : Nat) : Tendsto (fun M => sampleError V η K M) atTop (𝓝 (2 * η)) := by
  unfold sampleError
  have : Tendsto (fun M : ℕ => 4 * K * V / (M : ℝ)) atTop (𝓝 0) := tendsto_const_nhds.div_atTop tendsto_natCast_atTop_atTop
  simpa using this.const_add (2 * η)

section
variable {S A X Y : Type} [DecidableEq S] [DecidableEq A]
  {env : Env S A ℝ} {m : Manager S ℝ} {alg : Alg S A ℝ X Y} {lr : S → A → ℝ} {k : Nat} {s0 : S} {dp tm : Int}
  {tb : List ((Int × S) × Option Nat)} {D : Dice S A ℝ X Y} {N : Nat} {pa po : ℝ}
  {sched : Scheduler S A ℝ} {K M B : Nat} {V η : ℝ}

/-- For every accuracy there are numbers of samples and trials that achieve it. -/
theorem enough (C L T : Nat) (B K : Nat) {V p ε δ : ℝ} (hV : 0 < V) (hp : 0 < p) (hε : 0 < ε) (hδ : 0 < δ) :
    ∃ (η : ℝ) (M N0 : Nat), 0 < η ∧ η ≤ V ∧ 2 * K ≤ M ∧ T ≤ M ∧ L * sampleError V η K M ≤ ε ∧
      ∀ N ≥ N0, C * (rareBound p L M N + B * farBound V η M) ≤ δ := by
  obtain ⟨η, h1, h2, h3⟩ : ∃ η : ℝ, 0 < η ∧ η ≤ V ∧ L * (2 * η) < ε := by
    refine ⟨min V (ε / (4 * (L + 1))), lt_min hV (by positivity), min_le_left _ _, ?_⟩
    have h : min V (ε / (4 * (L + 1))) ≤ ε / (4 * (L + 1)) := min_le_right _ _
    have h' : (L : ℝ) * (2 * (ε / (4 * (L + 1)))) < ε := by
      have : (L : ℝ) * (2 * (ε / (4 * (L + 1)))) = (L / (L + 1)) * (ε / 2) := by field_simp; ring
      rw [this]
      have : (L : ℝ) / (L + 1) ≤ 1 := by rw [div_le_one (by positivity)]; linarith
      nlinarith
    refine lt_of_le_of_lt ?_ h'
    gcongr
  have e1 : ∀ᶠ M in atTop, L * sampleError V η K M < ε := ((c90_error_limit V η K).const_mul (L : ℝ)).eventually_lt_const h3
  have e2 : ∀ᶠ M in atTop, C * (B * farBound V η M) < δ / 2 := by
    have := ((c90_far_vanishes hV h1).const_mul (B : ℝ)).const_mul (C : ℝ)
    rw [mul_zero, mul_zero] at this
    exact this.eventually_lt_const (by linarith)
  obtain ⟨M, hM1, hM2, hM3, hM4⟩ := (e1.and (e2.and ((eventually_ge_atTop (2 * K)).and (eventually_ge_atTop T)))).exists
  have e3 := ((c90_rare_vanishes hp L M).const_mul (C : ℝ))
  rw [mul_zero] at e3
  obtain ⟨N0, hN0⟩ := eventually_atTop.1 (e3.eventually_lt_const (show 0 < δ / 2 by linarith))
  refine ⟨η, M, N0, h1, h2, hM3, hM4, hM1.le, fun N hN => ?_⟩
  have := hN0 N hN
  rw [mul_add]
  linarith

/-- C90.  Values by dynamic programming: for all `ε` and `δ` there is a number of trials from which on, for every number of workers and every
schedule, the value of the root is within `ε` of the value of the game and every recommendation at the root is within `2 * ε` of optimal at the end
of the search, with probability at least `1 - δ`, if every action is explored with at least a fixed probability. -/
theorem c90_converges {px : X → Dp ℝ} {py : Y → Dp ℝ} {obs : S → A → List (S × ℝ)} (hl : env.Live) (hv : alg.Valid) (H : HasDp alg px py lr)
    (hvis : ∀ x, alg.visitD false x = x) (hu : m.useTable = false) (htb : Leftover tb)
    (hlr : ∀ s a, env.isSink s = false → a ∈ env.actions s → lr s a = mean1 (obs s a) fun o => env.reward s a o)
    (hpa : 0 < pa ∧ pa ≤ 1) (hpo : 0 < po ∧ po ≤ 1) (hB : ∀ s, (env.actions s).length ≤ B)
    (hV0 : 0 < V) (hV : ∀ n t s, n ≤ (m.maxDepth - dp).toNat → |expValue env m obs n t s| ≤ V)
    (hK0 : 0 < K) (hK : ∀ s a, (env.succ s a).length ≤ K)
    (hdp : dp < m.maxDepth) (hs0 : env.isSink s0 = false) {low : ℝ} {threshold : Int} {ε δ : ℝ} (hε : 0 < ε) (hδ : 0 < δ)
    (hlow : ∀ a ∈ env.actions s0, low + ε ≤ (if isOpponent m tm then -1 else 1) * actionValue env m obs (remaining m (dp + 1)) tm s0 a) :
    ∃ N0, ∀ N ≥ N0, ∀ (k : Nat) (D : Dice S A ℝ X Y) (sched : Scheduler S A ℝ), 0 < k → D.obs = obs → Explores env m alg D k s0 dp tm tb N pa po →
      Productive env m alg k s0 dp tm tb N sched → ∀ n, (4 * (m.maxDepth - dp).toNat + 4) * N ≤ n →
      1 - δ ≤ probAfter env m alg D k s0 dp tm tb N sched n (fun st h => Finished N st h ∧
        (∃ v, valD px st st.root = some v ∧ |v - expValue env m obs (remaining m dp) tm s0| ≤ ε) ∧
        RecommendsNear env m obs py low threshold (2 * ε) st) := by
  obtain ⟨η, M, N0, h1, h2, h3, h4, h5, h6⟩ := enough (plays env (m.maxDepth - dp).toNat s0).length (m.maxDepth - dp).toNat threshold.toNat B K hV0
    (mul_pos hpa.1 hpo.1) hε hδ
  refine ⟨N0, fun N hN k D sched hk hobs hX hsch n hn => ?_⟩
  subst hobs
  have ht : TableOk m tb := fun h => by rw [hu] at h; exact absurd h (by simp)
  have h5' : (remaining m dp : ℝ) * sampleError V η K M ≤ ε := h5
  have key := c90_solves hl hv H hvis hu htb hX hlr ⟨hpa.1.le, hpa.2⟩ ⟨hpo.1.le, hpo.2⟩ hB hV0 hV h1 h2 hK0 hK h3 hdp hs0
    (low := low) (threshold := threshold) (by omega) (fun a ha => le_trans (by linarith) (hlow a ha)) hk hsch hn
  refine le_trans (by have := h6 N hN; linarith) (le_trans key (prob_mono hv htb ht hX ?_))
  rintro st h hr ⟨r1, ⟨v, r2, r3⟩, r4⟩
  refine ⟨r1, ⟨v, r2, le_trans r3 h5'⟩, ?_⟩
  intro nd hd raw iter hi
  obtain ⟨a, q1, q2, q3⟩ := r4 nd hd raw iter hi
  refine ⟨a, q1, q2, fun b hb => ?_⟩
  have := q3 b hb
  split
  · next ho => rw [if_pos ho] at this; linarith
  · next ho => rw [if_neg ho] at this; linarith

open Verif.Ments Verif.Dents

/-- C90 for DENTS with DP values. -/
theorem c90_dents_solves {cfg : DCfg S A} {eps : ℝ} {obs : S → A → List (S × ℝ)} {iter : View S A DX DY → List (A × ℝ) → List (A × ℝ)}
    (hl : env.Live) (hdpv : cfg.useDp = true) (hu : m.useTable = false) (htb : Leftover tb) (G : GoodCfg cfg.toCfg env) (hnd : ∀ s, (env.actions s).Nodup)
    (hB : ∀ s, (env.actions s).length ≤ B) (heps : 0 ≤ eps) (hit : ∀ v l, List.Perm (iter v l) l) (hobs : Transitions env obs po)
    (hlr : ∀ s a, env.isSink s = false → a ∈ env.actions s → lr s a = mean1 (obs s a) fun o => env.reward s a o)
    (hp : 1 / 10 ^ 16 ≤ softExplore cfg.toCfg B N) (hpo : 0 ≤ po ∧ po ≤ 1)
    (hV0 : 0 < V) (hV : ∀ n t s, n ≤ (m.maxDepth - dp).toNat → |expValue env m obs n t s| ≤ V) (hη0 : 0 < η) (hη : η ≤ V)
    (hK0 : 0 < K) (hK : ∀ s a, (env.succ s a).length ≤ K) (hM : 2 * K ≤ M)
    (hdp : dp < m.maxDepth) (hs0 : env.isSink s0 = false) {low : ℝ} {threshold : Int} (hth : threshold ≤ M)
    (hlow : ∀ a ∈ env.actions s0, low + remaining m dp * sampleError V η K M ≤ (if isOpponent m tm then -1 else 1) *
      actionValue env m obs (remaining m (dp + 1)) tm s0 a)
    (hk : 0 < k) (hsch : Productive env m (dents eps cfg env m lr) k s0 dp tm tb N sched) {n : Nat} (hn : (4 * (m.maxDepth - dp).toNat + 4) * N ≤ n) :
    1 - (plays env (m.maxDepth - dp).toNat s0).length *
      (rareBound (softExplore cfg.toCfg B N * po) (m.maxDepth - dp).toNat M N + B * farBound V η M) ≤
    probAfter env m (dents eps cfg env m lr) (softDice eps cfg.toCfg (dentsQ cfg) iter obs) k s0 dp tm tb N sched n (fun st h => Finished N st h ∧
      (∃ v, valD DX.dp st st.root = some v ∧ |v - expValue env m obs (remaining m dp) tm s0| ≤ remaining m dp * sampleError V η K M) ∧
      RecommendsNear env m obs DY.dp low threshold (2 * (remaining m dp * sampleError V η K M)) st) :=
  c90_solves hl (dents_valid eps cfg env m lr) (dents_hasDp eps env m lr hdpv) (fun x => rfl) hu htb
    (c77_dents_explores (m := m) (lr := lr) (k := k) (s0 := s0) (dp := dp) (tm := tm) htb G hl hnd hB heps hit hobs hp) hlr
    (c77_explore_range G.max1 hp) hpo hB hV0 hV hη0 hη hK0 hK hM hdp hs0 hth hlow hk hsch hn

/-- C90 for EST with DP values. -/
theorem c90_est_solves {cfg : DCfg S A} {eps : ℝ} {obs : S → A → List (S × ℝ)} {iter : View S A DX DY → List (A × ℝ) → List (A × ℝ)}
    (hl : env.Live) (hdpv : cfg.useDp = true) (hu : m.useTable = false) (htb : Leftover tb) (G : GoodCfg cfg.toCfg env) (hnd : ∀ s, (env.actions s).Nodup)
    (hB : ∀ s, (env.actions s).length ≤ B) (heps : 0 ≤ eps) (hit : ∀ v l, List.Perm (iter v l) l) (hobs : Transitions env obs po)
    (hlr : ∀ s a, env.isSink s = false → a ∈ env.actions s → lr s a = mean1 (obs s a) fun o => env.reward s a o)
    (hp : 1 / 10 ^ 16 ≤ softExplore cfg.toCfg B N) (hpo : 0 ≤ po ∧ po ≤ 1)
    (hV0 : 0 < V) (hV : ∀ n t s, n ≤ (m.maxDepth - dp).toNat → |expValue env m obs n t s| ≤ V) (hη0 : 0 < η) (hη : η ≤ V)
    (hK0 : 0 < K) (hK : ∀ s a, (env.succ s a).length ≤ K) (hM : 2 * K ≤ M)
    (hdp : dp < m.maxDepth) (hs0 : env.isSink s0 = false) {low : ℝ} {threshold : Int} (hth : threshold ≤ M)
    (hlow : ∀ a ∈ env.actions s0, low + remaining m dp * sampleError V η K M ≤ (if isOpponent m tm then -1 else 1) *
      actionValue env m obs (remaining m (dp + 1)) tm s0 a)
    (hk : 0 < k) (hsch : Productive env m (est eps cfg env m lr) k s0 dp tm tb N sched) {n : Nat} (hn : (4 * (m.maxDepth - dp).toNat + 4) * N ≤ n) :
    1 - (plays env (m.maxDepth - dp).toNat s0).length *
      (rareBound (softExplore cfg.toCfg B N * po) (m.maxDepth - dp).toNat M N + B * farBound V η M) ≤
    probAfter env m (est eps cfg env m lr) (softDice eps cfg.toCfg (estQ cfg) iter obs) k s0 dp tm tb N sched n (fun st h => Finished N st h ∧
      (∃ v, valD DX.dp st st.root = some v ∧ |v - expValue env m obs (remaining m dp) tm s0| ≤ remaining m dp * sampleError V η K M) ∧
      RecommendsNear env m obs DY.dp low threshold (2 * (remaining m dp * sampleError V η K M)) st) :=
  c90_solves hl (est_valid eps cfg env m lr) (est_hasDp eps env m lr hdpv) (fun x => rfl) hu htb
    (c77_est_explores (m := m) (lr := lr) (k := k) (s0 := s0) (dp := dp) (tm := tm) htb G hl hnd hB heps hit hobs hp) hlr
    (c77_explore_range G.max1 hp) hpo hB hV0 hV hη0 hη hK0 hK hM hdp hs0 hth hlow hk hsch hn

/-- C90 for DB-MENTS. -/
theorem c90_dbments_solves {cfg : Cfg S A} {eps : ℝ} {obs : S → A → List (S × ℝ)} {iter : View S A DB DB → List (A × ℝ) → List (A × ℝ)}
    (hl : env.Live) (hu : m.useTable = false) (htb : Leftover tb) (G : GoodCfg cfg env) (hnd : ∀ s, (env.actions s).Nodup)
    (hB : ∀ s, (env.actions s).length ≤ B) (heps : 0 ≤ eps) (hit : ∀ v l, List.Perm (iter v l) l) (hobs : Transitions env obs po)
    (hlr : ∀ s a, env.isSink s = false → a ∈ env.actions s → lr s a = mean1 (obs s a) fun o => env.reward s a o)
    (hp : 1 / 10 ^ 16 ≤ softExplore cfg B N) (hpo : 0 ≤ po ∧ po ≤ 1)
    (hV0 : 0 < V) (hV : ∀ n t s, n ≤ (m.maxDepth - dp).toNat → |expValue env m obs n t s| ≤ V) (hη0 : 0 < η) (hη : η ≤ V)
    (hK0 : 0 < K) (hK : ∀ s a, (env.succ s a).length ≤ K) (hM : 2 * K ≤ M)
    (hdp : dp < m.maxDepth) (hs0 : env.isSink s0 = false) {low : ℝ} {threshold : Int} (hth : threshold ≤ M)
    (hlow : ∀ a ∈ env.actions s0, low + remaining m dp * sampleError V η K M ≤ (if isOpponent m tm then -1 else 1) *
      actionValue env m obs (remaining m (dp + 1)) tm s0 a)
    (hk : 0 < k) (hsch : Productive env m (dbments eps cfg lr) k s0 dp tm tb N sched) {n : Nat} (hn : (4 * (m.maxDepth - dp).toNat + 4) * N ≤ n) :
    1 - (plays env (m.maxDepth - dp).toNat s0).length *
      (rareBound (softExplore cfg B N * po) (m.maxDepth - dp).toNat M N + B * farBound V η M) ≤
    probAfter env m (dbments eps cfg lr) (softDice eps cfg (mentsQ cfg DB.soft) iter obs) k s0 dp tm tb N sched n (fun st h => Finished N st h ∧
      (∃ v, valD DB.dp st st.root = some v ∧ |v - expValue env m obs (remaining m dp) tm s0| ≤ remaining m dp * sampleError V η K M) ∧
      RecommendsNear env m obs DB.dp low threshold (2 * (remaining m dp * sampleError V η K M)) st) :=
  c90_solves hl (dbments_valid eps cfg lr) (dbments_hasDp eps cfg lr) (fun x => rfl) hu htb
    (c77_dbments_explores (m := m) (lr := lr) (k := k) (s0 := s0) (dp := dp) (tm := tm) htb G hl hnd hB heps hit hobs hp) hlr
    (c77_explore_range G.max1 hp) hpo hB hV0 hV hη0 hη hK0 hK hM hdp hs0 hth hlow hk hsch hn

/-- C90 for MENTS with a constant temperature. -/
theorem c90_ments_solves {cfg : Cfg S A} {eps : ℝ} {obs : S → A → List (S × ℝ)} {iter : View S A Soft Soft → List (A × ℝ) → List (A × ℝ)}
    (hl : env.Live) (hdec : cfg.decay = none) (hu : m.useTable = false) (htb : Leftover tb) (G : GoodCfg cfg env) (hnd : ∀ s, (env.actions s).Nodup)
    (hB : ∀ s, (env.actions s).length ≤ B) (heps : 0 ≤ eps) (hit : ∀ v l, List.Perm (iter v l) l) (hobs : Transitions env obs po)
    (hlr : ∀ s a, env.isSink s = false → a ∈ env.actions s → lr s a = mean1 (obs s a) fun o => env.reward s a o)
    (hp : 1 / 10 ^ 16 ≤ softExplore cfg B N) (hpo : 0 ≤ po ∧ po ≤ 1)
    (hV0 : 0 < V) (hV : ∀ n t s, n ≤ (m.maxDepth - dp).toNat → |expValue env m obs n t s| ≤ V) (hη0 : 0 < η) (hη : η ≤ V)
    (hK0 : 0 < K) (hK : ∀ s a, (env.succ s a).length ≤ K) (hM : 2 * K ≤ M) (hdp : dp ≤ m.maxDepth)
    (hk : 0 < k) (hsch : Productive env m (ments eps cfg lr) k s0 dp tm tb N sched) {n : Nat} (hn : (4 * (m.maxDepth - dp).toNat + 4) * N ≤ n) :
    1 - (plays env (m.maxDepth - dp).toNat s0).length *
      (rareBound (softExplore cfg B N * po) (m.maxDepth - dp).toNat M N + B * farBound V η M) ≤
    probAfter env m (ments eps cfg lr) (softDice eps cfg (mentsQ cfg id) iter obs) k s0 dp tm tb N sched n (fun st h => Finished N st h ∧
      ∃ v, softD id st st.root = some v ∧
        |v - expValue env m obs (remaining m dp) tm s0| ≤ remaining m dp * (cfg.temp * Real.log B + sampleError V η K M)) :=
  c90_soft_solves hl (ments_valid eps cfg lr) (ments_hasSoft eps cfg lr) G.total hdec (by simpa [hdec] using G.temp) (fun _ => rfl) hu htb
    (c77_ments_explores (m := m) (lr := lr) (k := k) (s0 := s0) (dp := dp) (tm := tm) htb G hl hnd hB heps hit hobs hp) hlr
    (c77_explore_range G.max1 hp) hpo hB hV0 hV hη0 hη hK0 hK hM hdp hk hsch hn

end

/-! ## Example -/

/-- Two states, two actions.  State `true` pays 1.  The next state is the action with probability 3/4, and the other state otherwise. -/
def coinEnv : Env Bool Bool ℝ :=
  { isSink := fun _ => false, actions := fun _ => [false, true], succ := fun _ _ => [false, true], reward := fun s _ _ => if s then 1 else 0 }

noncomputable def coinObs (_ : Bool) (a : Bool) : List (Bool × ℝ) := [(a, 3 / 4), (!a, 1 / 4)]

def coinMgr : Manager Bool ℝ :=
  { maxDepth := 2, mctsMode := true, twoPlayer := false, useTable := false, numMutexes := 0, heuristic := none }

/-- Half of the time exploration. -/
noncomputable def coinCfg : Verif.Ments.Cfg Bool Bool :=
  { temp := 1, priorWeight := 0, epsilon := 10 ^ 9, rootEpsilon := -1, maxExplore := 1 / 2, decay := none, minTemp := 0, scale := 1,
    rootScale := -1, defaultQ := 0, shift := false, offset := 0, threshold := 0, mostVisited := false, prior := none, low := -1000000 }

theorem coinTransitions : Transitions coinEnv coinObs (1 / 4) := by
  intro s a _ _
  refine ⟨⟨by intro p hp; simp [coinObs] at hp; rcases hp with rfl | rfl <;> norm_num, by norm_num [coinObs]⟩, ?_, ?_⟩
  · intro p _ _; cases h : p.1 <;> simp [coinEnv]
  · intro o _; cases a <;> cases o <;> norm_num [coinObs, weightOf]

theorem coinLive : coinEnv.Live := ⟨by simp [coinEnv], by simp [coinEnv]⟩

/-- The values with one and with two moves to go. -/
theorem coinValue1 (t : Int) (s : Bool) : expValue coinEnv coinMgr coinObs 1 t s = if s then 1 else 0 := by
  cases s <;> norm_num [expValue, coinEnv, coinObs, coinMgr, heurOf, isOpponent, mean1, bestOf, List.max?]

theorem coinAction (t : Int) (s a : Bool) : actionValue coinEnv coinMgr coinObs 1 t s a = (if s then 1 else 0) + if a then 3 / 4 else 1 / 4 := by
  have h := fun s => coinValue1 (t + 1) s
  unfold actionValue
  simp only [h]
  cases s <;> cases a <;> norm_num [coinEnv, coinObs, mean1]

theorem coinValue2 (t : Int) (s : Bool) : expValue coinEnv coinMgr coinObs 2 t s = (if s then 1 else 0) + 3 / 4 := by
  have h := fun a => coinAction t s a
  unfold actionValue at h
  unfold expValue
  simp only [h]
  cases s <;> norm_num [coinEnv, isOpponent, coinMgr, bestOf, List.max?]

theorem coinBound : ∀ n t s, n ≤ (coinMgr.maxDepth - 0).toNat → |expValue coinEnv coinMgr coinObs n t s| ≤ 2 := by
  intro n t s hn
  have hn' : n ≤ 2 := hn
  interval_cases n
  · norm_num [expValue, heurOf, coinMgr]
  · rw [coinValue1]; cases s <;> norm_num
  · rw [coinValue2]; cases s <;> norm_num

/-- The number of samples and the number of trials. -/
def coinM : Nat := 512000

theorem coinRare (M : Nat) : rareBound (1 / 16) 2 M (2 + M + 512 * (M + 22)) ≤ 1 / 2 ^ 20 := by
  unfold rareBound
  have h1 : (2 : ℝ) ≤ (1 + (1 / 16) ^ 2 / 2) ^ 512 := by
    have := one_add_mul_le_pow (a := ((1 / 16) ^ 2 / 2 : ℝ)) (by norm_num) 512
    refine le_trans ?_ this
    norm_num
  rw [Nat.add_sub_cancel_left, pow_mul]
  have h2 : (2 : ℝ) ^ (M + 22) ≤ ((1 + (1 / 16) ^ 2 / 2) ^ 512) ^ (M + 22) := pow_le_pow_left₀ (by norm_num) h1 _
  rw [div_le_div_iff₀ (lt_of_lt_of_le (by positivity) h2) (by positivity), one_mul]
  refine le_trans (le_of_eq ?_) h2
  rw [← pow_add]
  congr 1
  omega

theorem coinFar : farBound 2 (1 / 20) coinM ≤ 2 / 2 ^ 20 := by
  unfold farBound coinM
  have h1 : (2 : ℝ) ≤ Real.exp 1 := by have := Real.add_one_le_exp (1 : ℝ); linarith
  have h2 : (2 : ℝ) ^ 20 ≤ Real.exp 20 := by
    have := pow_le_pow_left₀ (by norm_num) h1 20
    rwa [← Real.exp_nat_mul, show ((20 : ℕ) : ℝ) * 1 = 20 by norm_num] at this
  rw [show -((1 / 20 : ℝ) ^ 2 * ((512000 : ℕ) : ℝ) / (16 * 2 ^ 2)) = -20 by norm_num, Real.exp_neg, ← div_eq_mul_inv]
  exact div_le_div_of_nonneg_left (by norm_num) (by norm_num) h2

def coinN : Nat := 2 + coinM + 512 * (coinM + 22)

theorem coinN_eq : coinN = 262667266 := rfl

theorem coinOpponent : isOpponent coinMgr 0 = false := by simp [isOpponent, coinMgr]

theorem coinExplore : softExplore coinCfg 2 coinN = 1 / 4 := by
  have hN : (coinN : ℝ) ≤ 2 * 10 ^ 9 := by rw [coinN_eq]; norm_num
  have hN0 : (1 : ℝ) ≤ coinN := by rw [coinN_eq]; norm_num
  have h : Real.log ((coinN : ℝ) + 1) ≤ coinN := by
    have := Real.log_le_sub_one_of_pos (x := (coinN : ℝ) + 1) (by linarith)
    linarith
  have h0 : 0 < Real.log ((coinN : ℝ) + 1) := Real.log_pos (by linarith)
  have h1 : (1 / 2 : ℝ) ≤ 10 ^ 9 / Real.log ((coinN : ℝ) + 1) := by
    rw [div_le_div_iff₀ (by norm_num) h0]
    linarith
  have h2 : min (minEps coinCfg / Real.log ((coinN : ℝ) + 1)) coinCfg.maxExplore = 1 / 2 := by
    have : minEps coinCfg = 10 ^ 9 := by norm_num [minEps, coinCfg]
    rw [this]
    exact min_eq_right h1
  rw [softExplore, h2]
  norm_num

open Verif.Ments Verif.Dents in
/-- A DB-MENTS search by three workers of this stochastic environment, under some schedule: with probability at least 0.999 the value of the root
is within 0.21 of the value of the game, which is 3/4, and every recommendation is the action `true`, the optimal one. -/
example : ∃ sched : Scheduler Bool Bool ℝ, 999 / 1000 ≤
    probAfter coinEnv coinMgr (dbments 0 coinCfg fun s _ => if s then 1 else 0) (softDice 0 coinCfg (mentsQ coinCfg DB.soft) (fun _ l => l) coinObs)
      3 false 0 0 [] coinN sched (12 * coinN) (fun st h => Finished coinN st h ∧ (∃ v, valD DB.dp st st.root = some v ∧ |v - 3 / 4| ≤ 21 / 100) ∧
        ∀ nd, st.dn[st.root]? = some nd → ∀ (raw : Nat) (iter : List (Bool × ℝ) → List (Bool × ℝ)), Uct.IterOk iter →
          recommendBestOrRandom (-10) 1 (viewOf coinEnv coinMgr st nd).opp (viewOf coinEnv coinMgr st nd).actions
            ((viewOf coinEnv coinMgr st nd).kids.map fun k => (k.1, k.2.2.dp.n, k.2.2.dp.val.getD 0)) raw iter = some true) := by
  have G : GoodCfg coinCfg coinEnv := by
    refine ⟨by simp [coinCfg], by norm_num [coinCfg], by norm_num [coinCfg], by norm_num [coinCfg], ?_, by simp [coinCfg], ?_, ?_, ?_⟩
    · simp only [coinCfg]; exact Real.log_nonneg (by norm_num)
    all_goals intro f hf; simp [coinCfg] at hf
  have htb : Leftover ([] : List ((Int × Bool) × Option Nat)) := by simp [Leftover]
  have ht : TableOk coinMgr ([] : List ((Int × Bool) × Option Nat)) := by simp [TableOk, coinMgr]
  obtain ⟨sched, hsch⟩ := productive_exists (env := coinEnv) (m := coinMgr) (k := 3) (s0 := false) (dp := 0) (tm := 0) (N := coinN)
    (dbments_valid 0 coinCfg fun s _ => if s then 1 else 0) htb ht
  refine ⟨sched, ?_⟩
  have hse : (remaining coinMgr 0 : ℝ) * sampleError 2 (1 / 20) 2 coinM ≤ 21 / 100 := by
    rw [show remaining coinMgr 0 = 2 from rfl]
    norm_num [sampleError, coinM]
  have hp : 1 / 10 ^ 16 ≤ softExplore coinCfg 2 coinN := by rw [coinExplore]; norm_num
  have key := c90_dbments_solves (cfg := coinCfg) (eps := 0) (B := 2) (K := 2) (M := coinM) (V := 2) (η := 1 / 20) (iter := fun _ l => l)
    (env := coinEnv) (m := coinMgr) (obs := coinObs) (po := 1 / 4)
    (lr := fun s _ => if s then 1 else 0) (k := 3) (s0 := false) (dp := 0) (tm := 0) (tb := []) (N := coinN) (sched := sched) (low := -10)
    (threshold := 1) (n := 12 * coinN) coinLive rfl htb G (by simp [coinEnv]) (by simp [coinEnv]) le_rfl
    (fun _ l => List.Perm.refl l) coinTransitions (by intro s a _ _; cases s <;> cases a <;> norm_num [mean1, coinObs, coinEnv]) hp (by norm_num)
    (by norm_num) coinBound (by norm_num) (by norm_num) (by norm_num) (by simp [coinEnv]) (by norm_num [coinM]) (by simp [coinMgr]) rfl
    (by norm_num [coinM])
    (by
      intro a _
      rw [show remaining coinMgr (0 + 1) = 1 from rfl, coinAction]
      rw [coinOpponent]
      cases a <;> norm_num <;> linarith)
    (by norm_num) hsch (by rw [show (coinMgr.maxDepth - 0).toNat = 2 from rfl])
  have hX := c77_dbments_explores (m := coinMgr) (lr := fun s _ => if s then 1 else 0) (k := 3) (s0 := false) (dp := 0) (tm := 0) (tb := [])
    (eps := 0) (iter := fun _ l => l) htb G coinLive (by simp [coinEnv]) (B := 2) (by simp [coinEnv]) le_rfl (fun _ l => List.Perm.refl l) coinTransitions hp
  refine le_trans ?_ (le_trans key (prob_mono (dbments_valid 0 coinCfg _) htb ht hX ?_))
  · rw [coinExplore, show (plays coinEnv (coinMgr.maxDepth - 0).toNat false).length = 21 from rfl,
      show (coinMgr.maxDepth - 0).toNat = 2 from rfl, show (1 / 4 * (1 / 4) : ℝ) = 1 / 16 by norm_num]
    have h1 := coinRare coinM
    have h2 := coinFar
    rw [show 2 + coinM + 512 * (coinM + 22) = coinN from rfl] at h1
    norm_num at h1 h2 ⊢
    linarith
  · rintro st h hr ⟨r1, ⟨v, r2, r3⟩, r4⟩
    refine ⟨r1, ⟨v, r2, ?_⟩, ?_⟩
    · rw [show remaining coinMgr 0 = 2 from rfl, coinValue2] at r3
      have : |v - 3 / 4| ≤ (remaining coinMgr 0 : ℝ) * sampleError 2 (1 / 20) 2 coinM := by
        rw [show remaining coinMgr 0 = 2 from rfl]
        simpa using r3
      exact le_trans this hse
    · intro nd hd raw iter hi
      obtain ⟨a, q1, q2, q3⟩ := r4 nd hd raw iter hi
      obtain ⟨nr, g1, g2, g3, g4⟩ := root_node (reach_inv (dbments_valid 0 coinCfg _) htb hr).tree
      rw [hd] at g1
      obtain rfl := Option.some.inj g1
      have := q3 true (by simp [coinEnv])
      rw [g2, g3, g4, show remaining coinMgr (0 + 1) = 1 from rfl, coinAction, coinAction] at this
      cases a
      · rw [coinOpponent] at this
        norm_num at this
        linarith
      · exact q2

end Verif.Random
