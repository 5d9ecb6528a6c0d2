import Verif.Proofs.RentsTree
import Verif.Proofs.EraseAt
import Verif.Props.TentsTree

/-!
# Property C101: the values of finished RENTS searches

The property is false as stated (`c101_false`): a node ignores the actions that its parent's policy does not list.  What holds is proved with a
larger error: `loss p` temperatures per move instead of the logarithm of the number of actions.  `loss`, `FloorOk` and `SameActions` are defined in
`Verif.Spec.RentsTree`, `gameValue` in `Verif.Spec.Tree`, `expValue` and the bounds in `Verif.Spec.Stochastic`, `rentsDice` in
`Verif.Spec.TentsTree`.
-/

set_option linter.unusedSectionVars false
set_option linter.unusedSimpArgs false

namespace Verif.Tents

open Verif.Search Verif.Backups Verif.Ments Verif.Random Verif.Spec
open Verif.Uct (IterOk)
open Verif.Sampling (Draw)

section
variable {S A : Type} [DecidableEq S] [DecidableEq A] {cfg : Cfg S A} {env : Env S A ℝ} {m : Manager S ℝ} {eps : ℝ} {lr : S → A → ℝ} {k : Nat} {s0 : S}
  {tm : Int} {tb : List ((Int × S) × Option Nat)} {st : St S A ℝ Soft Soft} {h : List (Event S A ℝ)} {next : S → A → S} {B N : Nat} {p : ℝ}

/-- C101.  Constant temperature, no transposition table, any environment: whenever no trial is running, the value of a decision node with children is,
for the player to move, at least the largest current value of its actions (or the smallest number, `low` temperatures) minus `16 log 10`
temperatures, and at most that plus `log` of the number of actions temperatures; below the root at most that: no bonus for entropy. -/
theorem c101_node_value_partial (G : GoodCfg cfg env) (hnd : ∀ s, (env.actions s).Nodup) (hdec : cfg.decay = none) (hu : m.useTable = false)
    (htb : Leftover tb) (hr : Reachable env m (rents eps cfg lr) k s0 0 tm tb st h) (hq : Quiescent st) {d : Nat} {nd : DNode S A ℝ Soft}
    (hd : st.dn[d]? = some nd) (hk : nd.kids ≠ []) :
    ∃ v M, softD id st d = some v ∧
      (cfg.low ≤ M ∧ (∀ a ∈ env.actions nd.state, actionVal cfg m st nd a / cfg.temp ≤ M) ∧
        (M = cfg.low ∨ ∃ a ∈ env.actions nd.state, M = actionVal cfg m st nd a / cfg.temp)) ∧
      cfg.temp * M - cfg.temp * (16 * Real.log 10) ≤ sgn (isOpponent m nd.time) * v ∧
      sgn (isOpponent m nd.time) * v ≤ cfg.temp * M + cfg.temp * Real.log (env.actions nd.state).length ∧
      (0 < nd.depth → sgn (isOpponent m nd.time) * v ≤ cfg.temp * M) := by
  have hT : 0 < cfg.temp := by simpa [hdec] using G.temp
  have I := reach_inv (rents_valid eps cfg lr) htb hr
  have hane : env.actions nd.state ≠ [] := by
    obtain ⟨p0, hp0⟩ := List.exists_mem_of_ne_nil _ hk
    obtain ⟨nd2, _, k1, _, _, _, _, _, _, k8⟩ := childC_facts I.tree (childC_of_mem I.tree hd (show (p0.1, p0.2) ∈ nd.kids from hp0))
    rw [hd] at k1
    obtain rfl := Option.some.inj k1
    exact List.ne_nil_of_mem k8
  obtain ⟨P, M, h1, _, _, h2, h3, h4, h5⟩ := rents_value (acts := fun _ => False) (B := 0) (p := 0) G (.inl rfl) hnd hdec hu htb hr hq le_rfl hd hk
  have hs2 : sgn (isOpponent m nd.time) * sgn (isOpponent m nd.time) = 1 := by unfold sgn; split <;> norm_num
  have he : sgn (isOpponent m nd.time) * valueD st d = relValue cfg.temp P (actionVal cfg m st nd) M (env.actions nd.state) := by
    rw [h5, ← mul_assoc, hs2, one_mul]
  have hlen : (1 : ℝ) ≤ (env.actions nd.state).length := by exact_mod_cast List.length_pos_of_ne_nil hane
  refine ⟨valueD st d, M, (valueD_some G htb hr hd).2, h4, ?_, ?_, ?_⟩
  · rw [he]; exact relValue_lower hT
  · rw [he]
    refine relValue_upper hT h1 h4.2.1 hlen ?_
    have := List.sum_le_card_nsmul ((env.actions nd.state).map P) 1 (by
      intro x hx
      obtain ⟨b, hb, rfl⟩ := List.mem_map.1 hx
      exact h3 b hb)
    simpa using this
  · intro hdep
    rw [he]
    have := relValue_upper (c := 1) hT h1 h4.2.1 le_rfl (h2 hdep)
    simpa using this

theorem floor_len (G : GoodCfg cfg env) (F : FloorOk cfg env B N p) (hlen : ∀ s, (env.actions s).length ≤ 10 ^ 16) (s : S) :
    Real.log (env.actions s).length ≤ loss p := by
  unfold loss
  by_cases h0 : (env.actions s).length = 0
  · rw [h0, Nat.cast_zero, Real.log_zero]
    exact loss_nonneg (floor_nonneg (floorOn F)) (floor_le_one G (floorOn F))
  have hpos : (0 : ℝ) < (env.actions s).length := by exact_mod_cast Nat.pos_of_ne_zero h0
  split
  · have h1 : ((env.actions s).length : ℝ) ≤ (10 : ℝ) ^ 16 := by exact_mod_cast hlen s
    have := Real.log_le_log hpos h1
    rw [Real.log_pow] at this
    exact_mod_cast this
  · next hp =>
    rcases F with h | ⟨_, f2, f3, f4⟩
    · exact absurd h hp
    have hp0 : 0 < p := lt_of_lt_of_le (by positivity) f3
    refine Real.log_le_log hpos ?_
    have hB : ((env.actions s).length : ℝ) ≤ B := by exact_mod_cast f4 s
    have hB0 : (0 : ℝ) < B := lt_of_lt_of_le hpos hB
    rw [le_div_iff₀ hp0]
    have : p * B ≤ 1 := by
      rw [f2]
      unfold softExplore
      rw [div_mul_cancel₀ _ hB0.ne']
      exact le_trans (min_le_right _ _) G.max1
    nlinarith

/-- C101.  Deterministic environments, everything tried: the value of every decision node is the value of the game up to `loss p` temperatures per
move to go. -/
theorem c101_near_game_value_partial (hdet : ∀ s a, a ∈ env.actions s → env.succ s a = [next s a])
    (hlr : ∀ s a, a ∈ env.actions s → lr s a = env.reward s a (next s a)) (hne : ∀ s, env.isSink s = false → env.actions s ≠ [])
    (G : GoodCfg cfg env) (F : FloorOk cfg env B N p) (hnd : ∀ s, (env.actions s).Nodup) (hlen : ∀ s, (env.actions s).length ≤ 10 ^ 16)
    (hdec : cfg.decay = none) (hu : m.useTable = false) (htb : Leftover tb)
    {V : ℝ} (hV : ∀ n t s, n ≤ remaining m 0 → |gameValue env m next n t s| ≤ V) (hlow : cfg.low * cfg.temp + remaining m 0 * (cfg.temp * loss p) ≤ -V)
    (hr : Reachable env m (rents eps cfg lr) k s0 0 tm tb st h) (hq : Quiescent st) (hN : trialsBegun h ≤ N) (hx : Exhausted env m st)
    {d : Nat} {nd : DNode S A ℝ Soft} (hd : st.dn[d]? = some nd) :
    ∃ v, softD id st d = some v ∧
      |v - gameValue env m next (remaining m nd.depth) nd.time nd.state| ≤ remaining m nd.depth * (cfg.temp * loss p) :=
  ⟨_, (valueD_some G htb hr hd).2,
    rents_game hdet hlr hne G F hnd (floor_len G F hlen) hdec hu htb hV hlow hr hq hN hx _ d nd hd rfl⟩

/-- C101.  So is the value of an action, with one move fewer to go. -/
theorem c101_near_action_values_partial (hdet : ∀ s a, a ∈ env.actions s → env.succ s a = [next s a])
    (hlr : ∀ s a, a ∈ env.actions s → lr s a = env.reward s a (next s a)) (hne : ∀ s, env.isSink s = false → env.actions s ≠ [])
    (G : GoodCfg cfg env) (F : FloorOk cfg env B N p) (hnd : ∀ s, (env.actions s).Nodup) (hlen : ∀ s, (env.actions s).length ≤ 10 ^ 16)
    (hdec : cfg.decay = none) (hu : m.useTable = false) (htb : Leftover tb)
    {V : ℝ} (hV : ∀ n t s, n ≤ remaining m 0 → |gameValue env m next n t s| ≤ V) (hlow : cfg.low * cfg.temp + remaining m 0 * (cfg.temp * loss p) ≤ -V)
    (hr : Reachable env m (rents eps cfg lr) k s0 0 tm tb st h) (hq : Quiescent st) (hN : trialsBegun h ≤ N) (hx : Exhausted env m st)
    {d c : Nat} {a : A} {nd : DNode S A ℝ Soft} (hd : st.dn[d]? = some nd) (hc : childC st d a = some c) :
    ∃ v, softC id st c = some v ∧
      |v - (env.reward nd.state a (next nd.state a) + gameValue env m next (remaining m (nd.depth + 1)) (nd.time + 1) (next nd.state a))|
        ≤ remaining m (nd.depth + 1) * (cfg.temp * loss p) := by
  have I := reach_inv (rents_valid eps cfg lr) htb hr
  have hl : isLeaf env m nd = false := by
    by_contra hl
    obtain ⟨nd1, _, f1, _, f3, _⟩ := childC_facts I.tree hc
    rw [hd] at f1
    obtain rfl := Option.some.inj f1
    rw [rents_leafKids htb hr hd (by simpa using hl)] at f3
    simp at f3
  have hn : (m.maxDepth - nd.depth).toNat = remaining m (nd.depth + 1) + 1 := by
    simp [isLeaf] at hl
    unfold remaining
    omega
  obtain ⟨nc, h1, h2⟩ := rents_chance G hu htb hr hq hc
  refine ⟨_, by simp only [softC, h1, Option.bind_some, id]; exact h2, ?_⟩
  exact rents_below (tgt := gameValue env m next _) hdet hlr hne htb hr hq hx
    (fun d nd hd hn => rents_game hdet hlr hne G F hnd (floor_len G F hlen) hdec hu htb hV hlow hr hq hN hx _ d nd hd hn) hd hc h1 hn

/-- C101.  The action recommended by value (with a threshold of at most one visit) at a node that is not a leaf is then within `2 loss p` temperatures
per remaining move of an optimal move of the game, for the player to move there. -/
theorem c101_recommends_near_optimal_partial (hdet : ∀ s a, a ∈ env.actions s → env.succ s a = [next s a])
    (hlr : ∀ s a, a ∈ env.actions s → lr s a = env.reward s a (next s a)) (hne : ∀ s, env.isSink s = false → env.actions s ≠ [])
    (G : GoodCfg cfg env) (F : FloorOk cfg env B N p) (hnd : ∀ s, (env.actions s).Nodup) (hlen : ∀ s, (env.actions s).length ≤ 10 ^ 16)
    (hdec : cfg.decay = none) (hu : m.useTable = false) (htb : Leftover tb)
    {V : ℝ} (hV : ∀ n t s, n ≤ remaining m 0 → |gameValue env m next n t s| ≤ V) (hlow : cfg.low * cfg.temp + remaining m 0 * (cfg.temp * loss p) ≤ -V)
    (hr : Reachable env m (rents eps cfg lr) k s0 0 tm tb st h) (hq : Quiescent st) (hN : trialsBegun h ≤ N) (hx : Exhausted env m st)
    {d : Nat} {nd : DNode S A ℝ Soft} (hd : st.dn[d]? = some nd) (hleaf : isLeaf env m nd = false) (hth : cfg.threshold ≤ 1)
    (hlow' : ∀ a ∈ env.actions nd.state, cfg.low + remaining m (nd.depth + 1) * (cfg.temp * loss p) ≤ sgn (isOpponent m nd.time) *
      (env.reward nd.state a (next nd.state a) + gameValue env m next (remaining m (nd.depth + 1)) (nd.time + 1) (next nd.state a)))
    (raw : Nat) {iter : List (A × ℝ) → List (A × ℝ)} (hi : IterOk iter) :
    ∃ a ∈ env.actions nd.state, recommendSoft cfg (mentsQ cfg id (viewOf env m st nd)) (viewOf env m st nd) raw iter = .ok (some a) ∧
      ∀ b ∈ env.actions nd.state,
        sgn (isOpponent m nd.time) * (env.reward nd.state b (next nd.state b) +
            gameValue env m next (remaining m (nd.depth + 1)) (nd.time + 1) (next nd.state b)) ≤
          sgn (isOpponent m nd.time) * (env.reward nd.state a (next nd.state a) +
            gameValue env m next (remaining m (nd.depth + 1)) (nd.time + 1) (next nd.state a)) +
          2 * (remaining m (nd.depth + 1) * (cfg.temp * loss p)) := by
  have hsink : env.isSink nd.state = false := by
    simp [isLeaf] at hleaf
    exact hleaf.1
  refine rents_recommends (g := fun a => env.reward nd.state a (next nd.state a) +
    gameValue env m next (remaining m (nd.depth + 1)) (nd.time + 1) (next nd.state a)) htb hr hq hd (hne _ hsink) hth ?_ hlow' raw hi
  intro a ha
  obtain ⟨c, hc⟩ := hx d nd hd hleaf a ha
  obtain ⟨v, h1, h2⟩ := c101_near_action_values_partial hdet hlr hne G F hnd hlen hdec hu htb hV hlow hr hq hN hx hd hc
  exact ⟨c, v, hc, h1, h2⟩

/-! ## Random searches -/

variable {obs : S → A → List (S × ℝ)} {po : ℝ} {sched : Scheduler S A ℝ}

theorem begun_le {X Y : Type} {alg : Alg S A ℝ X Y} (hv : alg.Valid) (htb : Leftover tb) {dp : Int} {st : St S A ℝ X Y}
    (hr : Reachable env m alg k s0 dp tm tb st h) (hf : Finished N st h) : trialsBegun h ≤ N := by
  rw [(c13_root_visits hv htb hr hf.1).2, hf.2]

/-- C101.  Deterministic environments: with a probability that tends to 1 with the number of trials, at the end of a RENTS search everything has
been tried and the value of the root is within `loss p` temperatures per move of the value of the game. -/
theorem c101_solves_partial {iter : View S A Soft Soft → List (A × ℝ) → List (A × ℝ)}
    (hdet : ∀ s a, a ∈ env.actions s → env.succ s a = [next s a])
    (hlr : ∀ s a, a ∈ env.actions s → lr s a = env.reward s a (next s a)) (hl : env.Live)
    (hu : m.useTable = false) (htb : Leftover tb) (G : GoodCfg cfg env) (F : FloorOk cfg env B N p) (hdec : cfg.decay = none)
    (hnd : ∀ s, (env.actions s).Nodup) (hlen : ∀ s, (env.actions s).length ≤ 10 ^ 16)
    {V : ℝ} (hV : ∀ n t s, n ≤ remaining m 0 → |gameValue env m next n t s| ≤ V) (hlow : cfg.low * cfg.temp + remaining m 0 * (cfg.temp * loss p) ≤ -V)
    (hB : ∀ s, (env.actions s).length ≤ B) (heps : 0 ≤ eps) (hit : ∀ v l, List.Perm (iter v l) l)
    (hp : 1 / 10 ^ 16 ≤ softExplore cfg B N) (hdp : 0 ≤ m.maxDepth)
    (hk : 0 < k) (hsch : Productive env m (rents eps cfg lr) k s0 0 tm tb N sched) {n : Nat}
    (hn : (4 * (m.maxDepth - 0).toNat + 4) * N ≤ n) :
    1 - (plays env (m.maxDepth - 0).toNat s0).length * missBound (softExplore cfg B N) (m.maxDepth - 0).toNat N ≤
    probAfter env m (rents eps cfg lr) (rentsDice eps cfg iter (certain next)) k s0 0 tm tb N sched n
      (fun st h => Finished N st h ∧ Exhausted env m st ∧ ∃ v, softD id st st.root = some v ∧
        |v - gameValue env m next (remaining m 0) tm s0| ≤ remaining m 0 * (cfg.temp * loss p)) := by
  have hv := rents_valid eps cfg lr
  have ht : TableOk m tb := fun h => by rw [hu] at h; exact absurd h (by simp)
  have hX := c95_rents_explores (m := m) (lr := lr) (k := k) (s0 := s0) (tm := tm) htb G hl hnd hB heps hit (certain_ok hdet) hp
  have h1 := c77_exhausts hl hv htb ht hX (c77_explore_range G.max1 hp) ⟨zero_le_one, le_rfl⟩ hdp hk hsch hn
  rw [mul_one] at h1
  refine le_trans h1 (prob_mono hv htb ht hX ?_)
  rintro st h hr ⟨h1, h2⟩
  obtain ⟨nr, g1, g2, g3, g4⟩ := root_node (reach_inv hv htb hr).tree
  obtain ⟨v, e1, e2⟩ := c101_near_game_value_partial hdet hlr hl.acts G F hnd hlen hdec hu htb hV hlow hr h1.1 (begun_le hv htb hr h1) h2 g1
  rw [g2, g3, g4] at e2
  exact ⟨h1, h2, v, e1, e2⟩

/-- C101.  Stochastic environments: with a probability that tends to 1, the value of the root of a RENTS search is the expected value under optimal
play up to `loss p` temperatures and a sampling error per move. -/
theorem c101_stochastic_partial {iter : View S A Soft Soft → List (A × ℝ) → List (A × ℝ)} {K M : Nat} {V η : ℝ}
    (hl : env.Live) (hdec : cfg.decay = none) (hu : m.useTable = false) (htb : Leftover tb) (G : GoodCfg cfg env) (F : FloorOk cfg env B N p)
    (hnd : ∀ s, (env.actions s).Nodup) (hlen : ∀ s, (env.actions s).length ≤ 10 ^ 16)
    (hB : ∀ s, (env.actions s).length ≤ B) (heps : 0 ≤ eps) (hit : ∀ v l, List.Perm (iter v l) l) (hobs : Transitions env obs po)
    (hlr : ∀ s a, env.isSink s = false → a ∈ env.actions s → lr s a = Eval.mean1 (obs s a) fun o => env.reward s a o)
    (hp : 1 / 10 ^ 16 ≤ softExplore cfg B N) (hpo : 0 ≤ po ∧ po ≤ 1)
    (hV0 : 0 < V) (hV : ∀ n t s, n ≤ (m.maxDepth - 0).toNat → |expValue env m obs n t s| ≤ V) (hη0 : 0 < η) (hη : η ≤ V)
    (hK0 : 0 < K) (hK : ∀ s a, (env.succ s a).length ≤ K) (hM : 2 * K ≤ M) (hdp : 0 ≤ m.maxDepth)
    (hlow : cfg.low * cfg.temp + remaining m 0 * (cfg.temp * loss p + sampleError V η K M) ≤ -V)
    (hk : 0 < k) (hsch : Productive env m (rents eps cfg lr) k s0 0 tm tb N sched) {n : Nat} (hn : (4 * (m.maxDepth - 0).toNat + 4) * N ≤ n) :
    1 - (plays env (m.maxDepth - 0).toNat s0).length *
      (rareBound (softExplore cfg B N * po) (m.maxDepth - 0).toNat M N + B * farBound V η M) ≤
    probAfter env m (rents eps cfg lr) (rentsDice eps cfg iter obs) k s0 0 tm tb N sched n (fun st h => Finished N st h ∧
      ∃ v, softD id st st.root = some v ∧
        |v - expValue env m obs (remaining m 0) tm s0| ≤ remaining m 0 * (cfg.temp * loss p + sampleError V η K M)) := by
  have hv := rents_valid eps cfg lr
  have ht : TableOk m tb := fun h => by rw [hu] at h; exact absurd h (by simp)
  have hX := c95_rents_explores (m := m) (lr := lr) (k := k) (s0 := s0) (tm := tm) htb G hl hnd hB heps hit hobs hp
  refine le_trans (sampled_prob hl hv htb hu hX (c77_explore_range G.max1 hp) hpo hdp hB hV0 hV hη0 hη hk hsch hn) (prob_mono hv htb ht hX ?_)
  rintro st h hr ⟨h1, h2⟩
  obtain ⟨nr, g1, g2, g3, g4⟩ := root_node (reach_inv hv htb hr).tree
  refine ⟨h1, _, (valueD_some G htb hr g1).2, ?_⟩
  have := rents_close hl G F hnd (floor_len G F hlen) hdec hu htb hobs hlr hV0.le hV hη0.le hK0 hK hM hlow hr h1.1 (begun_le hv htb hr h1) h2
    (remaining m 0) st.root nr g1 (by simp [remaining, g3])
  rwa [g2, g4] at this

end

/-! ## Actions that the parent's policy does not list -/

/-- From state 0 action 0 leads to state 1 and action 1, with reward 10, to state 2; in state 1 there is an action 2 with reward 30. -/
noncomputable def wEnv : Env Nat Nat ℝ :=
  { isSink := fun _ => false, actions := fun s => if s = 0 then [0, 1] else if s = 1 then [0, 2] else [0],
    succ := fun s a => [if s = 0 ∧ a = 0 then 1 else 2], reward := fun s a _ => if s = 0 ∧ a = 1 then 10 else if s = 1 ∧ a = 2 then 30 else 0 }

def wNext (s a : Nat) : Nat := if s = 0 ∧ a = 0 then 1 else 2

def wMgr : Manager Nat ℝ :=
  { maxDepth := 2, mctsMode := false, twoPlayer := false, useTable := false, numMutexes := 0, heuristic := none }

/-- Temperature 1, half of the time exploration. -/
noncomputable def wCfg : Cfg Nat Nat :=
  { temp := 1, priorWeight := 0, epsilon := 250, rootEpsilon := -1, maxExplore := 1 / 2, decay := none, minTemp := 0, scale := 1,
    rootScale := -1, defaultQ := 0, shift := false, offset := 0, threshold := 0, mostVisited := false, prior := none, low := -1000000 }

noncomputable abbrev wLr (s a : Nat) : ℝ := wEnv.reward s a (wNext s a)

theorem wGood : GoodCfg wCfg wEnv := by
  refine ⟨by norm_num [wCfg], by norm_num [wCfg], by norm_num [wCfg], by norm_num [wCfg], ?_, by simp [wCfg], ?_, ?_, ?_⟩
  · simp only [wCfg]; exact Real.log_nonneg (by norm_num)
  all_goals intro f hf; simp [wCfg] at hf

theorem wLive : wEnv.Live :=
  ⟨by intro s _; by_cases h0 : s = 0 <;> by_cases h1 : s = 1 <;> simp [wEnv, h0, h1], by simp [wEnv]⟩

theorem wNodup (s : Nat) : (wEnv.actions s).Nodup := by by_cases h0 : s = 0 <;> by_cases h1 : s = 1 <;> simp [wEnv, h0, h1]

theorem wLen (s : Nat) : (wEnv.actions s).length ≤ 2 := by by_cases h0 : s = 0 <;> by_cases h1 : s = 1 <;> simp [wEnv, h0, h1]

theorem wZero (s : Nat) : 0 ∈ wEnv.actions s := by by_cases h0 : s = 0 <;> by_cases h1 : s = 1 <;> simp [wEnv, h0, h1]

theorem wExplore : softExplore wCfg 2 40 = 1 / 4 := by
  have h : Real.log ((40 : ℕ) + 1) ≤ 40 := by
    have := Real.log_le_sub_one_of_pos (x := ((40 : ℕ) : ℝ) + 1) (by positivity)
    push_cast at this ⊢
    linarith
  have h0 : 0 < Real.log ((40 : ℕ) + 1) := Real.log_pos (by norm_num)
  have hm : minEps wCfg = 250 := by norm_num [minEps, wCfg]
  have h1 : (1 / 2 : ℝ) ≤ 250 / Real.log ((40 : ℕ) + 1) := by
    rw [div_le_div_iff₀ (by norm_num) h0]
    linarith
  unfold softExplore
  rw [hm, show wCfg.maxExplore = 1 / 2 from rfl, min_eq_right h1]
  norm_num

/-- All workers idle, everything tried, at most 40 trials. -/
noncomputable def wEnd (st : St Nat Nat ℝ Unit Unit) (h : List (Event Nat Nat ℝ)) : Bool :=
  st.ws.all idle? && decide (trialsBegun h ≤ 40) &&
    (List.range st.dn.length).all fun d => st.dn[d]?.all fun nd =>
      isLeaf wEnv wMgr nd || (wEnv.actions nd.state).all fun a => (childC st d a).isSome

theorem wEnd_spec {st : St Nat Nat ℝ Soft Soft} {h : List (Event Nat Nat ℝ)} (hP : wEnd st.erase h = true) :
    Quiescent st ∧ trialsBegun h ≤ 40 ∧ Exhausted wEnv wMgr st := by
  simp only [wEnd, Bool.and_eq_true, List.all_eq_true, decide_eq_true_eq] at hP
  obtain ⟨⟨p1, p2⟩, p3⟩ := hP
  refine ⟨?_, p2, ?_⟩
  · intro w p hp
    have := p1 p (by simpa [St.erase] using List.mem_of_getElem? hp)
    cases p <;> simp [idle?] at this ⊢
  · intro d nd hd hl a ha
    have hlt : d < st.dn.length := by
      by_contra hge
      rw [List.getElem?_eq_none (by omega)] at hd
      simp at hd
    have h1 := p3 d (by simpa [St.erase] using hlt)
    have hd' : st.erase.dn[d]? = some nd.erase := by simp [St.erase, hd]
    rw [hd', Option.all_some, Bool.or_eq_true] at h1
    rcases h1 with h1 | h1
    · have : isLeaf wEnv wMgr nd.erase = isLeaf wEnv wMgr nd := rfl
      rw [this, hl] at h1
      simp at h1
    · have h2 := List.all_eq_true.1 h1 a ha
      obtain ⟨c, hc⟩ := Option.isSome_iff_exists.1 h2
      refine ⟨c, ?_⟩
      simpa [childC, hd', hd, DNode.erase] using hc

/-- The steps of a trial with two actions, the first of which leads to `o`. -/
def wTrial (a o b : Nat) : List (Nat × Choice Nat Nat) :=
  [(0, .go), (0, .act a), (0, .obs o), (0, .act b), (0, .obs 2)] ++ List.replicate 6 (0, .go)

theorem wRun : ∃ st h, Reachable wEnv wMgr (rents 0 wCfg wLr) 1 0 0 0 [] st h ∧ Quiescent st ∧ trialsBegun h ≤ 40 ∧ Exhausted wEnv wMgr st := by
  have htb : Leftover ([] : List ((Int × Nat) × Option Nat)) := by simp [Leftover]
  have hX := c95_rents_explores (env := wEnv) (m := wMgr) (cfg := wCfg) (eps := 0) (B := 2) (N := 40) (k := 1) (s0 := 0) (tm := 0) (lr := wLr)
    (iter := fun _ l => l) htb wGood wLive wNodup wLen le_rfl (fun _ l => List.Perm.refl l) (certain_ok (next := wNext) fun _ _ _ => rfl)
    (by rw [wExplore]; norm_num)
  obtain ⟨st, h, hr, hP⟩ := run_explores (rents_valid 0 wCfg wLr) hX (by rw [wExplore]; norm_num)
    (wTrial 0 1 0 ++ wTrial 0 1 2 ++ wTrial 1 2 0) (by decide) (fun st h => wEnd st h = true) (by
      have : ((execFrom wEnv wMgr (free Nat Nat ℝ 0) (init wEnv wMgr (free Nat Nat ℝ 0) 1 0 0 0 []) []
          (wTrial 0 1 0 ++ wTrial 0 1 2 ++ wTrial 1 2 0)).any fun p => wEnd p.1 p.2) = true := by decide +kernel
      obtain ⟨p, h1, h2⟩ := (Option.any_eq_true _ _).1 this
      exact ⟨p, h1, h2⟩)
  obtain ⟨h1, h2, h3⟩ := wEnd_spec hP
  exact ⟨st, h, hr, h1, h2, h3⟩

section
variable {st : St Nat Nat ℝ Soft Soft} {h : List (Event Nat Nat ℝ)}

theorem wTb : Leftover ([] : List ((Int × Nat) × Option Nat)) := by simp [Leftover]

theorem wOpp (t : Int) : isOpponent wMgr t = false := by simp [isOpponent, wMgr]

/-- The values of the actions of nodes at depth 1: the rewards. -/
theorem wActions (hr : Reachable wEnv wMgr (rents 0 wCfg wLr) 1 0 0 0 [] st h) (hq : Quiescent st) (hx : Exhausted wEnv wMgr st)
    {d : Nat} {nd : DNode Nat Nat ℝ Soft} (hd : st.dn[d]? = some nd) (hdep : nd.depth = 1) {a : Nat} (ha : a ∈ wEnv.actions nd.state) :
    actionVal wCfg wMgr st nd a = wLr nd.state a := by
  have I := reach_inv (rents_valid 0 wCfg wLr) wTb hr
  have hl : isLeaf wEnv wMgr nd = false := by simp [isLeaf, wEnv, wMgr, hdep]
  obtain ⟨c, hc⟩ := hx d nd hd hl a ha
  obtain ⟨nc, h1, h2⟩ := rents_chance wGood rfl wTb hr hq hc
  have h3 := rents_below (tgt := fun _ _ => 0) (ε := 0) (n := 0) (next := wNext) (below := valueD st) (fun _ _ _ => rfl) (fun _ _ _ => rfl) wLive.acts
    wTb hr hq hx (by
      intro d' nd' hd' hn
      have hl' : isLeaf wEnv wMgr nd' = true := by
        simp only [isLeaf, wEnv, Bool.false_or, decide_eq_true_eq]
        omega
      have hh : nd'.heur = heurOf wEnv wMgr nd'.state := I.tree.heap.dHeur d' nd'.skel (by simp [hd'])
      rw [rents_nokids wGood wTb hr hd' (rents_leafKids wTb hr hd' hl'), hh]
      simp [heurOf, wMgr]) hd hc h1 (by simp [wMgr, hdep])
  have hfind : find? a nd.kids = some c := by simpa [childC, hd] using hc
  have h4 : chanceSoft wEnv wMgr wLr st h (valueD st) nc = wLr nd.state a := by
    have := abs_nonpos_iff.1 h3
    simp only [add_zero] at this
    linarith
  unfold actionVal
  rw [hfind]
  simp [softC, h1, h2, h4, wOpp, sgn]

/-- The values of nodes at depth 1 are between -2 and 0, also in state 1, where an action is worth 30. -/
theorem wValues (hr : Reachable wEnv wMgr (rents 0 wCfg wLr) 1 0 0 0 [] st h) (hq : Quiescent st) (hN : trialsBegun h ≤ 40)
    (hx : Exhausted wEnv wMgr st) {d : Nat} {nd : DNode Nat Nat ℝ Soft} (hd : st.dn[d]? = some nd) (hdep : nd.depth = 1)
    (hs : nd.state ≠ 0) : |valueD st d - (-1)| ≤ 1 := by
  have I := reach_inv (rents_valid 0 wCfg wLr) wTb hr
  have hl : isLeaf wEnv wMgr nd = false := by simp [isLeaf, wEnv, wMgr, hdep]
  obtain ⟨c, hc⟩ := hx d nd hd hl 0 (wZero _)
  have hk : nd.kids ≠ [] := List.ne_nil_of_mem (find?_mem (show find? 0 nd.kids = some c by simpa [childC, hd] using hc))
  obtain ⟨P, M, h1, h2, h3, h4, h5, ⟨m1, m2, m3⟩, h7⟩ := rents_value (acts := fun a => a = 0) (B := 2) (N := 40) (p := 1 / 4) wGood
    (.inr ⟨fun s _ a ha => ha ▸ wZero s, wExplore.symm, by norm_num, wLen⟩) wNodup rfl rfl wTb hr hq hN hd hk
  have hT : wCfg.temp = 1 := rfl
  have p0 : 1 / 4 ≤ P 0 := h2 0 rfl
  have p1 : P 0 ≤ 1 := h5 0 (wZero _)
  rw [h7, wOpp, hT]
  rw [hT] at m2 m3
  simp only [sgn, Bool.false_eq_true, if_false, one_mul]
  have hlog4 : -2 ≤ Real.log (P 0) := by
    have e1 : Real.log (1 / 4 : ℝ) ≤ Real.log (P 0) := Real.log_le_log (by norm_num) p0
    have e2 : Real.log (1 / 4 : ℝ) = - (2 * Real.log 2) := by
      rw [one_div, Real.log_inv, show (4 : ℝ) = 2 ^ 2 by norm_num, Real.log_pow]
      push_cast
      ring
    have e3 := Real.log_two_lt_d9
    linarith
  have hlog1 : Real.log (P 0) ≤ 0 := Real.log_nonpos (by linarith) p1
  have hv : ∀ a ∈ wEnv.actions nd.state, actionVal wCfg wMgr st nd a = wLr nd.state a := fun a ha => wActions hr hq hx hd hdep ha
  have hpart : relPartition 1 P (actionVal wCfg wMgr st nd) (wEnv.actions nd.state) = P 0 := by
    unfold relPartition
    by_cases h1 : nd.state = 1
    · have ha : wEnv.actions nd.state = [0, 2] := by simp [wEnv, h1]
      have e0 : actionVal wCfg wMgr st nd 0 = 0 := by rw [hv 0 (wZero _)]; simp [wLr, wEnv, h1]
      have e2 : P 2 = 0 := h3 hdep 2 (by simp [wEnv])
      rw [ha]
      simp [e0, e2]
    · have ha : wEnv.actions nd.state = [0] := by simp [wEnv, hs, h1]
      have e0 : actionVal wCfg wMgr st nd 0 = 0 := by rw [hv 0 (wZero _)]; simp [wLr, wEnv, h1, hs]
      rw [ha]
      simp [e0]
  have hM30 : M ≤ 30 := by
    rcases m3 with m3 | ⟨a, ha, m3⟩
    · rw [m3]; norm_num [wCfg]
    · rw [m3, hv a ha, div_one]
      show (if nd.state = 0 ∧ a = 1 then (10 : ℝ) else if nd.state = 1 ∧ a = 2 then 30 else 0) ≤ 30
      split
      · norm_num
      · split <;> norm_num
  have hexp : Real.exp M ≤ 3 ^ 30 := by
    have e1 : Real.exp M ≤ Real.exp 30 := Real.exp_le_exp.2 hM30
    have e2 : Real.exp 30 = Real.exp 1 ^ 30 := by rw [← Real.exp_nat_mul]; norm_num
    have e3 : Real.exp 1 ^ 30 ≤ 3 ^ 30 := pow_le_pow_left₀ (Real.exp_pos 1).le Real.exp_one_lt_three.le 30
    linarith
  have hnot : ¬ relPartition 1 P (actionVal wCfg wMgr st nd) (wEnv.actions nd.state) < 1 / 10 ^ 16 * Real.exp M := by
    rw [hpart, not_lt]
    have : (1 / 10 ^ 16 : ℝ) * Real.exp M ≤ 1 / 10 ^ 16 * 3 ^ 30 := mul_le_mul_of_nonneg_left hexp (by norm_num)
    have : (1 / 10 ^ 16 : ℝ) * 3 ^ 30 ≤ 1 / 4 := by norm_num
    linarith
  unfold relValue
  rw [if_neg hnot, hpart, one_mul, abs_le]
  constructor <;> linarith

/-- C101 fails as stated.  After a search of three trials that has tried everything in a deterministic game with two actions per state, at
temperature 1, the value of the root is at most 11 and the recommended action is worth 10, although the other action is worth 30 (the claimed error
is at most 2). -/
theorem c101_false : ∃ st h nr, Reachable wEnv wMgr (rents 0 wCfg wLr) 1 0 0 0 [] st h ∧ Quiescent st ∧ Exhausted wEnv wMgr st ∧
    st.dn[st.root]? = some nr ∧ nr.state = 0 ∧
    gameValue wEnv wMgr wNext (remaining wMgr 0) 0 0 = 30 ∧ (∃ v, softD id st st.root = some v ∧ v ≤ 11) ∧
    (∀ raw (iter : List (Nat × ℝ) → List (Nat × ℝ)), IterOk iter →
      recommendSoft wCfg (mentsQ wCfg id (viewOf wEnv wMgr st nr)) (viewOf wEnv wMgr st nr) raw iter = .ok (some 1)) ∧
    wEnv.reward 0 0 (wNext 0 0) + gameValue wEnv wMgr wNext (remaining wMgr (0 + 1)) 1 (wNext 0 0) = 30 ∧
    wEnv.reward 0 1 (wNext 0 1) + gameValue wEnv wMgr wNext (remaining wMgr (0 + 1)) 1 (wNext 0 1) = 10 ∧
    remaining wMgr 0 * (wCfg.temp * Real.log 2) ≤ 2 := by
  obtain ⟨st, h, hr, hq, hN, hx⟩ := wRun
  have I := reach_inv (rents_valid 0 wCfg wLr) wTb hr
  obtain ⟨nr, g1, g2, g3, g4⟩ := root_node I.tree
  have hl : isLeaf wEnv wMgr nr = false := by simp [isLeaf, wEnv, wMgr, g3]
  have hacts : wEnv.actions nr.state = [0, 1] := by simp [wEnv, g2]
  let g : Nat → ℝ := fun a => if a = 1 then 9 else -1
  have hkid : ∀ a ∈ wEnv.actions nr.state, ∃ c v, childC st st.root a = some c ∧ softC id st c = some v ∧ |v - g a| ≤ 1 := by
    intro a ha
    obtain ⟨c, hc⟩ := hx _ _ g1 hl a ha
    obtain ⟨nc, h1, h2⟩ := rents_chance wGood rfl wTb hr hq hc
    have h3 := rents_below (tgt := fun _ s => if s = 0 then valueD st st.root else -1) (ε := 1) (n := 1) (next := wNext) (below := valueD st)
      (fun _ _ _ => rfl) (fun _ _ _ => rfl) wLive.acts wTb hr hq hx (by
        intro d' nd' hd' hn
        have hdep' : nd'.depth = 1 := by
          have : wMgr.maxDepth = 2 := rfl
          omega
        by_cases hs' : nd'.state = 0
        · exfalso
          obtain ⟨cc, n, o, k1, k2⟩ := I.tree.heap.dPar d' nd'.skel (by simp [hd']) (by
            rintro rfl
            obtain ⟨r, r1, _, r3, _⟩ := I.tree.heap.root
            simp only [List.getElem?_map, hd', Option.map_some, Option.some.injEq] at r1
            rw [← r1] at r3
            simp only [DNode.skel] at r3
            omega)
          obtain ⟨e, e1, e2, _⟩ := I.tree.heap.cKid cc n o d' k1 k2
          have e3 := I.tree.heap.cObs cc n o d' k1 k2
          simp only [List.getElem?_map, hd', Option.map_some, Option.some.injEq] at e1
          rw [← e1] at e2
          simp only [DNode.skel] at e2
          rw [hs'] at e2
          rw [← e2] at e3
          simp only [wEnv, List.mem_singleton] at e3
          split at e3 <;> simp at e3
        · rw [if_neg hs']
          exact wValues hr hq hN hx hd' hdep' hs') g1 hc h1 (by simp [wMgr, g3])
    refine ⟨c, _, hc, by simp only [softC, h1, Option.bind_some, id]; exact h2, ?_⟩
    have hne0 : wNext nr.state a ≠ 0 := by unfold wNext; split <;> simp
    rw [if_neg hne0] at h3
    rw [hacts] at ha
    have ha' : a = 0 ∨ a = 1 := by simpa using ha
    rcases ha' with rfl | rfl
    · have : wEnv.reward nr.state 0 (wNext nr.state 0) = 0 := by simp [wEnv, g2]
      rw [this] at h3
      simpa [g] using h3
    · have : wEnv.reward nr.state 1 (wNext nr.state 1) = 10 := by simp [wEnv, g2]
      rw [this] at h3
      norm_num at h3
      simpa [g] using h3
  have hgv1 : ∀ s, gameValue wEnv wMgr wNext 1 1 s = if s = 1 then 30 else if s = 0 then 10 else 0 := by
    intro s
    by_cases h0 : s = 0
    · norm_num [gameValue, wEnv, bestOf, heurOf, isOpponent, wMgr, h0, List.max?]
    · by_cases h1 : s = 1
      · norm_num [gameValue, wEnv, bestOf, heurOf, isOpponent, wMgr, h1, List.max?]
      · norm_num [gameValue, wEnv, bestOf, heurOf, isOpponent, wMgr, h0, h1, List.max?]
  refine ⟨st, h, nr, hr, hq, hx, g1, g2, ?_, ?_, ?_, ?_, ?_, ?_⟩
  · have : gameValue wEnv wMgr wNext 2 0 0 = 30 := by
      rw [gameValue]
      simp only [zero_add, hgv1]
      norm_num [wEnv, bestOf, isOpponent, wMgr, wNext, List.max?]
    exact this
  · have hk : nr.kids ≠ [] := by
      obtain ⟨c, v, hc, _⟩ := hkid 0 (wZero _)
      exact List.ne_nil_of_mem (find?_mem (show find? 0 nr.kids = some c by simpa [childC, g1] using hc))
    obtain ⟨v, M, v1, ⟨_, _, v4⟩, _, v6, _⟩ := c101_node_value_partial wGood wNodup rfl rfl wTb hr hq g1 hk
    refine ⟨v, v1, ?_⟩
    have hT : wCfg.temp = 1 := rfl
    rw [hT] at v4 v6
    simp only [wOpp, sgn, Bool.false_eq_true, if_false, one_mul, hacts, List.length_cons, List.length_nil] at v6
    have hM : M ≤ 10 := by
      rcases v4 with v4 | ⟨a, ha, v4⟩
      · rw [v4]; norm_num [wCfg]
      · obtain ⟨c, u, hc, u1, u2⟩ := hkid a ha
        have hfind : find? a nr.kids = some c := by simpa [childC, g1] using hc
        have : actionVal wCfg wMgr st nr a = u := by simp [actionVal, hfind, u1, wOpp, sgn]
        rw [v4, this, div_one]
        have := (abs_le.1 u2).2
        have : g a ≤ 9 := by simp only [g]; split <;> norm_num
        linarith
    have := Real.log_two_lt_d9
    norm_num at v6
    linarith
  · intro raw iter hi
    obtain ⟨a, ha, e1, e2⟩ := rents_recommends wTb hr hq g1 (List.ne_nil_of_mem (wZero _)) (by simp [wCfg]) hkid (by
      intro a _
      simp only [wOpp, sgn, g, wCfg, Bool.false_eq_true, if_false, one_mul]
      split <;> norm_num) raw hi
    rw [hacts] at ha
    have ha' : a = 0 ∨ a = 1 := by simpa using ha
    rcases ha' with rfl | rfl
    · exfalso
      have := e2 1 (by rw [hacts]; simp)
      simp only [wOpp, sgn, g, Bool.false_eq_true, if_false, one_mul] at this
      norm_num at this
    · exact e1
  · have : gameValue wEnv wMgr wNext 1 1 (wNext 0 0) = 30 := by rw [hgv1]; simp [wNext]
    rw [show remaining wMgr (0 + 1) = 1 from rfl, this]
    simp [wEnv]
  · have : gameValue wEnv wMgr wNext 1 1 (wNext 0 1) = 0 := by rw [hgv1]; simp [wNext]
    rw [show remaining wMgr (0 + 1) = 1 from rfl, this]
    simp [wEnv]
  · rw [show remaining wMgr 0 = 2 from rfl, show wCfg.temp = 1 from rfl]
    have := Real.log_two_lt_d9
    push_cast
    linarith

end

/-! ## Examples -/

/-- A RENTS search with 500 trials by three workers, under some schedule: with probability at least 0.999 everything has been tried and the value of
the root is within 0.3 of the value of the game, which is 2 (both states have the same actions; the loss is `log 4` per move). -/
example : ∃ sched : Scheduler Unit Bool ℝ, 999 / 1000 ≤
    probAfter rEnv rMgr (rents 0 tCfg fun _ a => if a then 1 else 0) (rentsDice 0 tCfg (fun _ l => l) (certain fun _ _ => ()))
      3 () 0 0 [] 500 sched 6000 (fun st h => Finished 500 st h ∧ Exhausted rEnv rMgr st ∧ ∃ v, softD id st st.root = some v ∧
        |v - 2| ≤ 3 / 10) := by
  have hdet : ∀ s a, a ∈ rEnv.actions s → rEnv.succ s a = [()] := fun _ _ _ => rfl
  have hl : rEnv.Live := ⟨by simp [rEnv], by simp [rEnv]⟩
  have hgv : gameValue rEnv rMgr (fun _ _ => ()) (remaining rMgr 0) 0 () = 2 := by
    norm_num [remaining, rMgr, gameValue, rEnv, bestOf, heurOf, isOpponent, show Int.toNat 2 = 2 from rfl, List.max?]
  have htb : Leftover ([] : List ((Int × Unit) × Option Nat)) := by simp [Leftover]
  have hexp : softExplore tCfg 2 500 = 1 / 4 := rExplore
  have F : FloorOk tCfg rEnv 2 500 (1 / 4) := .inr ⟨fun _ _ _ _ a ha => ha, hexp.symm, by norm_num, by simp [rEnv]⟩
  have hloss : loss (1 / 4) = 2 * Real.log 2 := by
    unfold loss
    rw [if_neg (by norm_num), show (1 / (1 / 4) : ℝ) = 2 ^ 2 by norm_num, Real.log_pow]
    norm_num
  have hlog := Real.log_two_lt_d9
  have hlog0 : 0 < Real.log 2 := Real.log_pos (by norm_num)
  have hV : ∀ n t s, n ≤ remaining rMgr 0 → |gameValue rEnv rMgr (fun _ _ => ()) n t s| ≤ 2 := by
    intro n t s hn
    have hn' : n ≤ 2 := hn
    have h0 : ∀ t s, gameValue rEnv rMgr (fun _ _ => ()) 0 t s = 0 := by intro t s; simp [gameValue, heurOf, rMgr]
    have h1 : ∀ t s, gameValue rEnv rMgr (fun _ _ => ()) 1 t s = 1 := by
      intro t s
      norm_num [gameValue, rEnv, bestOf, heurOf, isOpponent, rMgr, List.max?]
    have h2 : ∀ t s, gameValue rEnv rMgr (fun _ _ => ()) 2 t s = 2 := by
      intro t s
      norm_num [gameValue, rEnv, bestOf, heurOf, isOpponent, rMgr, List.max?]
    rcases n with _ | _ | _ | n
    · rw [h0]; norm_num
    · rw [h1]; norm_num
    · rw [h2]; norm_num
    · omega
  obtain ⟨sched, hsch⟩ := productive_exists (env := rEnv) (m := rMgr) (k := 3) (s0 := ()) (dp := 0) (tm := 0) (N := 500)
    (rents_valid 0 tCfg fun _ a => if a then 1 else 0) htb (by simp [TableOk, rMgr])
  refine ⟨sched, ?_⟩
  have := c101_solves_partial (cfg := tCfg) (eps := 0) (B := 2) (p := 1 / 4) (iter := fun _ l => l) (env := rEnv) (m := rMgr) (next := fun _ _ => ())
    (lr := fun _ a => if a then 1 else 0) (k := 3) (s0 := ()) (tm := 0) (tb := []) (N := 500) (sched := sched)
    (n := 6000) hdet (fun _ _ _ => rfl) hl rfl htb tGood F rfl (by simp [rEnv]) (by simp [rEnv]) (V := 2) hV (by
      rw [hloss, show remaining rMgr 0 = 2 from rfl, show tCfg.temp = 1 / 10 from rfl, show tCfg.low = -1000000 from rfl]
      push_cast
      linarith) (by simp [rEnv]) le_rfl
    (fun _ l => List.Perm.refl l) (by rw [hexp]; norm_num) (by simp [rMgr]) (by norm_num) hsch (by simp [rMgr])
  rw [hexp, hgv] at this
  have hmono : ∀ (st : St Unit Bool ℝ Soft Soft) (h : List (Event Unit Bool ℝ)),
      (Finished 500 st h ∧ Exhausted rEnv rMgr st ∧ ∃ v, softD id st st.root = some v ∧
        |v - 2| ≤ remaining rMgr 0 * (tCfg.temp * loss (1 / 4))) →
      (Finished 500 st h ∧ Exhausted rEnv rMgr st ∧ ∃ v, softD id st st.root = some v ∧ |v - 2| ≤ 3 / 10) := by
    rintro st h ⟨h1, h2, v, h3, h4⟩
    refine ⟨h1, h2, v, h3, le_trans h4 ?_⟩
    rw [hloss, show remaining rMgr 0 = 2 from rfl, show tCfg.temp = 1 / 10 from rfl]
    push_cast
    linarith
  have hX := c95_rents_explores (env := rEnv) (m := rMgr) (cfg := tCfg) (eps := 0) (B := 2) (N := 500) (k := 3) (s0 := ()) (tm := 0)
    (lr := fun _ a => if a then 1 else 0) (iter := fun _ l => l) htb tGood hl (by simp [rEnv]) (by simp [rEnv]) le_rfl
    (fun _ l => List.Perm.refl l) (certain_ok hdet) (by rw [hexp]; norm_num)
  refine le_trans ?_ (le_trans this (prob_mono (rents_valid 0 tCfg fun _ a => if a then 1 else 0) htb (by simp [TableOk, rMgr]) hX
    fun st h _ hp => hmono st h hp))
  have hlen : (plays rEnv (rMgr.maxDepth - 0).toNat ()).length = 7 := by
    rfl
  rw [hlen, show (rMgr.maxDepth - 0).toNat = 2 from rfl]
  have h1 : (2000 : ℝ) ≤ (33 / 32) ^ 249 := by norm_num
  have h2 : (4000000 : ℝ) ≤ (33 / 32) ^ 498 := by
    rw [show (498 : ℕ) = 249 * 2 from rfl, pow_mul]
    nlinarith
  have h3 : 4 / (33 / 32 : ℝ) ^ 498 ≤ 4 / 4000000 := div_le_div_of_nonneg_left (by norm_num) (by norm_num) h2
  have h4 : missBound (1 / 4) 2 500 = 4 / (33 / 32 : ℝ) ^ 498 := by norm_num [missBound]
  rw [h4]
  push_cast
  linarith

/-- The exhausted search of `c101_false` meets the hypotheses of the partial theorems with `p = 0`: its root is within `32 log 10` of 30. -/
example : ∃ st h, Reachable wEnv wMgr (rents 0 wCfg wLr) 1 0 0 0 [] st h ∧ ∃ v, softD id st st.root = some v ∧ |v - 30| ≤ 32 * Real.log 10 := by
  obtain ⟨st, h, hr, hq, hN, hx⟩ := wRun
  obtain ⟨nr, g1, g2, g3, g4⟩ := root_node (reach_inv (rents_valid 0 wCfg wLr) wTb hr).tree
  have h0 : ∀ t s, gameValue wEnv wMgr wNext 0 t s = 0 := by intro t s; simp [gameValue, heurOf, wMgr]
  have h1 : ∀ t s, gameValue wEnv wMgr wNext 1 t s = if s = 1 then 30 else if s = 0 then 10 else 0 := by
    intro t s
    by_cases h0 : s = 0
    · norm_num [gameValue, wEnv, bestOf, heurOf, isOpponent, wMgr, h0, List.max?]
    · by_cases h1 : s = 1
      · norm_num [gameValue, wEnv, bestOf, heurOf, isOpponent, wMgr, h1, List.max?]
      · norm_num [gameValue, wEnv, bestOf, heurOf, isOpponent, wMgr, h0, h1, List.max?]
  have h2 : ∀ t s, gameValue wEnv wMgr wNext 2 t s = if s = 0 then 30 else if s = 1 then 30 else 0 := by
    intro t s
    rw [gameValue]
    simp only [h1]
    by_cases h0 : s = 0
    · norm_num [wEnv, bestOf, isOpponent, wMgr, wNext, h0, List.max?]
    · by_cases h1 : s = 1
      · norm_num [wEnv, bestOf, isOpponent, wMgr, wNext, h1, List.max?]
      · norm_num [wEnv, bestOf, isOpponent, wMgr, wNext, h0, h1, List.max?]
  have hl10 : Real.log 10 ≤ 9 := by
    have := Real.log_le_sub_one_of_pos (x := 10) (by norm_num)
    linarith
  have hloss : loss 0 = 16 * Real.log 10 := by simp [loss]
  obtain ⟨v, e1, e2⟩ := c101_near_game_value_partial (next := wNext) (N := 40) (B := 0) (p := 0) (V := 30) (fun _ _ _ => rfl) (fun _ _ _ => rfl) wLive.acts
    wGood (.inl rfl) wNodup (fun s => le_trans (wLen s) (by norm_num)) rfl rfl wTb (by
      intro n t s hn
      have hn' : n ≤ 2 := hn
      rcases n with _ | _ | _ | n
      · rw [h0]; norm_num
      · rw [h1]; split <;> [norm_num; (split <;> norm_num)]
      · rw [h2]; split <;> [norm_num; (split <;> norm_num)]
      · omega) (by
      rw [hloss, show remaining wMgr 0 = 2 from rfl, show wCfg.temp = 1 from rfl, show wCfg.low = -1000000 from rfl]
      push_cast
      linarith) hr hq hN hx g1
  refine ⟨st, h, hr, v, e1, ?_⟩
  rw [g2, g3, g4, show remaining wMgr 0 = 2 from rfl, h2, hloss, show wCfg.temp = 1 from rfl] at e2
  refine le_trans (by simpa using e2) ?_
  push_cast
  linarith

/-- The configuration of the example of C90 with temperature 1/10. -/
noncomputable def cCfg : Cfg Bool Bool := { coinCfg with temp := 1 / 10 }

/-- A RENTS search with `coinN` trials in the stochastic environment of C90: with probability at least 0.999 the value of the root is within 0.5 of the
expected value under optimal play, which is 3/4. -/
example : ∃ sched : Scheduler Bool Bool ℝ, 999 / 1000 ≤
    probAfter coinEnv coinMgr (rents 0 cCfg fun s _ => if s then 1 else 0) (rentsDice 0 cCfg (fun _ l => l) coinObs)
      3 false 0 0 [] coinN sched (12 * coinN) (fun st h => Finished coinN st h ∧ ∃ v, softD id st st.root = some v ∧ |v - 3 / 4| ≤ 1 / 2) := by
  have G : GoodCfg cCfg coinEnv := by
    refine ⟨by norm_num [cCfg, coinCfg], by norm_num [cCfg, coinCfg], by norm_num [cCfg, coinCfg], by norm_num [cCfg, coinCfg], ?_,
      by simp [cCfg, coinCfg], ?_, ?_, ?_⟩
    · simp only [cCfg, coinCfg]; exact Real.log_nonneg (by norm_num)
    all_goals intro f hf; simp [cCfg, coinCfg] at hf
  have htb : Leftover ([] : List ((Int × Bool) × Option Nat)) := by simp [Leftover]
  have ht : TableOk coinMgr ([] : List ((Int × Bool) × Option Nat)) := by simp [TableOk, coinMgr]
  obtain ⟨sched, hsch⟩ := productive_exists (env := coinEnv) (m := coinMgr) (k := 3) (s0 := false) (dp := 0) (tm := 0) (N := coinN)
    (rents_valid 0 cCfg fun s _ => if s then 1 else 0) htb ht
  refine ⟨sched, ?_⟩
  have hexp : softExplore cCfg 2 coinN = 1 / 4 := coinExplore
  have hp : 1 / 10 ^ 16 ≤ softExplore cCfg 2 coinN := by rw [hexp]; norm_num
  have F : FloorOk cCfg coinEnv 2 coinN (1 / 4) := .inr ⟨fun _ _ _ _ a ha => ha, hexp.symm, by norm_num, by simp [coinEnv]⟩
  have hloss : loss (1 / 4) = 2 * Real.log 2 := by
    unfold loss
    rw [if_neg (by norm_num), show (1 / (1 / 4) : ℝ) = 2 ^ 2 by norm_num, Real.log_pow]
    norm_num
  have hlog := Real.log_two_lt_d9
  have hse : (remaining coinMgr 0 : ℝ) * sampleError 2 (1 / 20) 2 coinM ≤ 21 / 100 := by
    rw [show remaining coinMgr 0 = 2 from rfl]
    norm_num [sampleError, coinM]
  have herr : (remaining coinMgr 0 : ℝ) * (cCfg.temp * loss (1 / 4) + sampleError 2 (1 / 20) 2 coinM) ≤ 1 / 2 := by
    rw [mul_add, hloss, show cCfg.temp = 1 / 10 from rfl]
    have : (remaining coinMgr 0 : ℝ) * (1 / 10 * (2 * Real.log 2)) ≤ 28 / 100 := by
      rw [show remaining coinMgr 0 = 2 from rfl]
      push_cast
      linarith
    linarith
  have key := c101_stochastic_partial (cfg := cCfg) (eps := 0) (B := 2) (K := 2) (M := coinM) (V := 2) (η := 1 / 20) (p := 1 / 4) (iter := fun _ l => l)
    (env := coinEnv) (m := coinMgr) (obs := coinObs) (po := 1 / 4)
    (lr := fun s _ => if s then 1 else 0) (k := 3) (s0 := false) (tm := 0) (tb := []) (N := coinN) (sched := sched)
    (n := 12 * coinN) coinLive rfl rfl htb G F (by simp [coinEnv]) (by simp [coinEnv]) (by simp [coinEnv]) le_rfl
    (fun _ l => List.Perm.refl l) coinTransitions (by intro s a _ _; cases s <;> cases a <;> norm_num [Eval.mean1, coinObs, coinEnv]) hp (by norm_num)
    (by norm_num) coinBound (by norm_num) (by norm_num) (by norm_num) (by simp [coinEnv]) (by norm_num [coinM]) (by simp [coinMgr])
    (by
      have : cCfg.low * cCfg.temp ≤ -3 := by norm_num [cCfg, coinCfg]
      linarith)
    (by norm_num) hsch (by rw [show (coinMgr.maxDepth - 0).toNat = 2 from rfl])
  have hX := c95_rents_explores (m := coinMgr) (lr := fun s _ => if s then 1 else 0) (k := 3) (s0 := false) (tm := 0) (tb := [])
    (eps := 0) (iter := fun _ l => l) htb G coinLive (by simp [coinEnv]) (B := 2) (by simp [coinEnv]) le_rfl (fun _ l => List.Perm.refl l) coinTransitions hp
  refine le_trans ?_ (le_trans key (prob_mono (rents_valid 0 cCfg _) htb ht hX ?_))
  · rw [hexp, show (plays coinEnv (coinMgr.maxDepth - 0).toNat false).length = 21 from rfl,
      show (coinMgr.maxDepth - 0).toNat = 2 from rfl, show (1 / 4 * (1 / 4) : ℝ) = 1 / 16 by norm_num]
    have h1 := coinRare coinM
    have h2 := coinFar
    rw [show 2 + coinM + 512 * (coinM + 22) = coinN from rfl] at h1
    norm_num at h1 h2 ⊢
    linarith
  · rintro st h hr ⟨r1, v, r2, r3⟩
    refine ⟨r1, v, r2, ?_⟩
    have r4 := le_trans r3 herr
    rw [show remaining coinMgr 0 = 2 from rfl, coinValue2] at r4
    simpa using r4

end Verif.Tents
