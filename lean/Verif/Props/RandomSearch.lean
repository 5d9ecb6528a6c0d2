import Verif.Proofs.RandomSearch
import Verif.Props.Random
import Verif.Props.SoftTree
import Verif.Props.Converge

/-!
# Properties C13 (visits and trials) and C77: what random searches find

`softDice` and `uctDice` (the random choices of the algorithms), `softExplore` (how much the Boltzmann searches explore) and `Transitions`
are defined in `Verif.Spec.RandomSearch`.
-/

set_option linter.unusedSectionVars false
set_option linter.unusedSimpArgs false

namespace Verif.Search

/-- C13.  No node is visited more than once per trial: its visits are at most the trials begun (plus the visits it is constructed with). -/
theorem c13_visits_at_most_trials {S A R X Y : Type} [DecidableEq S] [DecidableEq A] [AddMonoid R] {env : Env S A R} {m : Manager S R}
    {alg : Alg S A R X Y} {k : Nat} {s0 : S} {dp tm : Int} {tb : List ((Int × S) × Option Nat)} {st : St S A R X Y} {h : List (Event S A R)}
    (hv : alg.Valid) (htb : Leftover tb) (hr : Reachable env m alg k s0 dp tm tb st h) {d : Nat} {nd : DNode S A R X}
    (hd : st.dn[d]? = some nd) : nd.visits ≤ alg.initVisits + trialsBegun h := by
  obtain ⟨j, hj⟩ := depth_ge hv htb hr hd
  have h1 := reach_vinv hv htb hr d nd j hd hj
  have h2 := (reach_both hv htb hr).2.v1 d nd hd
  have e1 : h.countP Event.isBegan = trialsBegun h := countP_congr' h (fun e => by cases e <;> rfl)
  omega

end Verif.Search

namespace Verif.Random

open Verif.Search Verif.Eval Verif.Spec Verif.Sampling Verif.Backups

/-! ## The algorithms explore -/

section explore
variable {S A : Type} [DecidableEq S] [DecidableEq A] {env : Env S A ℝ} {m : Manager S ℝ} {k : Nat} {s0 : S} {dp tm : Int}
  {tb : List ((Int × S) × Option Nat)} {eps : ℝ} {lr : S → A → ℝ} {obs : S → A → List (S × ℝ)} {B N : Nat} {po : ℝ}

open Verif.Ments Verif.Dents

theorem c77_explore_range {cfg : Cfg S A} (hmax : cfg.maxExplore ≤ 1) (hp : 1 / 10 ^ 16 ≤ softExplore cfg B N) :
    0 ≤ softExplore cfg B N ∧ softExplore cfg B N ≤ 1 := by
  have h0 : 0 ≤ softExplore cfg B N := le_trans (by positivity) hp
  refine ⟨h0, ?_⟩
  unfold softExplore
  rcases Nat.eq_zero_or_pos B with rfl | hB
  · simp
  · have hB1 : (1 : ℝ) ≤ B := by exact_mod_cast hB
    rw [div_le_one (by linarith)]
    exact le_trans (min_le_right _ _) (by linarith)

/-- C77.  MENTS explores: with at most `N` trials every action has at least the probability `softExplore` whenever an action is selected,
provided that is at least 1e-16 (smaller probabilities are dropped by the code). -/
theorem c77_ments_explores {cfg : Cfg S A} {iter : View S A Soft Soft → List (A × ℝ) → List (A × ℝ)} (htb : Leftover tb) (G : GoodCfg cfg env)
    (hl : env.Live) (hnd : ∀ s, (env.actions s).Nodup) (hB : ∀ s, (env.actions s).length ≤ B) (heps : 0 ≤ eps)
    (hit : ∀ v l, List.Perm (iter v l) l) (hobs : Transitions env obs po) (hp : 1 / 10 ^ 16 ≤ softExplore cfg B N) :
    Explores env m (ments eps cfg lr) (softDice eps cfg (mentsQ cfg id) iter obs) k s0 dp tm tb N (softExplore cfg B N) po :=
  soft_explores (ments_valid eps cfg lr) htb (fun _ _ _ => rfl) rfl (fun _ _ hr nd => q_defined G htb hr nd) G hl hnd hB heps hit hobs hp

/-- C77.  DB-MENTS explores. -/
theorem c77_dbments_explores {cfg : Cfg S A} {iter : View S A DB DB → List (A × ℝ) → List (A × ℝ)} (htb : Leftover tb) (G : GoodCfg cfg env)
    (hl : env.Live) (hnd : ∀ s, (env.actions s).Nodup) (hB : ∀ s, (env.actions s).length ≤ B) (heps : 0 ≤ eps)
    (hit : ∀ v l, List.Perm (iter v l) l) (hobs : Transitions env obs po) (hp : 1 / 10 ^ 16 ≤ softExplore cfg B N) :
    Explores env m (dbments eps cfg lr) (softDice eps cfg (mentsQ cfg DB.soft) iter obs) k s0 dp tm tb N (softExplore cfg B N) po := by
  refine soft_explores (dbments_valid eps cfg lr) htb (fun _ _ _ => rfl) rfl (fun st h hr nd => ?_) G hl hnd hB heps hit hobs hp
  obtain ⟨_, D⟩ := local_reach (dbments_local m eps G.total lr) (dbments_valid eps cfg lr) htb hr
  refine mentsQ_total (v := viewOf env m st nd) G.total rfl DB.soft ?_
  intro k hk
  obtain ⟨c, nc, _, h2, h3⟩ := mem_kidsY.1 hk
  rw [h3]
  exact D.c c nc h2

/-- C77.  EST explores. -/
theorem c77_est_explores {cfg : DCfg S A} {iter : View S A DX DY → List (A × ℝ) → List (A × ℝ)} (htb : Leftover tb) (G : GoodCfg cfg.toCfg env)
    (hl : env.Live) (hnd : ∀ s, (env.actions s).Nodup) (hB : ∀ s, (env.actions s).length ≤ B) (heps : 0 ≤ eps)
    (hit : ∀ v l, List.Perm (iter v l) l) (hobs : Transitions env obs po) (hp : 1 / 10 ^ 16 ≤ softExplore cfg.toCfg B N) :
    Explores env m (est eps cfg env m lr) (softDice eps cfg.toCfg (estQ cfg) iter obs) k s0 dp tm tb N (softExplore cfg.toCfg B N) po := by
  refine soft_explores (est_valid eps cfg env m lr) htb (fun _ _ _ => rfl) rfl (fun st h hr nd => ?_) G hl hnd hB heps hit hobs hp
  refine estQ_total (v := viewOf env m st nd) G.total rfl ?_
  intro k hk
  obtain ⟨c, nc, _, h2, h3⟩ := mem_kidsY.1 hk
  rw [h3]
  exact est_finite htb hr c nc h2

/-- A positive exploration probability needs a positive epsilon. -/
theorem eps_pos {cfg : Cfg S A} (hp : 1 / 10 ^ 16 ≤ softExplore cfg B N) : 0 < cfg.epsilon := by
  have h0 : 0 < softExplore cfg B N := lt_of_lt_of_le (by positivity) hp
  unfold softExplore at h0
  have h1 : 0 < min (minEps cfg / Real.log (N + 1)) cfg.maxExplore := by
    by_contra hx
    exact absurd h0 (not_lt.2 (div_nonpos_of_nonpos_of_nonneg (not_lt.1 hx) (by positivity)))
  have h2 := lt_of_lt_of_le h1 (min_le_left _ _)
  have h3 : 0 < minEps cfg := by
    by_contra hx
    exact absurd h2 (not_lt.2 (div_nonpos_of_nonpos_of_nonneg (not_lt.1 hx) (Real.log_nonneg (by
      have : (0 : ℝ) ≤ N := by positivity
      linarith))))
  unfold minEps at h3
  split at h3
  · exact lt_of_lt_of_le h3 (min_le_right _ _)
  · exact h3

/-- C77.  DENTS explores. -/
theorem c77_dents_explores {cfg : DCfg S A} {iter : View S A DX DY → List (A × ℝ) → List (A × ℝ)} (htb : Leftover tb)
    (G : GoodCfg cfg.toCfg env) (hl : env.Live) (hnd : ∀ s, (env.actions s).Nodup) (hB : ∀ s, (env.actions s).length ≤ B) (heps : 0 ≤ eps)
    (hit : ∀ v l, List.Perm (iter v l) l) (hobs : Transitions env obs po) (hp : 1 / 10 ^ 16 ≤ softExplore cfg.toCfg B N) :
    Explores env m (dents eps cfg env m lr) (softDice eps cfg.toCfg (dentsQ cfg) iter obs) k s0 dp tm tb N (softExplore cfg.toCfg B N) po := by
  refine soft_explores (dents_valid eps cfg env m lr) htb (fun _ _ _ => rfl) rfl (fun st h hr nd => ?_) G hl hnd hB heps hit hobs hp
  obtain ⟨_, D⟩ := dents_finite G.total G.some (eps_pos hp) htb hr
  refine dentsQ_total (v := viewOf env m st nd) G.total rfl ?_
  intro k hk
  obtain ⟨c, nc, _, h2, h3⟩ := mem_kidsY.1 hk
  rw [h3]
  exact D c nc h2

open Verif.Uct in
/-- C77.  UCT and PUCT with a positive epsilon explore: every action has at least the probability `epsilon / B`, for every number of
trials.  So `c77_bound_vanishes_const` applies: the probability that a part of the tree is not found tends to 0. -/
theorem c77_uct_explores {cfg : Uct.Cfg S A ℝ} {lo hi : ℝ} {iter : View S A (Stats ℝ) (Stats ℝ) → List (A × ℝ) → List (A × ℝ)}
    (U : UctOk cfg env m dp lo hi) (hl : env.Live) (htb : Leftover tb) (he0 : 0 < cfg.epsilon) (he1 : cfg.epsilon ≤ 1)
    (hnd : ∀ s, (env.actions s).Nodup) (hB : ∀ s, (env.actions s).length ≤ B) (hit : ∀ v, IterOk (iter v)) (hobs : Transitions env obs po) :
    Explores env m (uct cfg m) (uctDice cfg iter obs) k s0 dp tm tb N (cfg.epsilon / B) po :=
  uct_explores U hl htb he0 he1 hnd hB hit hobs

end explore

/-! ## Searches of deterministic games find the value of the game -/

section solve
variable {S A X Y : Type} [DecidableEq S] [DecidableEq A] {env : Env S A ℝ} {m : Manager S ℝ} {alg : Alg S A ℝ X Y} {k : Nat} {s0 : S}
  {dp tm : Int} {tb : List ((Int × S) × Option Nat)} {D : Dice S A ℝ X Y} {N : Nat} {pa po : ℝ} {sched : Scheduler S A ℝ}
  {lr : S → A → ℝ} {next : S → A → S}

/-- C77.  At the end of the search every action of every node that is not a leaf has been tried, with at least this probability. -/
theorem c77_exhausts (hl : env.Live) (hv : alg.Valid) (htb : Leftover tb) (ht : TableOk m tb)
    (hX : Explores env m alg D k s0 dp tm tb N pa po) (hpa : 0 ≤ pa ∧ pa ≤ 1) (hpo : 0 ≤ po ∧ po ≤ 1) (hdp : dp ≤ m.maxDepth)
    (hk : 0 < k) (hsch : Productive env m alg k s0 dp tm tb N sched) {n : Nat} (hn : (4 * (m.maxDepth - dp).toNat + 4) * N ≤ n) :
    1 - (plays env (m.maxDepth - dp).toNat s0).length * missBound (pa * po) (m.maxDepth - dp).toNat N ≤
    probAfter env m alg D k s0 dp tm tb N sched n (fun st h => Finished N st h ∧ Exhausted env m st) := by
  refine le_trans (c77_everything_found hv htb ht hX hpa hpo hdp hk hsch hn) (prob_mono hv htb ht hX ?_)
  rintro st h hr ⟨h1, h2⟩
  refine ⟨h1, fun d nd hd hleaf a ha => ?_⟩
  obtain ⟨c, hc, _⟩ := c77_complete hl hv htb hr h2 hd hleaf ha
  exact ⟨c, hc⟩

/-- A deterministic environment's distribution of observations. -/
def certain (next : S → A → S) (s : S) (a : A) : List (S × ℝ) := [(next s a, 1)]

theorem certain_ok (hdet : ∀ s a, a ∈ env.actions s → env.succ s a = [next s a]) : Transitions env (certain next) 1 := by
  intro s a _ ha
  refine ⟨⟨by simp [certain], by simp [certain]⟩, ?_, ?_⟩
  · intro p hp _
    simp only [certain, List.mem_singleton] at hp
    subst hp
    simp [hdet s a ha]
  · intro o ho
    rw [hdet s a ha, List.mem_singleton] at ho
    subst ho
    simp [certain, weightOf]

open Verif.Uct Verif.Ments in
/-- Every recommendation by DP value at the root is an optimal move of the game. -/
def RecommendsOptimal (env : Env S A ℝ) (m : Manager S ℝ) (next : S → A → S) (py : Y → Dp ℝ) (low : ℝ) (threshold : Int) (st : St S A ℝ X Y) : Prop :=
  ∀ nd, st.dn[st.root]? = some nd → ∀ (raw : Nat) (iter : List (A × ℝ) → List (A × ℝ)), IterOk iter →
    ∃ a ∈ env.actions nd.state,
      recommendBestOrRandom low threshold (viewOf env m st nd).opp (viewOf env m st nd).actions
        ((viewOf env m st nd).kids.map fun k => (k.1, (py k.2.2).n, (py k.2.2).val.getD 0)) raw iter = some a ∧
      Best (isOpponent m nd.time)
        {x | ∃ b ∈ env.actions nd.state, env.reward nd.state b (next nd.state b) +
          gameValue env m next (remaining m (nd.depth + 1)) (nd.time + 1) (next nd.state b) = x}
        (env.reward nd.state a (next nd.state a) +
          gameValue env m next (remaining m (nd.depth + 1)) (nd.time + 1) (next nd.state a))

/-- C77.  Deterministic game, values by dynamic programming: at the end of the search the value of the root is the value of the game and
every recommendation at the root is an optimal move, with at least this probability. -/
theorem c77_solves {px : X → Dp ℝ} {py : Y → Dp ℝ} (hdet : ∀ s a, a ∈ env.actions s → env.succ s a = [next s a])
    (hlr : ∀ s a, a ∈ env.actions s → lr s a = env.reward s a (next s a)) (hl : env.Live)
    (hv : alg.Valid) (H : HasDp alg px py lr) (hvis : ∀ x, alg.visitD false x = x) (hu : m.useTable = false) (htb : Leftover tb)
    (hX : Explores env m alg D k s0 dp tm tb N pa po) (hpa : 0 ≤ pa ∧ pa ≤ 1) (hpo : 0 ≤ po ∧ po ≤ 1) (hdp : dp < m.maxDepth)
    (hs0 : env.isSink s0 = false) {low : ℝ} {threshold : Int} (hth : threshold ≤ 1)
    (hlow : ∀ a ∈ env.actions s0, low ≤ (if isOpponent m tm then -1 else 1) *
      (env.reward s0 a (next s0 a) + gameValue env m next (remaining m (dp + 1)) (tm + 1) (next s0 a)))
    (hk : 0 < k) (hsch : Productive env m alg k s0 dp tm tb N sched) {n : Nat} (hn : (4 * (m.maxDepth - dp).toNat + 4) * N ≤ n) :
    1 - (plays env (m.maxDepth - dp).toNat s0).length * missBound (pa * po) (m.maxDepth - dp).toNat N ≤
    probAfter env m alg D k s0 dp tm tb N sched n (fun st h => Finished N st h ∧
      valD px st st.root = some (gameValue env m next (remaining m dp) tm s0) ∧ RecommendsOptimal env m next py low threshold st) := by
  have ht : TableOk m tb := fun h => by rw [hu] at h; exact absurd h (by simp)
  refine le_trans (c77_exhausts hl hv htb ht hX hpa hpo hdp.le hk hsch hn) (prob_mono hv htb ht hX ?_)
  rintro st h hr ⟨h1, h2⟩
  refine ⟨h1, (c67_exact_value hdet hlr hl.acts hv H hvis hu htb hr h1.1 h2).1, ?_⟩
  intro nd hd raw iter hi
  obtain ⟨nr, g1, g2, g3, g4⟩ := root_node (reach_inv hv htb hr).tree
  rw [hd] at g1
  obtain rfl := Option.some.inj g1
  refine c67_recommends_optimal hdet hlr hl.acts hv H hvis hu htb hr h1.1 h2 hd ?_ hth ?_ raw hi
  · simp [isLeaf, g2, g3, hs0, hdp]
  · rw [g2, g3, g4]; exact hlow

open Verif.Ments Verif.Dents

/-- C77 for DENTS with DP values.  (For EST and DB-MENTS it follows from `c77_solves` in the same way, see below.) -/
theorem c77_dents_solves {cfg : DCfg S A} {eps : ℝ} {B : Nat} {iter : View S A DX DY → List (A × ℝ) → List (A × ℝ)}
    (hdet : ∀ s a, a ∈ env.actions s → env.succ s a = [next s a])
    (hlr : ∀ s a, a ∈ env.actions s → lr s a = env.reward s a (next s a)) (hl : env.Live) (hdpv : cfg.useDp = true)
    (hu : m.useTable = false) (htb : Leftover tb) (G : GoodCfg cfg.toCfg env) (hnd : ∀ s, (env.actions s).Nodup)
    (hB : ∀ s, (env.actions s).length ≤ B) (heps : 0 ≤ eps) (hit : ∀ v l, List.Perm (iter v l) l)
    (hp : 1 / 10 ^ 16 ≤ softExplore cfg.toCfg B N) (hdp : dp < m.maxDepth) (hs0 : env.isSink s0 = false) {low : ℝ} {threshold : Int}
    (hth : threshold ≤ 1) (hlow : ∀ a ∈ env.actions s0, low ≤ (if isOpponent m tm then -1 else 1) *
      (env.reward s0 a (next s0 a) + gameValue env m next (remaining m (dp + 1)) (tm + 1) (next s0 a)))
    (hk : 0 < k) (hsch : Productive env m (dents eps cfg env m lr) k s0 dp tm tb N sched) {n : Nat}
    (hn : (4 * (m.maxDepth - dp).toNat + 4) * N ≤ n) :
    1 - (plays env (m.maxDepth - dp).toNat s0).length * missBound (softExplore cfg.toCfg B N) (m.maxDepth - dp).toNat N ≤
    probAfter env m (dents eps cfg env m lr) (softDice eps cfg.toCfg (dentsQ cfg) iter (certain next)) k s0 dp tm tb N sched n
      (fun st h => Finished N st h ∧ valD DX.dp st st.root = some (gameValue env m next (remaining m dp) tm s0) ∧
        RecommendsOptimal env m next DY.dp low threshold st) := by
  have hX := c77_dents_explores (m := m) (lr := lr) (k := k) (s0 := s0) (dp := dp) (tm := tm) htb G hl hnd hB heps hit (certain_ok hdet) hp
  have := c77_solves hdet hlr hl (dents_valid eps cfg env m lr) (dents_hasDp eps env m lr hdpv) (fun x => rfl) hu htb hX
    (c77_explore_range G.max1 hp) ⟨zero_le_one, le_rfl⟩ hdp hs0 hth hlow hk hsch hn
  rwa [mul_one] at this

/-- C77 for EST with DP values. -/
theorem c77_est_solves {cfg : DCfg S A} {eps : ℝ} {B : Nat} {iter : View S A DX DY → List (A × ℝ) → List (A × ℝ)}
    (hdet : ∀ s a, a ∈ env.actions s → env.succ s a = [next s a])
    (hlr : ∀ s a, a ∈ env.actions s → lr s a = env.reward s a (next s a)) (hl : env.Live) (hdpv : cfg.useDp = true)
    (hu : m.useTable = false) (htb : Leftover tb) (G : GoodCfg cfg.toCfg env) (hnd : ∀ s, (env.actions s).Nodup)
    (hB : ∀ s, (env.actions s).length ≤ B) (heps : 0 ≤ eps) (hit : ∀ v l, List.Perm (iter v l) l)
    (hp : 1 / 10 ^ 16 ≤ softExplore cfg.toCfg B N) (hdp : dp < m.maxDepth) (hs0 : env.isSink s0 = false) {low : ℝ} {threshold : Int}
    (hth : threshold ≤ 1) (hlow : ∀ a ∈ env.actions s0, low ≤ (if isOpponent m tm then -1 else 1) *
      (env.reward s0 a (next s0 a) + gameValue env m next (remaining m (dp + 1)) (tm + 1) (next s0 a)))
    (hk : 0 < k) (hsch : Productive env m (est eps cfg env m lr) k s0 dp tm tb N sched) {n : Nat}
    (hn : (4 * (m.maxDepth - dp).toNat + 4) * N ≤ n) :
    1 - (plays env (m.maxDepth - dp).toNat s0).length * missBound (softExplore cfg.toCfg B N) (m.maxDepth - dp).toNat N ≤
    probAfter env m (est eps cfg env m lr) (softDice eps cfg.toCfg (estQ cfg) iter (certain next)) k s0 dp tm tb N sched n
      (fun st h => Finished N st h ∧ valD DX.dp st st.root = some (gameValue env m next (remaining m dp) tm s0) ∧
        RecommendsOptimal env m next DY.dp low threshold st) := by
  have hX := c77_est_explores (m := m) (lr := lr) (k := k) (s0 := s0) (dp := dp) (tm := tm) htb G hl hnd hB heps hit (certain_ok hdet) hp
  have := c77_solves hdet hlr hl (est_valid eps cfg env m lr) (est_hasDp eps env m lr hdpv) (fun x => rfl) hu htb hX
    (c77_explore_range G.max1 hp) ⟨zero_le_one, le_rfl⟩ hdp hs0 hth hlow hk hsch hn
  rwa [mul_one] at this

/-- C77 for DB-MENTS. -/
theorem c77_dbments_solves {cfg : Cfg S A} {eps : ℝ} {B : Nat} {iter : View S A DB DB → List (A × ℝ) → List (A × ℝ)}
    (hdet : ∀ s a, a ∈ env.actions s → env.succ s a = [next s a])
    (hlr : ∀ s a, a ∈ env.actions s → lr s a = env.reward s a (next s a)) (hl : env.Live)
    (hu : m.useTable = false) (htb : Leftover tb) (G : GoodCfg cfg env) (hnd : ∀ s, (env.actions s).Nodup)
    (hB : ∀ s, (env.actions s).length ≤ B) (heps : 0 ≤ eps) (hit : ∀ v l, List.Perm (iter v l) l)
    (hp : 1 / 10 ^ 16 ≤ softExplore cfg B N) (hdp : dp < m.maxDepth) (hs0 : env.isSink s0 = false) {low : ℝ} {threshold : Int}
    (hth : threshold ≤ 1) (hlow : ∀ a ∈ env.actions s0, low ≤ (if isOpponent m tm then -1 else 1) *
      (env.reward s0 a (next s0 a) + gameValue env m next (remaining m (dp + 1)) (tm + 1) (next s0 a)))
    (hk : 0 < k) (hsch : Productive env m (dbments eps cfg lr) k s0 dp tm tb N sched) {n : Nat}
    (hn : (4 * (m.maxDepth - dp).toNat + 4) * N ≤ n) :
    1 - (plays env (m.maxDepth - dp).toNat s0).length * missBound (softExplore cfg B N) (m.maxDepth - dp).toNat N ≤
    probAfter env m (dbments eps cfg lr) (softDice eps cfg (mentsQ cfg DB.soft) iter (certain next)) k s0 dp tm tb N sched n
      (fun st h => Finished N st h ∧ valD DB.dp st st.root = some (gameValue env m next (remaining m dp) tm s0) ∧
        RecommendsOptimal env m next DB.dp low threshold st) := by
  have hX := c77_dbments_explores (m := m) (lr := lr) (k := k) (s0 := s0) (dp := dp) (tm := tm) htb G hl hnd hB heps hit (certain_ok hdet) hp
  have := c77_solves hdet hlr hl (dbments_valid eps cfg lr) (dbments_hasDp eps cfg lr) (fun x => rfl) hu htb hX
    (c77_explore_range G.max1 hp) ⟨zero_le_one, le_rfl⟩ hdp hs0 hth hlow hk hsch hn
  rwa [mul_one] at this

/-- C77 for MENTS with a constant temperature: the soft value of the root is within `temp * log B` per move of the value of the game. -/
theorem c77_ments_solves {cfg : Cfg S A} {eps : ℝ} {B : Nat} {iter : View S A Soft Soft → List (A × ℝ) → List (A × ℝ)}
    (hdet : ∀ s a, a ∈ env.actions s → env.succ s a = [next s a])
    (hlr : ∀ s a, a ∈ env.actions s → lr s a = env.reward s a (next s a)) (hl : env.Live)
    (hu : m.useTable = false) (htb : Leftover tb) (G : GoodCfg cfg env) (hdec : cfg.decay = none) (hnd : ∀ s, (env.actions s).Nodup)
    (hB : ∀ s, (env.actions s).length ≤ B) (heps : 0 ≤ eps) (hit : ∀ v l, List.Perm (iter v l) l)
    (hp : 1 / 10 ^ 16 ≤ softExplore cfg B N) (hdp : dp ≤ m.maxDepth)
    (hk : 0 < k) (hsch : Productive env m (ments eps cfg lr) k s0 dp tm tb N sched) {n : Nat}
    (hn : (4 * (m.maxDepth - dp).toNat + 4) * N ≤ n) :
    1 - (plays env (m.maxDepth - dp).toNat s0).length * missBound (softExplore cfg B N) (m.maxDepth - dp).toNat N ≤
    probAfter env m (ments eps cfg lr) (softDice eps cfg (mentsQ cfg id) iter (certain next)) k s0 dp tm tb N sched n
      (fun st h => Finished N st h ∧ ∃ v, softD id st st.root = some v ∧
        |v - gameValue env m next (remaining m dp) tm s0| ≤ remaining m dp * (cfg.temp * Real.log B)) := by
  have ht : TableOk m tb := fun h => by rw [hu] at h; exact absurd h (by simp)
  have hX := c77_ments_explores (m := m) (lr := lr) (k := k) (s0 := s0) (dp := dp) (tm := tm) htb G hl hnd hB heps hit (certain_ok hdet) hp
  have h1 := c77_exhausts hl (ments_valid eps cfg lr) htb ht hX (c77_explore_range G.max1 hp) ⟨zero_le_one, le_rfl⟩ hdp hk hsch hn
  rw [mul_one] at h1
  refine le_trans h1 (prob_mono (ments_valid eps cfg lr) htb ht hX ?_)
  rintro st h hr ⟨h1, h2⟩
  have htemp : 0 < cfg.temp := by simpa [hdec] using G.temp
  obtain ⟨nr, g1, g2, g3, g4⟩ := root_node (reach_inv (ments_valid eps cfg lr) htb hr).tree
  obtain ⟨v, e1, e2⟩ := c68_near_game_value hdet hlr hl.acts (ments_valid eps cfg lr) (ments_hasSoft eps cfg lr) G.total hdec htemp (fun _ => rfl) hu htb
    hr h1.1 h2 hB g1
  rw [g2, g3, g4] at e2
  exact ⟨h1, v, e1, e2⟩

open Verif.Uct Filter Topology in
/-- C77 for UCT and PUCT with a positive epsilon, in any environment: for every `δ > 0`, if there are enough trials, the whole tree (up to the
depth limit) has been found at the end of the search with probability at least `1 - δ`, whatever the schedule. -/
theorem c77_uct_finds_everything {cfg : Uct.Cfg S A ℝ} {lo hi : ℝ} {iter : View S A (Stats ℝ) (Stats ℝ) → List (A × ℝ) → List (A × ℝ)}
    {obs : S → A → List (S × ℝ)} {B : Nat}
    (U : UctOk cfg env m dp lo hi) (hl : env.Live) (htb : Leftover tb) (ht : TableOk m tb) (he0 : 0 < cfg.epsilon) (he1 : cfg.epsilon ≤ 1)
    (hnd : ∀ s, (env.actions s).Nodup) (hB0 : 0 < B) (hB : ∀ s, (env.actions s).length ≤ B) (hit : ∀ v, IterOk (iter v))
    (hobs : Transitions env obs po) (hpo : 0 < po ∧ po ≤ 1) (hdp : dp ≤ m.maxDepth) (hk : 0 < k) {δ : ℝ} (hδ : 0 < δ) :
    ∃ N0, ∀ N ≥ N0, ∀ sched, Productive env m (uct cfg m) k s0 dp tm tb N sched → ∀ n, (4 * (m.maxDepth - dp).toNat + 4) * N ≤ n →
      1 - δ ≤ probAfter env m (uct cfg m) (uctDice cfg iter obs) k s0 dp tm tb N sched n
        (fun st h => Finished N st h ∧ ∀ play ∈ plays env (m.maxDepth - dp).toNat s0, Explored st play) := by
  have hB1 : (1 : ℝ) ≤ B := by exact_mod_cast hB0
  have hpa : 0 < cfg.epsilon / B ∧ cfg.epsilon / B ≤ 1 := ⟨div_pos he0 (by linarith), by rw [div_le_one (by linarith)]; linarith⟩
  have hlim := (c77_bound_vanishes_const (mul_pos hpa.1 hpo.1) (mul_le_one₀ hpa.2 hpo.1.le hpo.2) (m.maxDepth - dp).toNat).const_mul
    ((plays env (m.maxDepth - dp).toNat s0).length : ℝ)
  rw [mul_zero] at hlim
  obtain ⟨N0, hN0⟩ := eventually_atTop.1 (hlim.eventually_lt_const hδ)
  refine ⟨N0, fun N hN sched hsch n hn => ?_⟩
  have := c77_everything_found (uct_valid cfg m) htb ht (c77_uct_explores U hl htb he0 he1 hnd hB hit hobs) ⟨hpa.1.le, hpa.2⟩ ⟨hpo.1.le, hpo.2⟩
    hdp hk hsch hn
  have := hN0 N hN
  linarith

end solve

/-! ## Example -/

/-- One state, two actions, one of which pays. -/
def rEnv : Env Unit Bool ℝ :=
  { isSink := fun _ => false, actions := fun _ => [false, true], succ := fun _ _ => [()], reward := fun _ a _ => if a then 1 else 0 }

def rMgr : Manager Unit ℝ :=
  { maxDepth := 2, mctsMode := true, twoPlayer := false, useTable := false, numMutexes := 0, heuristic := none }

/-- Half of the time exploration. -/
noncomputable def rCfg : Verif.Ments.Cfg Unit Bool :=
  { temp := 1, priorWeight := 0, epsilon := 250, rootEpsilon := -1, maxExplore := 1 / 2, decay := none, minTemp := 0, scale := 1,
    rootScale := -1, defaultQ := 0, shift := false, offset := 0, threshold := 0, mostVisited := false, prior := none, low := -1000000 }

theorem rExplore : softExplore rCfg 2 500 = 1 / 4 := by
  have h : Real.log ((500 : ℕ) + 1) ≤ 500 := by
    have := Real.log_le_sub_one_of_pos (x := ((500 : ℕ) : ℝ) + 1) (by positivity)
    push_cast at this ⊢
    linarith
  have h0 : 0 < Real.log ((500 : ℕ) + 1) := Real.log_pos (by norm_num)
  have h1 : (1 / 2 : ℝ) ≤ 250 / Real.log ((500 : ℕ) + 1) := by
    rw [div_le_div_iff₀ (by norm_num) h0]
    linarith
  have h2 : min (minEps rCfg / Real.log ((500 : ℕ) + 1)) rCfg.maxExplore = 1 / 2 := by
    have : minEps rCfg = 250 := by norm_num [minEps, rCfg]
    rw [this]
    exact min_eq_right h1
  rw [softExplore, h2]
  norm_num

open Verif.Ments Verif.Dents in
/-- A DB-MENTS search with 500 trials by three workers, under some schedule: with probability at least 0.999 the value of the root is the
value of the game, which is 2, and every recommendation is an optimal move. -/
example : ∃ sched : Scheduler Unit Bool ℝ, 999 / 1000 ≤
    probAfter rEnv rMgr (dbments 0 rCfg fun _ a => if a then 1 else 0) (softDice 0 rCfg (mentsQ rCfg DB.soft) (fun _ l => l) (certain fun _ _ => ()))
      3 () 0 0 [] 500 sched 6000 (fun st h => Finished 500 st h ∧ valD DB.dp st st.root = some 2 ∧
        RecommendsOptimal rEnv rMgr (fun _ _ => ()) DB.dp (-10) 1 st) := by
  have hdet : ∀ s a, a ∈ rEnv.actions s → rEnv.succ s a = [()] := fun _ _ _ => rfl
  have hl : rEnv.Live := ⟨by simp [rEnv], by simp [rEnv]⟩
  have G : GoodCfg rCfg rEnv := by
    refine ⟨by simp [rCfg], by norm_num [rCfg], by norm_num [rCfg], by norm_num [rCfg], ?_, by simp [rCfg], ?_, ?_, ?_⟩
    · simp only [rCfg]; exact Real.log_nonneg (by norm_num)
    all_goals intro f hf; simp [rCfg] at hf
  have hgv : gameValue rEnv rMgr (fun _ _ => ()) (remaining rMgr 0) 0 () = 2 := by
    norm_num [remaining, rMgr, gameValue, rEnv, bestOf, heurOf, isOpponent, show Int.toNat 2 = 2 from rfl, List.max?]
  have hgv1 : gameValue rEnv rMgr (fun _ _ => ()) (remaining rMgr (0 + 1)) (0 + 1) () = 1 := by
    norm_num [remaining, rMgr, gameValue, rEnv, bestOf, heurOf, isOpponent, show Int.toNat 1 = 1 from rfl, List.max?]
  have htb : Leftover ([] : List ((Int × Unit) × Option Nat)) := by simp [Leftover]
  obtain ⟨sched, hsch⟩ := productive_exists (env := rEnv) (m := rMgr) (k := 3) (s0 := ()) (dp := 0) (tm := 0) (N := 500)
    (dbments_valid 0 rCfg fun _ a => if a then 1 else 0) htb (by simp [TableOk, rMgr])
  refine ⟨sched, ?_⟩
  have := c77_dbments_solves (cfg := rCfg) (eps := 0) (B := 2) (iter := fun _ l => l) (env := rEnv) (m := rMgr) (next := fun _ _ => ())
    (lr := fun _ a => if a then 1 else 0) (k := 3) (s0 := ()) (dp := 0) (tm := 0) (tb := []) (N := 500) (sched := sched) (low := -10)
    (threshold := 1) (n := 6000) hdet (fun _ _ _ => rfl) hl rfl htb G (by simp [rEnv]) (by simp [rEnv]) le_rfl
    (fun _ l => List.Perm.refl l) (by rw [rExplore]; norm_num) (by simp [rMgr]) rfl le_rfl
    (by intro a _; rw [hgv1]; cases a <;> norm_num [isOpponent, rMgr, rEnv]) (by norm_num) hsch (by simp [rMgr])
  rw [rExplore, hgv] at this
  refine le_trans ?_ this
  have hlen : (plays rEnv (rMgr.maxDepth - 0).toNat ()).length = 7 := by
    rfl
  rw [hlen, show (rMgr.maxDepth - 0).toNat = 2 from rfl]
  have h1 : (2000 : ℝ) ≤ (33 / 32) ^ 249 := by norm_num
  have h2 : (4000000 : ℝ) ≤ (33 / 32) ^ 498 := by
    rw [show (498 : ℕ) = 249 * 2 from rfl, pow_mul]
    nlinarith
  have h3 : 4 / (33 / 32 : ℝ) ^ 498 ≤ 4 / 4000000 := div_le_div_of_nonneg_left (by norm_num) (by norm_num) h2
  have h4 : missBound (1 / 4) 2 500 = 4 / (33 / 32 : ℝ) ^ 498 := by norm_num [missBound]
  rw [h4]
  push_cast
  linarith

end Verif.Random
