import Verif.Proofs.TentsRandom

/-!
# Property C95: finished TENTS searches are near the value of the game

`sparseMax` and `sparseTree` (the sparse minimax value of a search tree), `tentsDice` and `rentsDice` are defined in `Verif.Spec.TentsTree`,
`tsallisObjective` in `Verif.Spec.Tents`, `gameValue` in `Verif.Spec.Tree`, `expValue` and the bounds in `Verif.Spec.Stochastic`, `probAfter` and
`Explores` in `Verif.Spec.Random`.
-/

set_option linter.unusedSectionVars false
set_option linter.unusedSimpArgs false

namespace Verif.Tents

open Verif.Search Verif.Backups Verif.Ments Verif.Random Verif.Spec
open Verif.Uct (IterOk)
open Verif.Sampling (Draw)

section
variable {S A : Type} [DecidableEq S] [DecidableEq A] {cfg : Cfg S A} {env : Env S A ℝ} {m : Manager S ℝ} {eps : ℝ} {lr : S → A → ℝ} {k : Nat} {s0 : S}
  {dp tm : Int} {tb : List ((Int × S) × Option Nat)} {st : St S A ℝ (Except TErr (TX A)) Soft} {h : List (Event S A ℝ)} {next : S → A → S}

/-- C95.  The sparse maximum is at least the maximum, and exceeds it by at most half the temperature, whatever the number of actions. -/
theorem c95_sparse_maximum {temp : ℝ} (ht : 0 < temp) {Q : A → ℝ} {l : List A} (hnd : l.Nodup) {M : ℝ}
    (hM : IsGreatest {y | ∃ a ∈ l, y = Q a} M) : M ≤ sparseMax temp Q l ∧ sparseMax temp Q l ≤ M + temp / 2 :=
  sparseMax_bounds ht hnd hM

/-- C95.  Constant temperature, no transposition table: whenever no trial is running the value of every decision node is the sparse minimax
value of the tree below it. -/
theorem c95_sparse_value_of_tree (hp : PriorTotal cfg env) (hnd : ∀ s, (env.actions s).Nodup) (hdec : cfg.decay = none)
    (hu : m.useTable = false) (htb : Leftover tb) (hr : Reachable env m (tents eps cfg env m lr) k s0 dp tm tb st h) (hq : Quiescent st)
    {d : Nat} {nd : DNode S A ℝ (Except TErr (TX A))} (hd : st.dn[d]? = some nd) :
    softD softOfX st d = some (sparseTree cfg env m lr st h (remaining m nd.depth) d) :=
  tents_tree hp hnd hdec hu htb hr hq _ d nd hd le_rfl

/-- C95.  If moreover the environment is deterministic and everything (up to the depth limit) has been tried, it is the value of the game up to
half the temperature per move to go. -/
theorem c95_near_game_value (hdet : ∀ s a, a ∈ env.actions s → env.succ s a = [next s a])
    (hlr : ∀ s a, a ∈ env.actions s → lr s a = env.reward s a (next s a)) (hne : ∀ s, env.isSink s = false → env.actions s ≠ [])
    (hnd : ∀ s, (env.actions s).Nodup) (hp : PriorTotal cfg env) (hdec : cfg.decay = none) (ht : 0 < cfg.temp)
    (hu : m.useTable = false) (htb : Leftover tb) (hr : Reachable env m (tents eps cfg env m lr) k s0 dp tm tb st h) (hq : Quiescent st)
    (hx : Exhausted env m st) {d : Nat} {nd : DNode S A ℝ (Except TErr (TX A))} (hd : st.dn[d]? = some nd) :
    ∃ v, softD softOfX st d = some v ∧
      |v - gameValue env m next (remaining m nd.depth) nd.time nd.state| ≤ remaining m nd.depth * (cfg.temp / 2) :=
  ⟨_, c95_sparse_value_of_tree hp hnd hdec hu htb hr hq hd, tents_game hdet hlr hne hnd ht htb hr hq hx _ d nd hd rfl⟩

/-- C95.  So is the value of an action, with one move fewer to go. -/
theorem c95_near_action_values (hdet : ∀ s a, a ∈ env.actions s → env.succ s a = [next s a])
    (hlr : ∀ s a, a ∈ env.actions s → lr s a = env.reward s a (next s a)) (hne : ∀ s, env.isSink s = false → env.actions s ≠ [])
    (hnd : ∀ s, (env.actions s).Nodup) (hp : PriorTotal cfg env) (hdec : cfg.decay = none) (ht : 0 < cfg.temp)
    (hu : m.useTable = false) (htb : Leftover tb) (hr : Reachable env m (tents eps cfg env m lr) k s0 dp tm tb st h) (hq : Quiescent st)
    (hx : Exhausted env m st) {d c : Nat} {a : A} {nd : DNode S A ℝ (Except TErr (TX A))} (hd : st.dn[d]? = some nd)
    (hc : childC st d a = some c) :
    ∃ v, softC id st c = some v ∧
      |v - (env.reward nd.state a (next nd.state a) + gameValue env m next (remaining m (nd.depth + 1)) (nd.time + 1) (next nd.state a))|
        ≤ remaining m (nd.depth + 1) * (cfg.temp / 2) := by
  have I := reach_inv (tents_valid eps cfg env m lr) htb hr
  have hl : isLeaf env m nd = false := by
    by_contra hl
    obtain ⟨nd1, _, f1, _, f3, _⟩ := childC_facts I.tree hc
    rw [hd] at f1
    obtain rfl := Option.some.inj f1
    rw [tents_leafKids htb hr hd (by simpa using hl)] at f3
    simp at f3
  have hn : (m.maxDepth - nd.depth).toNat = remaining m (nd.depth + 1) + 1 := by
    simp [isLeaf] at hl
    unfold remaining
    omega
  obtain ⟨nc, h1, h2⟩ := tents_chance (n := remaining m (nd.depth + 1)) hp hnd hdec hu htb hr hq
    (fun d nd hd hn => tents_tree hp hnd hdec hu htb hr hq _ d nd hd hn) hd hn.le hc
  refine ⟨_, by simp only [softC, h1, Option.bind_some, id]; exact h2, ?_⟩
  exact below_det hdet hlr hne htb hr hq hx
    (fun d nd hd hn => tents_game hdet hlr hne hnd ht htb hr hq hx _ d nd hd hn) hd hc h1 hn

/-- C95.  The action recommended by value (with a threshold of at most one visit) at a node that is not a leaf is then within one temperature
per remaining move of an optimal move of the game, for the player to move there. -/
theorem c95_recommends_near_optimal (hdet : ∀ s a, a ∈ env.actions s → env.succ s a = [next s a])
    (hlr : ∀ s a, a ∈ env.actions s → lr s a = env.reward s a (next s a)) (hne : ∀ s, env.isSink s = false → env.actions s ≠ [])
    (hnd : ∀ s, (env.actions s).Nodup) (hp : PriorTotal cfg env) (hdec : cfg.decay = none) (ht : 0 < cfg.temp)
    (hu : m.useTable = false) (htb : Leftover tb) (hr : Reachable env m (tents eps cfg env m lr) k s0 dp tm tb st h) (hq : Quiescent st)
    (hx : Exhausted env m st) {d : Nat} {nd : DNode S A ℝ (Except TErr (TX A))} (hd : st.dn[d]? = some nd)
    (hleaf : isLeaf env m nd = false) (hth : cfg.threshold ≤ 1)
    (hlow : ∀ a ∈ env.actions nd.state, cfg.low + remaining m (nd.depth + 1) * (cfg.temp / 2) ≤ sgn (isOpponent m nd.time) *
      (env.reward nd.state a (next nd.state a) + gameValue env m next (remaining m (nd.depth + 1)) (nd.time + 1) (next nd.state a)))
    (raw : Nat) {iter : List (A × ℝ) → List (A × ℝ)} (hi : IterOk iter) :
    ∃ a ∈ env.actions nd.state, recommendSoft cfg (mentsQ cfg id (viewOf env m st nd)) (viewOf env m st nd) raw iter = .ok (some a) ∧
      ∀ b ∈ env.actions nd.state,
        sgn (isOpponent m nd.time) * (env.reward nd.state b (next nd.state b) +
            gameValue env m next (remaining m (nd.depth + 1)) (nd.time + 1) (next nd.state b)) ≤
          sgn (isOpponent m nd.time) * (env.reward nd.state a (next nd.state a) +
            gameValue env m next (remaining m (nd.depth + 1)) (nd.time + 1) (next nd.state a)) +
          remaining m (nd.depth + 1) * cfg.temp := by
  have hv := tents_valid eps cfg env m lr
  obtain ⟨I, C⟩ := reach_both hv htb hr
  obtain ⟨Bk, _⟩ := reach_bk hr
  set ε := remaining m (nd.depth + 1) * (cfg.temp / 2) with hε
  let G : A → ℝ := fun a => env.reward nd.state a (next nd.state a) +
    gameValue env m next (remaining m (nd.depth + 1)) (nd.time + 1) (next nd.state a)
  let Q : A → ℝ := fun a => sgn (isOpponent m nd.time) * ((childC st d a).elim 0 fun c => (softC id st c).getD 0)
  have hsink : env.isSink nd.state = false := by
    simp [isLeaf] at hleaf
    exact hleaf.1
  have hfk : ∀ a, find? a (kidsY st nd) = (find? a nd.kids).bind fun c => (st.cn[c]?).map fun nc => (nc.visits, nc.y) := by
    intro a
    refine find?_kidsY a ?_
    intro p hp
    obtain ⟨_, nc, _, f2, _⟩ := childC_facts I.tree (childC_of_mem I.tree hd (show (p.1, p.2) ∈ nd.kids from hp))
    exact ⟨nc, f2⟩
  have hkv : (viewOf env m st nd).kids = kidsY st nd := rfl
  have hov : (viewOf env m st nd).opp = isOpponent m nd.time := rfl
  have hav : (viewOf env m st nd).actions = env.actions nd.state := rfl
  have key : ∀ a ∈ env.actions nd.state, ∃ c nc v, find? a nd.kids = some c ∧ st.cn[c]? = some nc ∧ nc.y.val = some v ∧
      Q a = sgn (isOpponent m nd.time) * v ∧ |v - G a| ≤ ε ∧ 1 ≤ nc.visits := by
    intro a ha
    obtain ⟨c, hc⟩ := hx d nd hd hleaf a ha
    obtain ⟨nd1, nc, f1, f2, _⟩ := childC_facts I.tree hc
    rw [hd] at f1
    obtain rfl := Option.some.inj f1
    obtain ⟨v, h1, h2⟩ := c95_near_action_values hdet hlr hne hnd hp hdec ht hu htb hr hq hx hd hc
    have hfind : find? a nd.kids = some c := by simpa [childC, hd] using hc
    refine ⟨c, nc, v, hfind, f2, ?_, ?_, h2, ?_⟩
    · simpa [softC, f2] using h1
    · simp only [Q, hc, Option.elim_some, h1, Option.getD_some]
    · have := (c39_children_backed hv htb hr hq hc).2
      have h3 := Bk.c c
      have h4 := List.length_pos_iff.2 this
      have h5 := C.v2 c nc f2
      omega
  have hQ : QIs (mentsQ cfg id (viewOf env m st nd)) (viewOf env m st nd) Q := by
    intro a ha
    rw [hav] at ha
    obtain ⟨c, nc, v, k1, k2, k3, k4, _⟩ := key a ha
    unfold mentsQ
    rw [hkv, hfk, k1]
    simp only [Option.bind_some, k2, Option.map_some, id, k3, hov, k4]
    congr 1
    unfold Backups.oppCoeff sgn
    split <;> ring
  have hs : ∀ a ∈ env.actions nd.state, |Q a - sgn (isOpponent m nd.time) * G a| ≤ ε := by
    intro a ha
    obtain ⟨c, nc, v, k1, k2, k3, k4, k5, _⟩ := key a ha
    rw [k4, ← mul_sub, abs_mul]
    have : |sgn (isOpponent m nd.time)| = 1 := by unfold sgn; split <;> simp
    rw [this, one_mul]
    exact k5
  obtain ⟨a, ha, h1, h2, h3⟩ := c37_best_soft_value hQ (hne _ hsink) (by
    intro a ha
    have h1 := hlow a ha
    have h2 := (abs_sub_le_iff.1 (hs a ha)).2
    simp only [G] at h2
    linarith) raw hi
  refine ⟨a, ha, h1, ?_⟩
  intro b hb
  have hmeets : ∀ b ∈ env.actions nd.state, Meets cfg (viewOf env m st nd) b := by
    intro b hb
    obtain ⟨c, nc, v, k1, k2, k3, k4, _, k6⟩ := key b hb
    refine ⟨nc.visits, nc.y, ?_, by omega⟩
    rw [hkv, hfk, k1]
    simp [k2]
  have hle := (h2 ⟨a, ha, hmeets a ha⟩).2 b hb (hmeets b hb)
  have e1 := (abs_sub_le_iff.1 (hs b hb)).2
  have e2 := (abs_sub_le_iff.1 (hs a ha)).1
  simp only [G] at e1 e2
  linarith

/-! ## TENTS and RENTS explore -/

variable {obs : S → A → List (S × ℝ)} {B N : Nat} {po : ℝ}

/-- C95.  At every selection of a TENTS search of at most `N` trials every valid action has at least the probability `softExplore cfg B N`. -/
theorem c95_tents_explores {iter : View S A (Except TErr (TX A)) Soft → List (A × ℝ) → List (A × ℝ)} (htb : Leftover tb) (G : GoodCfg cfg env)
    (hl : env.Live) (hnd : ∀ s, (env.actions s).Nodup) (hB : ∀ s, (env.actions s).length ≤ B) (heps : 0 ≤ eps)
    (hit : ∀ v l, List.Perm (iter v l) l) (hobs : Transitions env obs po) (hp : 1 / 10 ^ 16 ≤ softExplore cfg B N) :
    Explores env m (tents eps cfg env m lr) (tentsDice eps cfg iter obs) k s0 dp tm tb N (softExplore cfg B N) po :=
  mix_explores (W := fun v _ => tentsWeights cfg (mentsQ cfg id v) v (byValOf v.x)) (tents_valid eps cfg env m lr) htb (fun _ _ _ => rfl) rfl
    (fun hr _ hd hne => tents_weights_distr G hnd htb hr hd hne) G hl hnd hB heps hit hobs hp

/-- C95.  The same for RENTS (with the root at depth 0, as its constructor's default). -/
theorem c95_rents_explores {iter : View S A Soft Soft → List (A × ℝ) → List (A × ℝ)} (htb : Leftover tb) (G : GoodCfg cfg env)
    (hl : env.Live) (hnd : ∀ s, (env.actions s).Nodup) (hB : ∀ s, (env.actions s).length ≤ B) (heps : 0 ≤ eps)
    (hit : ∀ v l, List.Perm (iter v l) l) (hobs : Transitions env obs po) (hp : 1 / 10 ^ 16 ≤ softExplore cfg B N) :
    Explores env m (rents eps cfg lr) (rentsDice eps cfg iter obs) k s0 0 tm tb N (softExplore cfg B N) po :=
  mix_explores (W := fun v ctx => rentsWS cfg (mentsQ cfg id v) v ctx) (rents_valid eps cfg lr) htb (fun _ _ _ => rfl) rfl
    (fun hr hw hd hne => rents_weights_distr G hnd htb hr hw hd hne) G hl hnd hB heps hit hobs hp

variable {sched : Scheduler S A ℝ}

/-- C95.  Deterministic environments: with a probability that tends to 1 with the number of trials, at the end of a TENTS search everything has
been tried and the value of the root is within half a temperature per move of the value of the game. -/
theorem c95_tents_solves {iter : View S A (Except TErr (TX A)) Soft → List (A × ℝ) → List (A × ℝ)}
    (hdet : ∀ s a, a ∈ env.actions s → env.succ s a = [next s a])
    (hlr : ∀ s a, a ∈ env.actions s → lr s a = env.reward s a (next s a)) (hl : env.Live)
    (hu : m.useTable = false) (htb : Leftover tb) (G : GoodCfg cfg env) (hdec : cfg.decay = none) (hnd : ∀ s, (env.actions s).Nodup)
    (hB : ∀ s, (env.actions s).length ≤ B) (heps : 0 ≤ eps) (hit : ∀ v l, List.Perm (iter v l) l)
    (hp : 1 / 10 ^ 16 ≤ softExplore cfg B N) (hdp : dp ≤ m.maxDepth)
    (hk : 0 < k) (hsch : Productive env m (tents eps cfg env m lr) k s0 dp tm tb N sched) {n : Nat}
    (hn : (4 * (m.maxDepth - dp).toNat + 4) * N ≤ n) :
    1 - (plays env (m.maxDepth - dp).toNat s0).length * missBound (softExplore cfg B N) (m.maxDepth - dp).toNat N ≤
    probAfter env m (tents eps cfg env m lr) (tentsDice eps cfg iter (certain next)) k s0 dp tm tb N sched n
      (fun st h => Finished N st h ∧ Exhausted env m st ∧ ∃ v, softD softOfX st st.root = some v ∧
        |v - gameValue env m next (remaining m dp) tm s0| ≤ remaining m dp * (cfg.temp / 2)) := by
  have hv := tents_valid eps cfg env m lr
  have ht : TableOk m tb := fun h => by rw [hu] at h; exact absurd h (by simp)
  have hX := c95_tents_explores (m := m) (lr := lr) (k := k) (s0 := s0) (dp := dp) (tm := tm) htb G hl hnd hB heps hit (certain_ok hdet) hp
  have h1 := c77_exhausts hl hv htb ht hX (c77_explore_range G.max1 hp) ⟨zero_le_one, le_rfl⟩ hdp hk hsch hn
  rw [mul_one] at h1
  refine le_trans h1 (prob_mono hv htb ht hX ?_)
  rintro st h hr ⟨h1, h2⟩
  have htemp : 0 < cfg.temp := by simpa [hdec] using G.temp
  obtain ⟨nr, g1, g2, g3, g4⟩ := root_node (reach_inv hv htb hr).tree
  obtain ⟨v, e1, e2⟩ := c95_near_game_value hdet hlr hl.acts hnd G.total hdec htemp hu htb hr h1.1 h2 g1
  rw [g2, g3, g4] at e2
  exact ⟨h1, h2, v, e1, e2⟩

/-- C95.  Any environment: a RENTS search finds everything, with a probability that tends to 1 with the number of trials. -/
theorem c95_rents_finds_everything {iter : View S A Soft Soft → List (A × ℝ) → List (A × ℝ)} (hl : env.Live) (htb : Leftover tb) (ht : TableOk m tb)
    (G : GoodCfg cfg env) (hnd : ∀ s, (env.actions s).Nodup) (hB : ∀ s, (env.actions s).length ≤ B) (heps : 0 ≤ eps)
    (hit : ∀ v l, List.Perm (iter v l) l) (hobs : Transitions env obs po) (hpo : 0 ≤ po ∧ po ≤ 1)
    (hp : 1 / 10 ^ 16 ≤ softExplore cfg B N) (hdp : 0 ≤ m.maxDepth)
    (hk : 0 < k) (hsch : Productive env m (rents eps cfg lr) k s0 0 tm tb N sched) {n : Nat}
    (hn : (4 * (m.maxDepth - 0).toNat + 4) * N ≤ n) :
    1 - (plays env (m.maxDepth - 0).toNat s0).length * missBound (softExplore cfg B N * po) (m.maxDepth - 0).toNat N ≤
    probAfter env m (rents eps cfg lr) (rentsDice eps cfg iter obs) k s0 0 tm tb N sched n
      (fun st h => Finished N st h ∧ ∀ play ∈ plays env (m.maxDepth - 0).toNat s0, Explored st play) :=
  c77_everything_found (rents_valid eps cfg lr) htb ht (c95_rents_explores htb G hl hnd hB heps hit hobs hp) (c77_explore_range G.max1 hp) hpo hdp hk
    hsch hn

/-- C95.  Stochastic environments: with a probability that tends to 1, the value of the root of a TENTS search is the expected value under optimal
play up to half a temperature and a sampling error per move. -/
theorem c95_tents_stochastic {iter : View S A (Except TErr (TX A)) Soft → List (A × ℝ) → List (A × ℝ)} {K M : Nat} {V η : ℝ}
    (hl : env.Live) (hdec : cfg.decay = none) (hu : m.useTable = false) (htb : Leftover tb) (G : GoodCfg cfg env) (hnd : ∀ s, (env.actions s).Nodup)
    (hB : ∀ s, (env.actions s).length ≤ B) (heps : 0 ≤ eps) (hit : ∀ v l, List.Perm (iter v l) l) (hobs : Transitions env obs po)
    (hlr : ∀ s a, env.isSink s = false → a ∈ env.actions s → lr s a = Eval.mean1 (obs s a) fun o => env.reward s a o)
    (hp : 1 / 10 ^ 16 ≤ softExplore cfg B N) (hpo : 0 ≤ po ∧ po ≤ 1)
    (hV0 : 0 < V) (hV : ∀ n t s, n ≤ (m.maxDepth - dp).toNat → |expValue env m obs n t s| ≤ V) (hη0 : 0 < η) (hη : η ≤ V)
    (hK0 : 0 < K) (hK : ∀ s a, (env.succ s a).length ≤ K) (hM : 2 * K ≤ M) (hdp : dp ≤ m.maxDepth)
    (hk : 0 < k) (hsch : Productive env m (tents eps cfg env m lr) k s0 dp tm tb N sched) {n : Nat} (hn : (4 * (m.maxDepth - dp).toNat + 4) * N ≤ n) :
    1 - (plays env (m.maxDepth - dp).toNat s0).length *
      (rareBound (softExplore cfg B N * po) (m.maxDepth - dp).toNat M N + B * farBound V η M) ≤
    probAfter env m (tents eps cfg env m lr) (tentsDice eps cfg iter obs) k s0 dp tm tb N sched n (fun st h => Finished N st h ∧
      ∃ v, softD softOfX st st.root = some v ∧
        |v - expValue env m obs (remaining m dp) tm s0| ≤ remaining m dp * (cfg.temp / 2 + sampleError V η K M)) := by
  have hv := tents_valid eps cfg env m lr
  have ht : TableOk m tb := fun h => by rw [hu] at h; exact absurd h (by simp)
  have hX := c95_tents_explores (m := m) (lr := lr) (k := k) (s0 := s0) (dp := dp) (tm := tm) htb G hl hnd hB heps hit hobs hp
  have htemp : 0 < cfg.temp := by simpa [hdec] using G.temp
  refine le_trans (sampled_prob hl hv htb hu hX (c77_explore_range G.max1 hp) hpo hdp hB hV0 hV hη0 hη hk hsch hn) (prob_mono hv htb ht hX ?_)
  rintro st h hr ⟨h1, h2⟩
  obtain ⟨nr, g1, g2, g3, g4⟩ := root_node (reach_inv hv htb hr).tree
  refine ⟨h1, _, c95_sparse_value_of_tree G.total hnd hdec hu htb hr h1.1 g1, ?_⟩
  have := tents_close htemp hnd hl htb hu hr h1.1 hobs hlr hV0.le hV hη0.le hK0 hK hM h2 (remaining m dp) st.root nr g1 (by simp [remaining, g3])
  rwa [g3, ← g2, ← g4]

end

/-! ## Examples -/

/-- The configuration of the example of C77 with temperature 1/10. -/
noncomputable def tCfg : Cfg Unit Bool := { rCfg with temp := 1 / 10 }

theorem tGood : GoodCfg tCfg rEnv := by
  refine ⟨by norm_num [tCfg, rCfg], by norm_num [tCfg, rCfg], by norm_num [tCfg, rCfg], by norm_num [tCfg, rCfg], ?_, by simp [tCfg, rCfg], ?_, ?_, ?_⟩
  · simp only [tCfg, rCfg]; exact Real.log_nonneg (by norm_num)
  all_goals intro f hf; simp [tCfg, rCfg] at hf

/-- A TENTS search with 500 trials by three workers, under some schedule: with probability at least 0.999 everything has been tried and the value of
the root is within 0.1 of the value of the game, which is 2. -/
example : ∃ sched : Scheduler Unit Bool ℝ, 999 / 1000 ≤
    probAfter rEnv rMgr (tents 0 tCfg rEnv rMgr fun _ a => if a then 1 else 0) (tentsDice 0 tCfg (fun _ l => l) (certain fun _ _ => ()))
      3 () 0 0 [] 500 sched 6000 (fun st h => Finished 500 st h ∧ Exhausted rEnv rMgr st ∧ ∃ v, softD softOfX st st.root = some v ∧
        |v - 2| ≤ 1 / 10) := by
  have hdet : ∀ s a, a ∈ rEnv.actions s → rEnv.succ s a = [()] := fun _ _ _ => rfl
  have hl : rEnv.Live := ⟨by simp [rEnv], by simp [rEnv]⟩
  have hgv : gameValue rEnv rMgr (fun _ _ => ()) (remaining rMgr 0) 0 () = 2 := by
    norm_num [remaining, rMgr, gameValue, rEnv, bestOf, heurOf, isOpponent, show Int.toNat 2 = 2 from rfl, List.max?]
  have htb : Leftover ([] : List ((Int × Unit) × Option Nat)) := by simp [Leftover]
  have hexp : softExplore tCfg 2 500 = 1 / 4 := rExplore
  obtain ⟨sched, hsch⟩ := productive_exists (env := rEnv) (m := rMgr) (k := 3) (s0 := ()) (dp := 0) (tm := 0) (N := 500)
    (tents_valid 0 tCfg rEnv rMgr fun _ a => if a then 1 else 0) htb (by simp [TableOk, rMgr])
  refine ⟨sched, ?_⟩
  have := c95_tents_solves (cfg := tCfg) (eps := 0) (B := 2) (iter := fun _ l => l) (env := rEnv) (m := rMgr) (next := fun _ _ => ())
    (lr := fun _ a => if a then 1 else 0) (k := 3) (s0 := ()) (dp := 0) (tm := 0) (tb := []) (N := 500) (sched := sched)
    (n := 6000) hdet (fun _ _ _ => rfl) hl rfl htb tGood rfl (by simp [rEnv]) (by simp [rEnv]) le_rfl
    (fun _ l => List.Perm.refl l) (by rw [hexp]; norm_num) (by simp [rMgr]) (by norm_num) hsch (by simp [rMgr])
  rw [hexp, hgv, show ((remaining rMgr 0 : ℕ) : ℝ) * (tCfg.temp / 2) = 1 / 10 by
    rw [show remaining rMgr 0 = 2 from rfl]; norm_num [tCfg]] at this
  refine le_trans ?_ this
  have hlen : (plays rEnv (rMgr.maxDepth - 0).toNat ()).length = 7 := by
    rfl
  rw [hlen, show (rMgr.maxDepth - 0).toNat = 2 from rfl]
  have h1 : (2000 : ℝ) ≤ (33 / 32) ^ 249 := by norm_num
  have h2 : (4000000 : ℝ) ≤ (33 / 32) ^ 498 := by
    rw [show (498 : ℕ) = 249 * 2 from rfl, pow_mul]
    nlinarith
  have h3 : 4 / (33 / 32 : ℝ) ^ 498 ≤ 4 / 4000000 := div_le_div_of_nonneg_left (by norm_num) (by norm_num) h2
  have h4 : missBound (1 / 4) 2 500 = 4 / (33 / 32 : ℝ) ^ 498 := by norm_num [missBound]
  rw [h4]
  push_cast
  linarith

/-- The sparse maximum of 0 and 1 at temperature 4, computed from the bounds: between 1 and 3. -/
example : 1 ≤ sparseMax 4 (fun b : Bool => if b then 1 else 0) [false, true] ∧ sparseMax 4 (fun b : Bool => if b then (1 : ℝ) else 0) [false, true] ≤ 3 := by
  have := c95_sparse_maximum (temp := 4) (by norm_num) (Q := fun b : Bool => if b then (1 : ℝ) else 0) (l := [false, true]) (by simp) (M := 1)
    ⟨⟨true, by simp, by simp⟩, by rintro _ ⟨b, _, rfl⟩; cases b <;> norm_num⟩
  norm_num at this
  exact this

end Verif.Tents
