import Verif.Proofs.Measure
import Verif.Proofs.Defaults
import Verif.Props.Tree
import Verif.Props.Rollouts
import Verif.Props.Defaults
import Verif.Props.Stochastic

/-! # C111: evaluating a finished search measures the value of the game

`Evaluates`, `Measures` and what the nodes can recommend are defined in `Verif.Spec.Measure`. -/

namespace Verif.Random

open Verif.Search Verif.Spec Verif.Backups Verif.Eval

section
variable {S A X Y : Type} [DecidableEq S] [DecidableEq A] {env : Env S A ℝ} {m : Manager S ℝ} {alg : Alg S A ℝ X Y} {lr : S → A → ℝ}
  {k : Nat} {s0 : S} {dp tm : Int} {tb : List ((Int × S) × Option Nat)} {st : St S A ℝ X Y} {h : List (Event S A ℝ)} {L B : Nat} {next : S → A → S}

/-- A node that is not a sink is not a leaf, if episodes end before the depth limit. -/
theorem ends_leaf (hl : env.Live) (hv : alg.Valid) (htb : Leftover tb) (he : EndsWithin env L s0) (h1 : dp + L ≤ m.maxDepth)
    (hr : Reachable env m alg k s0 dp tm tb st h) {d : Nat} {nd : DNode S A ℝ X} (hd : st.dn[d]? = some nd) (hs : env.isSink nd.state = false) :
    isLeaf env m nd = false := by
  have h2 : dp + L ≤ max m.maxDepth (nd.depth + 1) := le_trans h1 (le_max_left _ _)
  rw [← ends_agree hl hv htb he h1 h2 hr d nd hd]
  have : ¬ max m.maxDepth (nd.depth + 1) ≤ nd.depth := by omega
  simp [isLeaf, withLimit, hs, this]

open Verif.Uct in
/-- C111.  Deterministic game, DP values, everything tried, no trial running: every rollout of every evaluation of the tree returns exactly the value
of the game, which is the value of the root; no rollout leaves the tree.  `adv` stands for the ways in which nodes recommend actions by DP value. -/
theorem c111_exact {px : X → Dp ℝ} {py : Y → Dp ℝ} (hdet : ∀ s a, a ∈ env.actions s → env.succ s a = [next s a])
    (hlr : ∀ s a, a ∈ env.actions s → lr s a = env.reward s a (next s a)) (hl : env.Live) (hv : alg.Valid) (H : HasDp alg px py lr)
    (hvis : ∀ x, alg.visitD false x = x) (hu : m.useTable = false) (htb : Leftover tb)
    (hr : Reachable env m alg k s0 dp tm tb st h) (hq : Quiescent st) (hx : Exhausted env m st)
    (he : EndsWithin env L s0) (hL : dp + L ≤ m.maxDepth) {low : ℝ} {threshold : Int} (ht : threshold ≤ 1)
    (hlow : ∀ n t s a, n < remaining m dp → env.isSink s = false → a ∈ env.actions s → low ≤ (if isOpponent m t then -1 else 1) *
      (env.reward s a (next s a) + gameValue env m next n (t + 1) (next s a)))
    {adv : DNode S A ℝ X → Nat → Option A → Prop}
    (hadv : ∀ nd raw oa, adv nd raw oa → ∃ iter, IterOk iter ∧ oa = recommendBestOrRandom low threshold (viewOf env m st nd).opp
      (viewOf env m st nd).actions ((viewOf env m st nd).kids.map fun k => (k.1, (py k.2.2).n, (py k.2.2).val.getD 0)) raw iter) :
    valD px st st.root = some (gameValue env m next (remaining m dp) tm s0) ∧
    Measures env s0 st adv (gameValue env m next (remaining m dp) tm s0) 0 := by
  have T := (reach_inv hv htb hr).tree
  obtain ⟨nr, g1, g2, g3, g4⟩ := root_node T
  refine ⟨(c67_exact_value hdet hlr hl.acts hv H hvis hu htb hr hq hx).1, ?_⟩
  let V : Nat → ℝ := fun e => (st.dn[e]?).elim 0 fun nd => gameValue env m next (remaining m nd.depth) nd.time nd.state
  have hV : ∀ (e : Nat) nd, st.dn[e]? = some nd → V e = gameValue env m next (remaining m nd.depth) nd.time nd.state := fun e nd he => by simp [V, he]
  have hroot : V st.root = gameValue env m next (remaining m dp) tm s0 := by rw [hV _ nr g1, g2, g3, g4]
  rw [← hroot, ← mul_zero (L : ℝ)]
  refine Guided.measures le_rfl he g1 g2 fun c p E => ?_
  obtain ⟨e1, e2, e3, _, _, e6⟩ := E
  subst e1 e2 e3
  refine ⟨fun e nd hd hs raw => ?_, fun e nd hd hs => ?_⟩
  · have hleaf := ends_leaf hl hv htb he hL hr hd hs
    have hdep : nd.depth < m.maxDepth := by simp [isLeaf] at hleaf; omega
    have hdep0 := (T.heap.dTime e nd.skel (by simp [hd])).2
    simp only [DNode.skel] at hdep0
    have hrem : remaining m nd.depth = remaining m (nd.depth + 1) + 1 := by unfold remaining; omega
    have hrem2 : remaining m (nd.depth + 1) < remaining m dp := by unfold remaining; omega
    obtain ⟨iter, hi, ho⟩ := hadv nd raw _ (e6 e nd raw hd)
    obtain ⟨a, k1, k2, k3⟩ := c67_recommends_optimal hdet hlr hl.acts hv H hvis hu htb hr hq hx hd hleaf ht
      (fun a ha => hlow _ _ _ a hrem2 hs ha) raw hi
    obtain ⟨c', hc'⟩ := hx e nd hd hleaf a k1
    obtain ⟨nd1, nc, d', nd', q1, q2, q3, q4, q5, q6, q7, q8, q9, q10⟩ := det_kid hdet hv htb hr hq hc'
    rw [hd] at q1
    obtain rfl := Option.some.inj q1
    refine ⟨a, next nd.state a, c', d', nd', k1, by rw [ho]; exact k2, hdet _ _ k1, hc', childD_of_mem T q2 (by rw [q6]; simp), q7, q8, ?_⟩
    rw [hV _ _ q7, hV _ _ hd, q8, q9, q10, hrem]
    simp only [gameValue, hs, Bool.false_eq_true, if_false]
    rw [bestOf_eq (v := c.env.reward nd.state a (next nd.state a) +
      gameValue c.env m next (remaining m (nd.depth + 1)) (nd.time + 1) (next nd.state a))]
    · simp
    · have hset : {x | x ∈ (c.env.actions nd.state).map fun b => c.env.reward nd.state b (next nd.state b) +
          gameValue c.env m next (remaining m (nd.depth + 1)) (nd.time + 1) (next nd.state b)} =
          {x | ∃ b ∈ c.env.actions nd.state, c.env.reward nd.state b (next nd.state b) +
          gameValue c.env m next (remaining m (nd.depth + 1)) (nd.time + 1) (next nd.state b) = x} := by
        ext x
        simp [List.mem_map]
      rw [hset]
      exact k3
  · rw [hV _ _ hd]
    cases remaining m nd.depth with
    | zero =>
      simp only [gameValue, heurOf, hs, if_true]
      cases m.heuristic <;> rfl
    | succ n => simp [gameValue, hs]

open Verif.Uct Verif.Ments in
/-- C111.  MENTS at a constant temperature, deterministic game, everything tried, no trial running: every rollout returns the value of the game up to
`2 * temp * log B` for every move and every move still to go. -/
theorem c111_soft {px : X → Soft} {py : Y → Soft} {cfg : Cfg S A} (hdet : ∀ s a, a ∈ env.actions s → env.succ s a = [next s a])
    (hlr : ∀ s a, a ∈ env.actions s → lr s a = env.reward s a (next s a)) (hl : env.Live) (hv : alg.Valid) (H : HasSoft alg px py cfg lr)
    (hp : PriorTotal cfg env) (hdec : cfg.decay = none) (htemp : 0 < cfg.temp)
    (hvis : ∀ x, alg.visitD false x = x) (hu : m.useTable = false) (htb : Leftover tb)
    (hr : Reachable env m alg k s0 dp tm tb st h) (hq : Quiescent st) (hx : Exhausted env m st) (hB0 : 0 < B) (hB : ∀ s, (env.actions s).length ≤ B)
    (he : EndsWithin env L s0) (hL : dp + L ≤ m.maxDepth) (ht : cfg.threshold ≤ 1)
    (hlow : ∀ n t s a, n < remaining m dp → env.isSink s = false → a ∈ env.actions s → cfg.low + n * (cfg.temp * Real.log B) ≤
      sgn (isOpponent m t) * (env.reward s a (next s a) + gameValue env m next n (t + 1) (next s a)))
    {adv : DNode S A ℝ X → Nat → Option A → Prop}
    (hadv : ∀ nd raw oa, adv nd raw oa → ∃ iter, IterOk iter ∧
      recommendSoft cfg (mentsQ cfg py (viewOf env m st nd)) (viewOf env m st nd) raw iter = .ok oa) :
    Measures env s0 st adv (gameValue env m next (remaining m dp) tm s0) (L * (2 * (remaining m dp * (cfg.temp * Real.log B)))) := by
  have T := (reach_inv hv htb hr).tree
  obtain ⟨nr, g1, g2, g3, g4⟩ := root_node T
  have hlog : 0 ≤ cfg.temp * Real.log B := mul_nonneg htemp.le (Real.log_nonneg (by exact_mod_cast hB0))
  let V : Nat → ℝ := fun e => (st.dn[e]?).elim 0 fun nd => gameValue env m next (remaining m nd.depth) nd.time nd.state
  have hV : ∀ (e : Nat) nd, st.dn[e]? = some nd → V e = gameValue env m next (remaining m nd.depth) nd.time nd.state := fun e nd he => by simp [V, he]
  have hroot : V st.root = gameValue env m next (remaining m dp) tm s0 := by rw [hV _ nr g1, g2, g3, g4]
  rw [← hroot]
  refine Guided.measures (by positivity) he g1 g2 fun c p E => ?_
  obtain ⟨e1, e2, e3, _, _, e6⟩ := E
  subst e1 e2 e3
  refine ⟨fun e nd hd hs raw => ?_, fun e nd hd hs => ?_⟩
  · have hleaf := ends_leaf hl hv htb he hL hr hd hs
    have hdep : nd.depth < m.maxDepth := by simp [isLeaf] at hleaf; omega
    have hdep0 := (T.heap.dTime e nd.skel (by simp [hd])).2
    simp only [DNode.skel] at hdep0
    have hrem : remaining m nd.depth = remaining m (nd.depth + 1) + 1 := by unfold remaining; omega
    have hrem2 : remaining m (nd.depth + 1) < remaining m dp := by unfold remaining; omega
    obtain ⟨iter, hi, ho⟩ := hadv nd raw _ (e6 e nd raw hd)
    obtain ⟨a, k1, k2, k3⟩ := c68_recommends_near_optimal hdet hlr hl.acts hv H hp hdec htemp hvis hu htb hr hq hx hB hd hleaf ht
      (fun a ha => hlow _ _ _ a hrem2 hs ha) raw hi
    obtain ⟨c', hc'⟩ := hx e nd hd hleaf a k1
    obtain ⟨nd1, nc, d', nd', q1, q2, q3, q4, q5, q6, q7, q8, q9, q10⟩ := det_kid hdet hv htb hr hq hc'
    rw [hd] at q1
    obtain rfl := Option.some.inj q1
    have hadvice : c.advise e raw = some a := by
      rw [k2] at ho
      exact (Except.ok.inj ho).symm
    refine ⟨a, next nd.state a, c', d', nd', k1, hadvice, hdet _ _ k1, hc', childD_of_mem T q2 (by rw [q6]; simp), q7, q8, ?_⟩
    rw [hV _ _ q7, hV _ _ hd, q8, q9, q10, hrem]
    simp only [gameValue, hs, Bool.false_eq_true, if_false]
    have hne : ((c.env.actions nd.state).map fun b => c.env.reward nd.state b (next nd.state b) +
        gameValue c.env m next (remaining m (nd.depth + 1)) (nd.time + 1) (next nd.state b)) ≠ [] := by simpa using hl.acts _ hs
    obtain ⟨b1, b2⟩ := bestOf_spec (opp := isOpponent m nd.time) hne
    obtain ⟨b, hb, hbe⟩ := List.mem_map.1 b1
    have t1 := k3 b hb
    have t2 := b2 _ (List.mem_map.2 ⟨a, k1, rfl⟩)
    rw [← hbe] at t2 ⊢
    have hle : (remaining m (nd.depth + 1) : ℝ) * (cfg.temp * Real.log B) ≤ remaining m dp * (cfg.temp * Real.log B) :=
      mul_le_mul_of_nonneg_right (by exact_mod_cast hrem2.le) hlog
    rw [abs_le]
    unfold sgn at t1
    by_cases ho : isOpponent m nd.time = true
    · simp only [ho, if_true] at t1 t2
      constructor <;> linarith
    · simp only [ho, Bool.false_eq_true, if_false] at t1 t2
      constructor <;> linarith
  · rw [hV _ _ hd]
    cases remaining m nd.depth with
    | zero =>
      simp only [gameValue, heurOf, hs, if_true]
      cases m.heuristic <;> rfl
    | succ n => simp [gameValue, hs]

theorem mem_results {h : List (EEvent S A ℝ)} {x : ℝ} (hx : x ∈ results h) : ∃ t i, .finished t i x ∈ h := by
  induction h with
  | nil => simp [results] at hx
  | cons e h ih =>
    cases e with
    | finished t i r =>
      rcases List.mem_append.1 hx with hx | hx
      · obtain ⟨t, i, hi⟩ := ih hx
        exact ⟨t, i, List.mem_cons_of_mem _ hi⟩
      · rw [List.mem_singleton] at hx
        exact ⟨t, i, by rw [hx]; exact List.mem_cons_self ..⟩
    | _ =>
      obtain ⟨t, i, hi⟩ := ih hx
      exact ⟨t, i, List.mem_cons_of_mem _ hi⟩

/-- C111.  So when `run_rollouts` has returned, the mean return is within the same bound of the value. -/
theorem c111_mean {adv : DNode S A ℝ X → Nat → Option A → Prop} {v ε : ℝ} (hM : Measures env s0 st adv v ε) {c : ECfg S A ℝ X Y} {p : Policy}
    (E : Evaluates env s0 st adv c p) (hT : 1 ≤ c.threads) (hR : 1 ≤ c.rollouts) {es : EState S ℝ} {h : List (EEvent S A ℝ)}
    (hr : EReach c p [] es h) (hd : allDone c es) : |meanReturn es.returns - v| ≤ ε := by
  obtain ⟨_, _, h3⟩ := hM c p E [] es h hr
  have hlen := (c47_exact_count hT hr hd).2
  rw [List.length_nil, zero_add] at hlen
  have hne : es.returns ≠ [] := by
    intro h0
    rw [h0] at hlen
    simp at hlen
    omega
  have hall : ∀ x ∈ es.returns, |x - v| ≤ ε := by
    intro x hx
    rw [(c47_each_once hr).1, List.nil_append] at hx
    obtain ⟨t, i, hi⟩ := mem_results hx
    exact h3 t i x hi
  have hsum : ∀ l : List ℝ, (∀ x ∈ l, |x - v| ≤ ε) → |l.sum - l.length * v| ≤ l.length * ε := by
    intro l
    induction l with
    | nil => simp
    | cons x l ih =>
      intro hl
      have h1 := hl x (by simp)
      have h2 := ih fun y hy => hl y (by simp [hy])
      rw [List.sum_cons, List.length_cons]
      push_cast
      have : x + l.sum - (l.length + 1) * v = (x - v) + (l.sum - l.length * v) := by ring
      rw [this]
      refine le_trans (abs_add_le _ _) ?_
      linarith
  have hpos : (0 : ℝ) < es.returns.length := by exact_mod_cast List.length_pos_iff.2 hne
  rw [c49_mean hne, Eval.mean]
  have := hsum _ hall
  have e : es.returns.sum / es.returns.length - v = (es.returns.sum - es.returns.length * v) / es.returns.length := by field_simp
  rw [e, abs_div, abs_of_pos hpos, div_le_iff₀ hpos]
  linarith

/-- C111.  And if every rollout returns exactly `v`, the mean is `v` and, with at least two rollouts, the deviation is zero. -/
theorem c111_mean_exact {adv : DNode S A ℝ X → Nat → Option A → Prop} {v : ℝ} (hM : Measures env s0 st adv v 0) {c : ECfg S A ℝ X Y} {p : Policy}
    (E : Evaluates env s0 st adv c p) (hT : 1 ≤ c.threads) (hR : 1 ≤ c.rollouts) {es : EState S ℝ} {h : List (EEvent S A ℝ)}
    (hr : EReach c p [] es h) (hd : allDone c es) : meanReturn es.returns = v ∧ (2 ≤ c.rollouts → stddevReturn es.returns = some 0) := by
  have hmean : meanReturn es.returns = v := by
    have := c111_mean hM E hT hR hr hd
    have := abs_nonpos_iff.1 this
    linarith
  refine ⟨hmean, fun h2 => ?_⟩
  obtain ⟨_, _, h3⟩ := hM c p E [] es h hr
  have hlen := (c47_exact_count hT hr hd).2
  rw [List.length_nil, zero_add] at hlen
  have hall : ∀ x ∈ es.returns, x = v := by
    intro x hx
    rw [(c47_each_once hr).1, List.nil_append] at hx
    obtain ⟨t, i, hi⟩ := mem_results hx
    have := abs_nonpos_iff.1 (h3 t i x hi)
    linarith
  have hn1 : es.returns.length ≠ 1 := by omega
  unfold stddevReturn
  rw [if_neg hn1, hmean]
  congr 1
  generalize 1 / ((es.returns.length : ℝ) - 1) = w
  have key : ∀ l : List ℝ, (∀ x ∈ l, x = v) → l.foldl (fun sd val => sd + w * (val - v) ^ 2) 0 = 0 := by
    intro l
    induction l with
    | nil => intro _; rfl
    | cons x l ih =>
      intro hl
      rw [List.foldl_cons, hl x (by simp)]
      simpa using ih fun y hy => hl y (by simp [hy])
  exact key _ hall

end

section
variable {S A X Y : Type} [DecidableEq S] [DecidableEq A] {env : Env S A ℝ} {m : Manager S ℝ} {alg : Alg S A ℝ X Y} {lr : S → A → ℝ}
  {k : Nat} {s0 : S} {dp tm : Int} {tb : List ((Int × S) × Option Nat)} {L B N n : Nat} {next : S → A → S} {D : Dice S A ℝ X Y} {pa po r : ℝ}
  {sched : Scheduler S A ℝ}

open Verif.Uct in
/-- C111.  A random search of a deterministic game whose episodes end, with DP values and exploration, has such a tree at its end with at least this
probability. -/
theorem c111_search {px : X → Dp ℝ} {py : Y → Dp ℝ} (hdet : ∀ s a, a ∈ env.actions s → env.succ s a = [next s a])
    (hlr : ∀ s a, a ∈ env.actions s → lr s a = env.reward s a (next s a)) (hl : env.Live) (hv : alg.Valid) (H : HasDp alg px py lr)
    (hvis : ∀ x, alg.visitD false x = x) (hu : m.useTable = false) (htb : Leftover tb)
    (hX : Explores env m alg D k s0 dp tm tb N pa po) (hpa : 0 ≤ pa ∧ pa ≤ 1) (hpo : 0 ≤ po ∧ po ≤ 1)
    (he : EndsWithin env L s0) (hL : dp + L ≤ m.maxDepth) {low : ℝ} {threshold : Int} (ht : threshold ≤ 1)
    (hlow : ∀ n t s a, n < remaining m dp → env.isSink s = false → a ∈ env.actions s → low ≤ (if isOpponent m t then -1 else 1) *
      (env.reward s a (next s a) + gameValue env m next n (t + 1) (next s a)))
    {adv : St S A ℝ X Y → DNode S A ℝ X → Nat → Option A → Prop}
    (hadv : ∀ st nd raw oa, adv st nd raw oa → ∃ iter, IterOk iter ∧ oa = recommendBestOrRandom low threshold (viewOf env m st nd).opp
      (viewOf env m st nd).actions ((viewOf env m st nd).kids.map fun k => (k.1, (py k.2.2).n, (py k.2.2).val.getD 0)) raw iter)
    (hk : 0 < k) (hsch : Productive env m alg k s0 dp tm tb N sched) (hn : (4 * (m.maxDepth - dp).toNat + 4) * N ≤ n) :
    1 - (plays env (m.maxDepth - dp).toNat s0).length * missBound (pa * po) (m.maxDepth - dp).toNat N ≤
    probAfter env m alg D k s0 dp tm tb N sched n (fun st h => Finished N st h ∧
      valD px st st.root = some (gameValue env m next (remaining m dp) tm s0) ∧
      Measures env s0 st (adv st) (gameValue env m next (remaining m dp) tm s0) 0) := by
  have htab : TableOk m tb := fun h => by rw [hu] at h; exact absurd h (by simp)
  refine le_trans (c77_exhausts hl hv htb htab hX hpa hpo (by omega) hk hsch hn) (prob_mono hv htb htab hX ?_)
  rintro st h hr ⟨h1, h2⟩
  exact ⟨h1, c111_exact hdet hlr hl hv H hvis hu htb hr h1.1 h2 he hL ht hlow (hadv st)⟩

theorem Plain.low_all (P : Plain env next s0 L B r) (Df : Default (A := A) m) {c : ℝ} (hc : c = 1 ∨ c = -1) {n : Nat} (hn : n < L) {t : Int} {s : S}
    {a : A} (ha : a ∈ env.actions s) : -(2 ^ 1023) ≤ c * (env.reward s a (next s a) + gameValue env m next n t (next s a)) := by
  have hr := P.reward s a ha
  have h0 : 0 ≤ r := le_trans (abs_nonneg _) hr
  have hv := value_bounded (next := next) P.live (Df.heur env) P.reward h0 n t (next s a)
  have hnL : ((n : ℝ) + 1) * r ≤ L * r := mul_le_mul_of_nonneg_right (by exact_mod_cast hn) h0
  have hsum : |env.reward s a (next s a) + gameValue env m next n t (next s a)| ≤ 2 ^ 1023 := by
    refine le_trans (abs_add_le _ _) ?_
    have := P.finite
    linarith
  have := abs_le.1 hsum
  rcases hc with rfl | rfl <;> linarith

open Verif.Uct in
theorem plain_search {px : X → Dp ℝ} {py : Y → Dp ℝ} (Df : Default (A := A) m) (P : Plain env next s0 L B r)
    (hlr : ∀ s a, a ∈ env.actions s → lr s a = env.reward s a (next s a)) (hv : alg.Valid) (H : HasDp alg px py lr)
    (hvis : ∀ x, alg.visitD false x = x) (hX : Explores env (withLimit m L) alg D k s0 0 0 [] N pa 1) (hpa : 1 / (44 * B : ℝ) ≤ pa) (hpa1 : pa ≤ 1)
    {threshold : Int} (ht : threshold ≤ 1) {adv : St S A ℝ X Y → DNode S A ℝ X → Nat → Option A → Prop}
    (hadv : ∀ st nd raw oa, adv st nd raw oa → ∃ iter, IterOk iter ∧ oa = recommendBestOrRandom Managers.lowest threshold (viewOf env m st nd).opp
      (viewOf env m st nd).actions ((viewOf env m st nd).kids.map fun k => (k.1, (py k.2.2).n, (py k.2.2).val.getD 0)) raw iter)
    (hk : 0 < k) (hsch : Productive env m alg k s0 0 0 [] N sched) (hn : (4 * L + 4) * N ≤ n) :
    1 - (plays env L s0).length * missBound (1 / (44 * B)) L N ≤
    probAfter env m alg D k s0 0 0 [] N sched n (fun st h => Finished N st h ∧
      valD px st st.root = some (gameValue env m next L 0 s0) ∧ Measures env s0 st (adv st) (gameValue env m next L 0 s0) 0) := by
  have hl := P.live
  have htb : Leftover ([] : List ((Int × S) × Option Nat)) := by simp [Leftover]
  have h1 : (0 : Int) + L ≤ m.maxDepth := by have := P.short; rw [Df.depth]; omega
  have e1 : ((withLimit m L).maxDepth - 0).toNat = L := by simp [withLimit]
  have e2 : remaining (withLimit m L) 0 = L := by simp [remaining, withLimit]
  have h0 : (0 : ℝ) ≤ 1 / (44 * B : ℝ) := by positivity
  rw [← c110_limit_prob hl hv htb P.ends h1 (by omega : (0 : Int) + L ≤ L)]
  have hsch' := (c110_limit_productive hl hv htb P.ends h1 (by omega : (0 : Int) + L ≤ L)).2 hsch
  have key := c111_search (m := withLimit m L) (low := Managers.lowest) (adv := adv) (n := n) P.det hlr hl hv H hvis Df.table htb hX ⟨le_trans h0 hpa, hpa1⟩
    ⟨zero_le_one, le_rfl⟩ P.ends (by simp [withLimit]) ht (fun n t s a hn _ ha => by
      rw [e2] at hn
      rw [value_limit]
      exact le_trans lowest_le (P.low_all Df (c := if isOpponent (withLimit m L) t then -1 else 1) (by split <;> simp) hn ha)) hadv hk hsch'
    (by rw [e1]; exact hn)
  rw [e1, mul_one] at key
  simp only [value_limit, e2] at key
  refine le_trans ?_ key
  have h2 := missBound_anti h0 hpa L N
  have h3 : (0 : ℝ) ≤ (plays env L s0).length := by positivity
  have := mul_le_mul_of_nonneg_left h2 h3
  linarith

open Verif.Ments Verif.Dents Verif.Managers

/-- C111.  DB-MENTS with its default settings, any number of workers, `N` trials: with probability at least one minus an explicit bound every rollout of
every evaluation of the tree returns exactly the value of the root, which is the value of the game. -/
theorem c111_dbments {cfg : Ments.Cfg S A} {r eps : ℝ} {iter : View S A DB DB → List (A × ℝ) → List (A × ℝ)}
    (hm : mentsManager mentsArgs = some (m, cfg)) (P : Plain env next s0 L B r) (hlr : ∀ s a, a ∈ env.actions s → lr s a = env.reward s a (next s a))
    (hB : B ≤ 10 ^ 14) (heps : 0 ≤ eps) (hit : ∀ v l, List.Perm (iter v l) l) (hk : 0 < k) (hN1 : 1 ≤ N) (hN : N < 2 ^ 31)
    (hsch : Productive env m (dbments eps cfg lr) k s0 0 0 [] N sched) (hn : (4 * L + 4) * N ≤ n) :
    1 - (plays env L s0).length * missBound (1 / (44 * B)) L N ≤
    probAfter env m (dbments eps cfg lr) (softDice eps cfg (mentsQ cfg DB.soft) iter (certain next)) k s0 0 0 [] N sched n
      (fun st h => Finished N st h ∧ valD DB.dp st st.root = some (gameValue env m next L 0 s0) ∧
        Measures env s0 st (SaysDB cfg env m st DB.dp) (gameValue env m next L 0 s0) 0) := by
  obtain ⟨Df, C⟩ := ments_default hm
  have hp := C.explores P.pos hN1 hN
  have htb : Leftover ([] : List ((Int × S) × Option Nat)) := by simp [Leftover]
  have hX := c77_dbments_explores (m := withLimit m L) (lr := lr) (k := k) (s0 := s0) (dp := 0) (tm := 0) (N := N) (eps := eps) (iter := iter) htb (C.good env) P.live P.nodup P.few
    heps hit (certain_ok P.det) (cutoff P.pos hB hp)
  refine plain_search Df P hlr (dbments_valid eps cfg lr) (dbments_hasDp eps cfg lr) (fun x => rfl) hX hp
    (c77_explore_range (C.good env).max1 (cutoff P.pos hB hp)).2 (threshold := cfg.threshold) (by rw [C.threshold]; norm_num) ?_ hk hsch hn
  rintro st nd raw oa ⟨lowI, iter', iterI, hi, ho⟩
  refine ⟨iter', hi, ?_⟩
  rw [ho]
  simp only [recommendDB, C.most, C.low, Bool.false_eq_true, if_false]

/-- C111.  DENTS with its default settings, any number of workers, `N` trials: with probability at least one minus an explicit bound every rollout of
every evaluation of the tree returns exactly the value of the root, which is the value of the game. -/
theorem c111_dents {cfg : DCfg S A} {r eps : ℝ} {iter : View S A DX DY → List (A × ℝ) → List (A × ℝ)}
    (hm : dentsManager dentsArgs = some (m, cfg)) (P : Plain env next s0 L B r) (hlr : ∀ s a, a ∈ env.actions s → lr s a = env.reward s a (next s a))
    (hB : B ≤ 10 ^ 14) (heps : 0 ≤ eps) (hit : ∀ v l, List.Perm (iter v l) l) (hk : 0 < k) (hN1 : 1 ≤ N) (hN : N < 2 ^ 31)
    (hsch : Productive env m (dents eps cfg env m lr) k s0 0 0 [] N sched) (hn : (4 * L + 4) * N ≤ n) :
    1 - (plays env L s0).length * missBound (1 / (44 * B)) L N ≤
    probAfter env m (dents eps cfg env m lr) (softDice eps cfg.toCfg (dentsQ cfg) iter (certain next)) k s0 0 0 [] N sched n
      (fun st h => Finished N st h ∧ valD DX.dp st st.root = some (gameValue env m next L 0 s0) ∧
        Measures env s0 st (SaysDents cfg env m st) (gameValue env m next L 0 s0) 0) := by
  obtain ⟨Df, C, hdp⟩ := dents_default hm
  have hp := C.explores P.pos hN1 hN
  have htb : Leftover ([] : List ((Int × S) × Option Nat)) := by simp [Leftover]
  have hX := c77_dents_explores (m := withLimit m L) (lr := lr) (k := k) (s0 := s0) (dp := 0) (tm := 0) (N := N) (eps := eps) (iter := iter) htb (C.good env) P.live P.nodup P.few
    heps hit (certain_ok P.det) (cutoff P.pos hB hp)
  refine plain_search Df P hlr (dents_valid eps cfg env m lr) (dents_hasDp eps env m lr hdp) (fun x => rfl) hX hp
    (c77_explore_range (C.good env).max1 (cutoff P.pos hB hp)).2 (threshold := cfg.toCfg.threshold) (by rw [C.threshold]; norm_num) ?_ hk hsch hn
  rintro st nd raw oa ⟨lowI, iter', iterI, hi, ho⟩
  refine ⟨iter', hi, ?_⟩
  rw [ho]
  simp only [recommendDents, recommendDB, C.most, C.low, Bool.false_eq_true, if_false, hdp, if_true]

/-- C111.  EST with its default settings, any number of workers, `N` trials: with probability at least one minus an explicit bound every rollout of
every evaluation of the tree returns exactly the value of the root, which is the value of the game. -/
theorem c111_est {cfg : DCfg S A} {r eps : ℝ} {iter : View S A DX DY → List (A × ℝ) → List (A × ℝ)}
    (hm : dentsManager dentsArgs = some (m, cfg)) (P : Plain env next s0 L B r) (hlr : ∀ s a, a ∈ env.actions s → lr s a = env.reward s a (next s a))
    (hB : B ≤ 10 ^ 14) (heps : 0 ≤ eps) (hit : ∀ v l, List.Perm (iter v l) l) (hk : 0 < k) (hN1 : 1 ≤ N) (hN : N < 2 ^ 31)
    (hsch : Productive env m (est eps cfg env m lr) k s0 0 0 [] N sched) (hn : (4 * L + 4) * N ≤ n) :
    1 - (plays env L s0).length * missBound (1 / (44 * B)) L N ≤
    probAfter env m (est eps cfg env m lr) (softDice eps cfg.toCfg (estQ cfg) iter (certain next)) k s0 0 0 [] N sched n
      (fun st h => Finished N st h ∧ valD DX.dp st st.root = some (gameValue env m next L 0 s0) ∧
        Measures env s0 st (SaysDents cfg env m st) (gameValue env m next L 0 s0) 0) := by
  obtain ⟨Df, C, hdp⟩ := dents_default hm
  have hp := C.explores P.pos hN1 hN
  have htb : Leftover ([] : List ((Int × S) × Option Nat)) := by simp [Leftover]
  have hX := c77_est_explores (m := withLimit m L) (lr := lr) (k := k) (s0 := s0) (dp := 0) (tm := 0) (N := N) (eps := eps) (iter := iter) htb (C.good env) P.live P.nodup P.few
    heps hit (certain_ok P.det) (cutoff P.pos hB hp)
  refine plain_search Df P hlr (est_valid eps cfg env m lr) (est_hasDp eps env m lr hdp) (fun x => rfl) hX hp
    (c77_explore_range (C.good env).max1 (cutoff P.pos hB hp)).2 (threshold := cfg.toCfg.threshold) (by rw [C.threshold]; norm_num) ?_ hk hsch hn
  rintro st nd raw oa ⟨lowI, iter', iterI, hi, ho⟩
  refine ⟨iter', hi, ?_⟩
  rw [ho]
  simp only [recommendDents, recommendDB, C.most, C.low, Bool.false_eq_true, if_false, hdp, if_true]

/-- C111.  MENTS with its default settings (temperature 1), any number of workers, `N` trials: with probability at least one minus an explicit bound
every rollout of every evaluation of the tree returns the value of the game up to `2 * L * log B` for each of the `L` moves. -/
theorem c111_ments {cfg : Ments.Cfg S A} {r eps : ℝ} {iter : View S A Soft Soft → List (A × ℝ) → List (A × ℝ)}
    (hm : mentsManager mentsArgs = some (m, cfg)) (P : Plain env next s0 L B r) (hlr : ∀ s a, a ∈ env.actions s → lr s a = env.reward s a (next s a))
    (hB : B ≤ 10 ^ 14) (heps : 0 ≤ eps) (hit : ∀ v l, List.Perm (iter v l) l) (hk : 0 < k) (hN1 : 1 ≤ N) (hN : N < 2 ^ 31)
    (hsch : Productive env m (ments eps cfg lr) k s0 0 0 [] N sched) (hn : (4 * L + 4) * N ≤ n) :
    1 - (plays env L s0).length * missBound (1 / (44 * B)) L N ≤
    probAfter env m (ments eps cfg lr) (softDice eps cfg (mentsQ cfg id) iter (certain next)) k s0 0 0 [] N sched n
      (fun st h => Finished N st h ∧ Measures env s0 st (SaysMents cfg env m st) (gameValue env m next L 0 s0) (L * (2 * (L * Real.log B)))) := by
  obtain ⟨Df, C⟩ := ments_default hm
  have hl := P.live
  have hv := ments_valid (S := S) eps cfg lr
  have htb : Leftover ([] : List ((Int × S) × Option Nat)) := by simp [Leftover]
  have h1 : (0 : Int) + L ≤ m.maxDepth := by have := P.short; rw [Df.depth]; omega
  have hp := C.explores P.pos hN1 hN
  have e1 : ((withLimit m L).maxDepth - 0).toNat = L := by simp [withLimit]
  have e2 : remaining (withLimit m L) 0 = L := by simp [remaining, withLimit]
  have htab : TableOk (withLimit m L) ([] : List ((Int × S) × Option Nat)) := fun h => by rw [show (withLimit m L).useTable = m.useTable from rfl, Df.table] at h; exact absurd h (by simp)
  have h0 : (0 : ℝ) ≤ 1 / (44 * B : ℝ) := by positivity
  have hpos := P.pos
  have hlog0 : 0 ≤ Real.log B := Real.log_nonneg (by exact_mod_cast hpos)
  have hlogB : Real.log B ≤ 10 ^ 14 := le_trans (Real.log_le_self (by positivity)) (by exact_mod_cast hB)
  have hroom : ∀ n : Nat, n < L → cfg.low + n * (cfg.temp * Real.log B) ≤ -(2 ^ 1023) := by
    intro n hn
    rw [C.low, C.temp, one_mul]
    have hL' : (n : ℝ) ≤ 2 ^ 31 := by
      have := P.short
      have h' : (n : Int) ≤ 2 ^ 31 := by omega
      exact_mod_cast h'
    have h3 : (n : ℝ) * Real.log B ≤ 2 ^ 31 * 10 ^ 14 := mul_le_mul hL' hlogB hlog0 (by positivity)
    have h4 : (2 : ℝ) ^ 31 * 10 ^ 14 ≤ 2 ^ 971 := le_trans (by norm_num : (2 : ℝ) ^ 31 * 10 ^ 14 ≤ 2 ^ 80) (pow_le_pow_right₀ (by norm_num) (by norm_num))
    have h5 : 2 * (2 : ℝ) ^ 971 ≤ 2 ^ 1023 := by
      have : (2 : ℝ) ^ 972 ≤ 2 ^ 1023 := pow_le_pow_right₀ (by norm_num) (by norm_num)
      rwa [show (972 : Nat) = 971 + 1 from rfl, pow_succ, mul_comm] at this
    unfold lowest
    rw [show (1024 : Nat) = 1023 + 1 from rfl, pow_succ]
    generalize (2 : ℝ) ^ 971 = x at h4 h5 ⊢
    generalize (2 : ℝ) ^ 1023 = y at h5 ⊢
    linarith
  rw [← c110_limit_prob hl hv htb P.ends h1 (by omega : (0 : Int) + L ≤ L)]
  have hsch' := (c110_limit_productive hl hv htb P.ends h1 (by omega : (0 : Int) + L ≤ L)).2 hsch
  have hX := c77_ments_explores (m := withLimit m L) (lr := lr) (k := k) (s0 := s0) (dp := 0) (tm := 0) (N := N) (eps := eps) (iter := iter) htb (C.good env)
    P.live P.nodup P.few heps hit (certain_ok P.det) (cutoff P.pos hB hp)
  have hpa := c77_explore_range (C.good env).max1 (cutoff P.pos hB hp)
  have key := c77_exhausts (n := n) hl hv htb htab hX hpa ⟨zero_le_one, le_rfl⟩ (by simp [withLimit]) hk hsch' (by rw [e1]; exact hn)
  rw [e1, mul_one] at key
  refine le_trans ?_ (le_trans key (prob_mono hv htb htab hX ?_))
  · have h2 := missBound_anti h0 hp L N
    have h3 : (0 : ℝ) ≤ (plays env L s0).length := by positivity
    have := mul_le_mul_of_nonneg_left h2 h3
    linarith
  · rintro st h hr ⟨q1, q2⟩
    refine ⟨q1, ?_⟩
    have := c111_soft (m := withLimit m L) (dp := 0) (B := B) (L := L) (adv := SaysMents cfg env m st) P.det hlr hl hv (ments_hasSoft eps cfg lr) (C.good env).total C.decay
      (by rw [C.temp]; norm_num) (fun x => rfl) Df.table htb hr q1.1 q2 hpos P.few P.ends (by simp [withLimit]) (by rw [C.threshold]; norm_num)
      (fun n t s a hn hs ha => by
        rw [e2] at hn
        rw [value_limit]
        exact le_trans (hroom n hn) (P.low_all Df (c := sgn (isOpponent (withLimit m L) t)) (by unfold sgn; split <;> simp) hn ha))
      (fun nd raw oa ha => by
        obtain ⟨lowI, iter', iterI, hi, ho⟩ := ha
        refine ⟨iter', hi, ?_⟩
        simp only [recommend, C.most, Bool.false_eq_true, if_false] at ho
        exact ho)
    rw [e2, value_limit, C.temp, one_mul] at this
    exact this

end

/-! ## Example -/

/-- The evaluation of the tree `st` of a DENTS search of the example: three threads, five rollouts. -/
noncomputable def twoEval (m : Manager Nat ℝ) (cfg : Dents.DCfg Nat Bool) (st : St Nat Bool ℝ Dents.DX Dents.DY) : ECfg Nat Bool ℝ Dents.DX Dents.DY :=
  { env := twoMoves, tree := st, advise := fun d raw => (st.dn[d]?).bind fun nd => Dents.recommendDents cfg 0 (viewOf twoMoves m st nd) raw id id,
    init := 0, threads := 3, rollouts := 5, maxLen := 100, keepsCtx := true }

open Verif.Ments Verif.Dents in
theorem twoEval_evaluates (m : Manager Nat ℝ) (cfg : DCfg Nat Bool) (st : St Nat Bool ℝ DX DY) :
    Evaluates twoMoves 0 st (SaysDents cfg twoMoves m st) (twoEval m cfg st) (newPolicy st.root) := by
  refine ⟨rfl, rfl, rfl, rfl, by simp [twoEval], fun d nd raw hd => ⟨0, id, id, fun _ _ => Iff.rfl, ?_⟩⟩
  simp [twoEval, hd]

open Verif.Ments Verif.Dents Verif.Managers in
/-- DENTS with its default settings, four workers and a hundred million trials of a game of two moves: with probability at least 0.99, whenever an
evaluation with three threads of the tree has finished its five rollouts, the mean return is 2, the value of the game, and the deviation is 0. -/
example : ∃ (m : Manager Nat ℝ) (cfg : DCfg Nat Bool) (sched : Scheduler Nat Bool ℝ), dentsManager dentsArgs = some (m, cfg) ∧ 99 / 100 ≤
    probAfter twoMoves m (dents 0 cfg twoMoves m fun _ a => if a then 1 else 0) (softDice 0 cfg.toCfg (dentsQ cfg) (fun _ l => l) (certain fun s _ => s + 1))
      4 0 0 0 [] (10 ^ 8 + 2) sched (12 * (10 ^ 8 + 2)) (fun st _ => ∀ es h, EReach (twoEval m cfg st) (newPolicy st.root) [] es h →
        allDone (twoEval m cfg st) es → meanReturn es.returns = 2 ∧ stddevReturn es.returns = some 0) := by
  obtain ⟨⟨m, cfg⟩, hm⟩ := Option.isSome_iff_exists.1 (c110_constructs (S := Nat) (A := Bool)).2.2.2.2
  obtain ⟨D, C, hdp⟩ := dents_default hm
  have htb : Leftover ([] : List ((Int × Nat) × Option Nat)) := by simp [Leftover]
  have htab : TableOk m ([] : List ((Int × Nat) × Option Nat)) := by simp [TableOk, D.table]
  obtain ⟨sched, hsch⟩ := productive_exists (env := twoMoves) (m := m) (k := 4) (s0 := 0) (dp := 0) (tm := 0) (N := 10 ^ 8 + 2) (tb := [])
    (dents_valid 0 cfg twoMoves m fun _ a => if a then 1 else 0) htb htab
  refine ⟨m, cfg, sched, hm, ?_⟩
  have hgv : gameValue twoMoves m (fun s _ => s + 1) 2 0 0 = 2 := by
    have h : ∀ t, isOpponent m t = false := fun t => by simp [isOpponent, D.one]
    norm_num [gameValue, twoMoves, bestOf, D.heur, h, List.max?]
  have key := c111_dents (iter := fun _ l => l) (lr := fun _ a => if a then 1 else 0) (eps := 0) (n := 12 * (10 ^ 8 + 2)) hm twoMoves_plain
    (fun _ _ _ => rfl) (by norm_num) le_rfl (fun _ l => List.Perm.refl l) (by norm_num) (by norm_num) (by norm_num) hsch (by norm_num)
  rw [hgv] at key
  have hX := c77_dents_explores (m := m) (lr := fun _ a => if a then 1 else 0) (k := 4) (s0 := 0) (dp := 0) (tm := 0) (N := 10 ^ 8 + 2) (eps := 0)
    (iter := fun _ l => l) htb (C.good twoMoves) twoMoves_plain.live twoMoves_plain.nodup twoMoves_plain.few le_rfl (fun _ l => List.Perm.refl l)
    (certain_ok twoMoves_plain.det) (cutoff twoMoves_plain.pos (by norm_num) (C.explores twoMoves_plain.pos (by norm_num) (by norm_num)))
  refine le_trans ?_ (le_trans key (prob_mono (dents_valid 0 cfg twoMoves m _) htb htab hX ?_))
  · have hlen : (plays twoMoves 2 0).length = 7 := by rfl
    rw [hlen]
    have h1 : (6457 : ℝ) ≤ (1 + (1 / (44 * (2 : ℕ)) : ℝ) ^ 2 / 2) ^ (10 ^ 8) := by
      refine le_trans ?_ (one_add_mul_le_pow (by norm_num) _)
      norm_num
    have h2 : missBound (1 / (44 * (2 : ℕ))) 2 (10 ^ 8 + 2) ≤ 4 / 6457 := by
      unfold missBound
      rw [show 10 ^ 8 + 2 - 2 = 10 ^ 8 from rfl, show (2 : ℝ) ^ 2 = 4 by norm_num]
      exact div_le_div_of_nonneg_left (by norm_num) (by norm_num) h1
    push_cast at h2 ⊢
    linarith
  · rintro st _ _ ⟨_, _, hM⟩ es h hr hd
    obtain ⟨h1, h2⟩ := c111_mean_exact hM (twoEval_evaluates m cfg st) (by simp [twoEval]) (by simp [twoEval]) hr hd
    exact ⟨h1, h2 (by simp [twoEval])⟩

end Verif.Random
