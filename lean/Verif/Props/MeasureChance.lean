import Verif.Props.Measure

/-! # C111: evaluating a finished search of a game with chance

`MeasuresMean` is defined in `Verif.Spec.Measure`. -/

namespace Verif.Random

open Verif.Search Verif.Spec Verif.Backups Verif.Eval

section
variable {S A X Y : Type} [DecidableEq S] [DecidableEq A] {env : Env S A ℝ} {m : Manager S ℝ} {alg : Alg S A ℝ X Y} {lr : S → A → ℝ}
  {k : Nat} {s0 : S} {dp tm : Int} {tb : List ((Int × S) × Option Nat)} {st : St S A ℝ X Y} {h : List (Event S A ℝ)} {L B K M N : Nat}
  {obs : S → A → List (S × ℝ)} {V η po pa : ℝ} {D : Dice S A ℝ X Y} {sched : Scheduler S A ℝ}

/-- A play that goes on after `n` steps contains a walk of `n` steps to a state that is not a sink. -/
theorem play_walk {play : List (A × S)} : ∀ {s : S} {n : Nat}, ValidPlay env s play → n < play.length →
    ∃ steps s', steps.length = n ∧ Walk env s steps s' ∧ env.isSink s' = false := by
  induction play with
  | nil => intro s n _ hn; simp at hn
  | cons q rest ih =>
    obtain ⟨a, o⟩ := q
    rintro s n ⟨h1, h2, h3, h4⟩ hn
    cases n with
    | zero => exact ⟨[], s, rfl, .nil s, h1⟩
    | succ n =>
      obtain ⟨steps, s', k1, k2, k3⟩ := ih h4 (by simpa using hn)
      exact ⟨(s, a, o) :: steps, s', by simp [k1], .cons h3 k2, k3⟩

theorem walks_end (he : ∀ steps s', Walk env s0 steps s' → L ≤ steps.length → env.isSink s' = true) : EndsWithin env L s0 := by
  intro play hp
  by_contra hn
  obtain ⟨steps, s', k1, k2, k3⟩ := play_walk hp (n := L) (by omega)
  rw [he steps s' k2 (by omega)] at k3
  exact absurd k3 (by simp)

/-- Every tree has its policy. -/
theorem policy_exists (c : ECfg S A ℝ X Y) (root : Nat) : ∃ β : Behaviour S A, IsTreePolicy c root β := by
  classical
  refine ⟨fun hist s raw => if h : ∃ e, Leads c.tree root hist e then c.advise h.choose raw
    else (c.env.actions s)[raw % (c.env.actions s).length]?, fun hist s raw => ⟨fun e he => ?_, fun hne _ => ?_⟩⟩
  · have hex : ∃ e, Leads c.tree root hist e := ⟨e, he⟩
    simp only [dif_pos hex]
    rw [hex.choose_spec.unique he]
  · simp only [dif_neg hne]

theorem mean1_close {α : Type} {d : List (α × ℝ)} (hd : IsDistr d) {f : α → ℝ} {v ε : ℝ} (hf : ∀ x ∈ d, |f x.1 - v| ≤ ε) : |mean1 d f - v| ≤ ε := by
  rw [abs_le]
  constructor
  · have := mean1_le hd.nonneg (f := fun _ => v - ε) (g := f) fun x hx _ => by have := abs_le.1 (hf x hx); linarith
    rw [mean1_const hd] at this
    linarith
  · have := mean1_le hd.nonneg (f := f) (g := fun _ => v + ε) fun x hx _ => by have := abs_le.1 (hf x hx); linarith
    rw [mean1_const hd] at this
    linarith

theorem mean1_near {α : Type} {d : List (α × ℝ)} (hd : IsDistr d) {f g : α → ℝ} {ε : ℝ} (hf : ∀ x ∈ d, |f x.1 - g x.1| ≤ ε) :
    |mean1 d f - mean1 d g| ≤ ε := by
  have h1 := mean1_close hd (f := fun x => f x - g x) (v := 0) (ε := ε) (by simpa using hf)
  rwa [sub_zero, show mean1 d (fun x => f x - g x) = mean1 d f - mean1 d g from by
    unfold mean1
    rw [← sum_map_sub']
    congr 1
    exact List.map_congr_left fun x _ => by ring] at h1

theorem expValue_sink (n : Nat) (t : Int) {s : S} (hs : env.isSink s = true) : expValue env m obs n t s = 0 := by
  cases n with
  | zero =>
    simp only [expValue, heurOf, hs, if_true]
    cases m.heuristic <;> rfl
  | succ n => simp [expValue, hs]

/-- The policy of a tree in which every recommendation is within `δ` of optimal is worth the value of the game up to `δ` per move. -/
theorem policy_value {c : ECfg S A ℝ X Y} {root : Nat} {β : Behaviour S A} {ch : Chances S A} {δ : ℝ} (hl : c.env.Live)
    (hβ : IsTreePolicy c root β) (hch : ch.Ok c.env) (htr : ∀ s a, c.env.isSink s = false → a ∈ c.env.actions s → ch.trans s a = obs s a)
    (hδ : 0 ≤ δ)
    (hstep : ∀ (e : Nat) nd, c.tree.dn[e]? = some nd → c.env.isSink nd.state = false →
      (∀ raw, ∃ a ∈ c.env.actions nd.state, c.advise e raw = some a ∧ NearOptimal c.env m obs (remaining m (nd.depth + 1)) nd.time nd.state a δ) ∧
      remaining m nd.depth = remaining m (nd.depth + 1) + 1 ∧
      ∀ a ∈ c.env.actions nd.state, ∀ o ∈ c.env.succ nd.state a, ∃ c' d' nd', childC c.tree e a = some c' ∧ childD c.tree c' o = some d' ∧
        c.tree.dn[d']? = some nd' ∧ nd'.state = o ∧ nd'.depth = nd.depth + 1 ∧ nd'.time = nd.time + 1) :
    ∀ (n : Nat) hist e nd, Leads c.tree root hist e → c.tree.dn[e]? = some nd → EndsWithin c.env n nd.state →
      |value c.env ch β n hist nd.state - expValue c.env m obs (remaining m nd.depth) nd.time nd.state| ≤ n * δ := by
  intro n
  induction n with
  | zero =>
    intro hist e nd hL hd he
    have hs : c.env.isSink nd.state = true := by
      by_contra hs
      have hs : c.env.isSink nd.state = false := by simpa using hs
      obtain ⟨a, ha⟩ := List.exists_mem_of_ne_nil _ (hl.acts _ hs)
      obtain ⟨o, ho⟩ := List.exists_mem_of_ne_nil _ (hl.succs _ hs a ha)
      have := he [(a, o)] ⟨hs, ha, ho, trivial⟩
      simp at this
    simp [value, expValue_sink _ _ hs]
  | succ n ih =>
    intro hist e nd hL hd he
    cases hs : c.env.isSink nd.state with
    | true =>
      rw [expValue_sink _ _ hs]
      simp only [value, hs, if_true, sub_zero, abs_zero]
      positivity
    | false =>
      obtain ⟨h1, h2, h3⟩ := hstep e nd hd hs
      simp only [value, hs, Bool.false_eq_true, if_false]
      refine mean1_close hch.raws fun x _ => ?_
      obtain ⟨a, ha, hadv, hopt⟩ := h1 x.1
      rw [(hβ hist nd.state x.1).1 e hL, hadv]
      dsimp only
      have htr' := htr _ _ hs ha
      have e1 : |mean1 (ch.trans nd.state a) (fun s' => c.env.reward nd.state a s' + value c.env ch β n (hist ++ [(a, s')]) s') -
          mean1 (ch.trans nd.state a) (fun s' => c.env.reward nd.state a s' + expValue c.env m obs (remaining m (nd.depth + 1)) (nd.time + 1) s')| ≤
          n * δ := by
        refine mean1_near (hch.trans _ _) fun y hy => ?_
        have hy' := hch.succ _ _ y hy
        obtain ⟨c', d', nd', q1, q2, q3, q4, q5, q6⟩ := h3 a ha _ hy'
        have := ih (hist ++ [(a, y.1)]) d' nd' (hL.snoc q1 q2) q3 (by
          intro play hp
          have := he ((a, y.1) :: play) ⟨hs, ha, hy', by rw [← q4]; exact hp⟩
          simpa using this)
        rw [q4, q5, q6] at this
        rwa [add_sub_add_left_eq_sub]
      have e2 : mean1 (ch.trans nd.state a) (fun s' => c.env.reward nd.state a s' + expValue c.env m obs (remaining m (nd.depth + 1)) (nd.time + 1) s') =
          actionValue c.env m obs (remaining m (nd.depth + 1)) nd.time nd.state a := by
        rw [htr']
        unfold actionValue mean1
        rw [← List.sum_map_add]
        congr 1
        exact List.map_congr_left fun x _ => by ring
      rw [e2] at e1
      have e3 : |actionValue c.env m obs (remaining m (nd.depth + 1)) nd.time nd.state a -
          expValue c.env m obs (remaining m nd.depth) nd.time nd.state| ≤ δ := by
        rw [h2]
        simp only [expValue, hs, Bool.false_eq_true, if_false]
        have hne : ((c.env.actions nd.state).map fun b => mean1 (obs nd.state b) (fun o => c.env.reward nd.state b o) +
          mean1 (obs nd.state b) fun o => expValue c.env m obs (remaining m (nd.depth + 1)) (nd.time + 1) o) ≠ [] := by simpa using hl.acts _ hs
        obtain ⟨b1, b2⟩ := Verif.Uct.bestOf_spec (opp := isOpponent m nd.time) hne
        obtain ⟨b, hb, hbe⟩ := List.mem_map.1 b1
        have t1 := hopt b hb
        have t2 := b2 _ (List.mem_map.2 ⟨a, ha, rfl⟩)
        rw [← hbe] at t2 ⊢
        unfold actionValue at t1 ⊢
        rw [abs_le]
        by_cases ho : isOpponent m nd.time = true
        · simp only [ho, if_true] at t1 t2
          constructor <;> linarith
        · simp only [ho, Bool.false_eq_true, if_false] at t1 t2
          constructor <;> linarith
      push_cast
      have := abs_add_le (mean1 (ch.trans nd.state a) (fun s' => c.env.reward nd.state a s' + value c.env ch β n (hist ++ [(a, s')]) s') -
        actionValue c.env m obs (remaining m (nd.depth + 1)) nd.time nd.state a) (actionValue c.env m obs (remaining m (nd.depth + 1)) nd.time nd.state a -
          expValue c.env m obs (remaining m nd.depth) nd.time nd.state)
      rw [sub_add_sub_cancel] at this
      linarith

open Verif.Uct in
/-- C111.  A well sampled tree of a game with chance, DP values, no trial running: the expected mean return of every evaluation is close to the value of
the game. -/
theorem c111_sampled {px : X → Dp ℝ} {py : Y → Dp ℝ} (hl : env.Live) (hv : alg.Valid) (H : HasDp alg px py lr) (hvis : ∀ x, alg.visitD false x = x)
    (htb : Leftover tb) (hu : m.useTable = false) (hr : Reachable env m alg k s0 dp tm tb st h) (hq : Quiescent st)
    (hobs : Transitions env obs po) (hlr : ∀ s a, env.isSink s = false → a ∈ env.actions s → lr s a = mean1 (obs s a) fun o => env.reward s a o)
    (hV0 : 0 ≤ V) (hV : ∀ n t s, n ≤ (m.maxDepth - dp).toNat → |expValue env m obs n t s| ≤ V) (hη : 0 ≤ η)
    (hK0 : 0 < K) (hK : ∀ s a, (env.succ s a).length ≤ K) (hM : 2 * K ≤ M) (W : Sampled env m obs s0 dp M η st h)
    (he : ∀ steps s', Walk env s0 steps s' → L ≤ steps.length → env.isSink s' = true) (hL : dp + L ≤ m.maxDepth)
    {low : ℝ} {threshold : Int} (hth : threshold ≤ M)
    (hlow : ∀ n t s a, n < remaining m dp → env.isSink s = false → a ∈ env.actions s →
      low + remaining m dp * sampleError V η K M ≤ (if isOpponent m t then -1 else 1) * actionValue env m obs n t s a)
    {adv : DNode S A ℝ X → Nat → Option A → Prop}
    (hadv : ∀ nd raw oa, adv nd raw oa → ∃ iter, IterOk iter ∧ oa = recommendBestOrRandom low threshold (viewOf env m st nd).opp
      (viewOf env m st nd).actions ((viewOf env m st nd).kids.map fun k => (k.1, (py k.2.2).n, (py k.2.2).val.getD 0)) raw iter) :
    MeasuresMean env s0 st adv obs L (expValue env m obs (remaining m dp) tm s0) (L * (2 * (remaining m dp * sampleError V η K M))) := by
  intro c p E ch hch htr hT hR sched hsch n hn
  have T := (reach_inv hv htb hr).tree
  obtain ⟨nr, g1, g2, g3, g4⟩ := root_node T
  have hκ : 0 ≤ sampleError V η K M := by unfold sampleError; positivity
  have hends : EndsWithin env L s0 := walks_end he
  obtain ⟨e1, e2, e3, e4, e5, e6⟩ := E
  subst e1 e2 e3
  have hstep : ∀ (e : Nat) nd, c.tree.dn[e]? = some nd → c.env.isSink nd.state = false →
      (∀ raw, ∃ a ∈ c.env.actions nd.state, c.advise e raw = some a ∧
        NearOptimal c.env m obs (remaining m (nd.depth + 1)) nd.time nd.state a (2 * (remaining m dp * sampleError V η K M))) ∧
      remaining m nd.depth = remaining m (nd.depth + 1) + 1 ∧
      ∀ a ∈ c.env.actions nd.state, ∀ o ∈ c.env.succ nd.state a, ∃ c' d' nd', childC c.tree e a = some c' ∧ childD c.tree c' o = some d' ∧
        c.tree.dn[d']? = some nd' ∧ nd'.state = o ∧ nd'.depth = nd.depth + 1 ∧ nd'.time = nd.time + 1 := by
    intro e nd hd hs
    have hleaf := ends_leaf hl hv htb hends hL hr hd hs
    have hdep : nd.depth < m.maxDepth := by simp [isLeaf] at hleaf; omega
    have hdep0 := (T.heap.dTime e nd.skel (by simp [hd])).2
    simp only [DNode.skel] at hdep0
    have hle : (remaining m nd.depth : ℝ) * sampleError V η K M ≤ remaining m dp * sampleError V η K M :=
      mul_le_mul_of_nonneg_right (by exact_mod_cast (by unfold remaining; omega : remaining m nd.depth ≤ remaining m dp)) hκ
    refine ⟨fun raw => ?_, by unfold remaining; omega, fun a ha o ho => ?_⟩
    · obtain ⟨iter, hi, hrec⟩ := hadv nd raw _ (e6 e nd raw hd)
      obtain ⟨a, k1, k2, k3⟩ := near_at hl hv H hvis htb hu hr hq hobs hlr hV0 hV hη hK0 hK hM W hd hleaf hth (low := low)
        (fun a ha => le_trans (by linarith) (hlow (remaining m (nd.depth + 1)) nd.time nd.state a (by unfold remaining; omega) hs ha)) raw hi
      refine ⟨a, k1, by rw [hrec, k2], fun b hb => ?_⟩
      have := k3 b hb
      split at this
      · next ho => rw [if_pos ho]; linarith
      · next ho => rw [if_neg ho]; linarith
    · obtain ⟨c', k1, k2⟩ := c77_complete hl hv htb hr W.explored hd hleaf ha
      obtain ⟨d', k3⟩ := k2 o ho
      obtain ⟨nd2, nc, f1, f2, f3, f4, f5, f6, f7, f8⟩ := childC_facts T k1
      rw [hd] at f1
      obtain rfl := Option.some.inj f1
      obtain ⟨nc', nd', r1, r2, r3, r4, r5, r6, _⟩ := childD_facts T k3
      rw [f2] at r1
      obtain rfl := Option.some.inj r1
      exact ⟨c', d', nd', k1, k3, r2, by rw [r4], by rw [r5, f6], by rw [r6, f7]⟩
  obtain ⟨β, hβ⟩ := policy_exists c p.root
  have hgood : GoodEval c p := ⟨⟨m, alg, k, dp, tm, tb, h, hv, htb, hr⟩, e4, hl.acts, fun d nd hd hs raw => by
    obtain ⟨a, k1, k2, _⟩ := (hstep d nd hd hs).1 raw
    exact ⟨a, k1, k2⟩⟩
  have F : Fair c p [] ch β L := ⟨hch, hβ, e5, hl.acts, fun es h hr => (c59_actions_valid hgood hr).1, he⟩
  rw [c73_mean_unbiased F hT hR hsch hn]
  have := policy_value hl hβ hch htr (by positivity) hstep L [] p.root nr (.nil _) (by rw [e4]; exact g1) (by rw [g2]; exact hends)
  rwa [g2, g3, g4] at this

open Verif.Uct in
/-- C111.  A random search of a game with chance whose episodes end, with DP values and exploration: for every accuracy and every probability below 1,
after enough trials every evaluation of the tree has an expected mean return within the accuracy of the value of the game, with at least this
probability, and so is the value of the root. -/
theorem c111_converges {px : X → Dp ℝ} {py : Y → Dp ℝ} (hl : env.Live) (hv : alg.Valid) (H : HasDp alg px py lr)
    (hvis : ∀ x, alg.visitD false x = x) (hu : m.useTable = false) (htb : Leftover tb)
    (hlr : ∀ s a, env.isSink s = false → a ∈ env.actions s → lr s a = mean1 (obs s a) fun o => env.reward s a o)
    (hpa : 0 < pa ∧ pa ≤ 1) (hpo : 0 < po ∧ po ≤ 1) (hB : ∀ s, (env.actions s).length ≤ B)
    (hV0 : 0 < V) (hV : ∀ n t s, n ≤ (m.maxDepth - dp).toNat → |expValue env m obs n t s| ≤ V)
    (hK0 : 0 < K) (hK : ∀ s a, (env.succ s a).length ≤ K)
    (he : ∀ steps s', Walk env s0 steps s' → L ≤ steps.length → env.isSink s' = true) (hL : dp + L ≤ m.maxDepth)
    {low : ℝ} {threshold : Int} {ε δ : ℝ} (hε : 0 < ε) (hδ : 0 < δ)
    (hlow : ∀ n t s a, n < remaining m dp → env.isSink s = false → a ∈ env.actions s →
      low + ε ≤ (if isOpponent m t then -1 else 1) * actionValue env m obs n t s a)
    {adv : St S A ℝ X Y → DNode S A ℝ X → Nat → Option A → Prop}
    (hadv : ∀ st nd raw oa, adv st nd raw oa → ∃ iter, IterOk iter ∧ oa = recommendBestOrRandom low threshold (viewOf env m st nd).opp
      (viewOf env m st nd).actions ((viewOf env m st nd).kids.map fun k => (k.1, (py k.2.2).n, (py k.2.2).val.getD 0)) raw iter) :
    ∃ N0, ∀ N ≥ N0, ∀ (k : Nat) (D : Dice S A ℝ X Y) (sched : Scheduler S A ℝ), 0 < k → D.obs = obs → Explores env m alg D k s0 dp tm tb N pa po →
      Productive env m alg k s0 dp tm tb N sched → ∀ n, (4 * (m.maxDepth - dp).toNat + 4) * N ≤ n →
      1 - δ ≤ probAfter env m alg D k s0 dp tm tb N sched n (fun st h => Finished N st h ∧
        (∃ v, valD px st st.root = some v ∧ |v - expValue env m obs (remaining m dp) tm s0| ≤ ε) ∧
        MeasuresMean env s0 st (adv st) obs L (expValue env m obs (remaining m dp) tm s0) ε) := by
  have hε' : 0 < ε / (2 * (L + 1)) := by positivity
  have hle : ε / (2 * (L + 1)) ≤ ε := div_le_self hε.le (by have : (0 : ℝ) ≤ L := by positivity
                                                            linarith)
  obtain ⟨η, M, N0, h1, h2, h3, h4, h5, h6⟩ := enough (plays env (m.maxDepth - dp).toNat s0).length (m.maxDepth - dp).toNat threshold.toNat B K hV0
    (mul_pos hpa.1 hpo.1) hε' hδ
  refine ⟨N0, fun N hN k D sched hk hobs hX hsch n hn => ?_⟩
  subst hobs
  have ht : TableOk m tb := fun h => by rw [hu] at h; exact absurd h (by simp)
  have h5' : (remaining m dp : ℝ) * sampleError V η K M ≤ ε / (2 * (L + 1)) := h5
  have hdp : dp ≤ m.maxDepth := by omega
  have key := sampled_prob hl hv htb hu hX ⟨hpa.1.le, hpa.2⟩ ⟨hpo.1.le, hpo.2⟩ hdp hB hV0 hV h1 h2 hk hsch hn (M := M)
  refine le_trans (by have := h6 N hN; linarith) (le_trans key (prob_mono hv htb ht hX ?_))
  rintro st h hr ⟨q1, q2⟩
  obtain ⟨nr, g1, g2, g3, g4⟩ := root_node (reach_inv hv htb hr).tree
  refine ⟨q1, ⟨_, c66_minimax_of_tree hv H hvis hu htb hr q1.1 g1, ?_⟩, ?_⟩
  · have := dp_close hl hv htb hu hr q1.1 hX.obs hlr hV0.le hV h1.le hK0 hK h3 q2 (remaining m dp) st.root nr g1 (by simp [remaining, g3])
    rw [g3, ← g2, ← g4]
    linarith
  · have hM' := c111_sampled hl hv H hvis htb hu hr q1.1 hX.obs hlr hV0.le hV h1.le hK0 hK h3 q2 he hL (low := low) (threshold := threshold)
      (by omega) (fun n t s a hn hs ha => le_trans (by linarith) (hlow n t s a hn hs ha)) (hadv st)
    intro c p E ch hch htr hT hR sched' hsch' n' hn'
    refine le_trans (hM' c p E ch hch htr hT hR sched' hsch' n' hn') ?_
    have e : (L : ℝ) * (2 * (ε / (2 * (L + 1)))) ≤ ε := by
      have e1 : (L : ℝ) * (2 * (ε / (2 * (L + 1)))) = (L / (L + 1)) * ε := by field_simp
      have e2 : (L : ℝ) / (L + 1) ≤ 1 := by rw [div_le_one (by positivity)]; linarith
      rw [e1]
      nlinarith
    refine le_trans ?_ e
    gcongr

open Verif.Uct in
/-- C111.  The same with an explicit bound for the probability: it applies to searches whose exploration depends on the number of trials. -/
theorem c111_chance {px : X → Dp ℝ} {py : Y → Dp ℝ} (hl : env.Live) (hv : alg.Valid) (H : HasDp alg px py lr) (hvis : ∀ x, alg.visitD false x = x)
    (hu : m.useTable = false) (htb : Leftover tb) (hX : Explores env m alg D k s0 dp tm tb N pa po)
    (hlr : ∀ s a, env.isSink s = false → a ∈ env.actions s → lr s a = mean1 (D.obs s a) fun o => env.reward s a o)
    (hpa : 0 ≤ pa ∧ pa ≤ 1) (hpo : 0 ≤ po ∧ po ≤ 1) (hB : ∀ s, (env.actions s).length ≤ B)
    (hV0 : 0 < V) (hV : ∀ n t s, n ≤ (m.maxDepth - dp).toNat → |expValue env m D.obs n t s| ≤ V) (hη0 : 0 < η) (hη : η ≤ V)
    (hK0 : 0 < K) (hK : ∀ s a, (env.succ s a).length ≤ K) (hM : 2 * K ≤ M)
    (he : ∀ steps s', Walk env s0 steps s' → L ≤ steps.length → env.isSink s' = true) (hL : dp + L ≤ m.maxDepth)
    {low : ℝ} {threshold : Int} (hth : threshold ≤ M)
    (hlow : ∀ n t s a, n < remaining m dp → env.isSink s = false → a ∈ env.actions s →
      low + remaining m dp * sampleError V η K M ≤ (if isOpponent m t then -1 else 1) * actionValue env m D.obs n t s a)
    {adv : St S A ℝ X Y → DNode S A ℝ X → Nat → Option A → Prop}
    (hadv : ∀ st nd raw oa, adv st nd raw oa → ∃ iter, IterOk iter ∧ oa = recommendBestOrRandom low threshold (viewOf env m st nd).opp
      (viewOf env m st nd).actions ((viewOf env m st nd).kids.map fun k => (k.1, (py k.2.2).n, (py k.2.2).val.getD 0)) raw iter)
    (hk : 0 < k) (hsch : Productive env m alg k s0 dp tm tb N sched) {n : Nat} (hn : (4 * (m.maxDepth - dp).toNat + 4) * N ≤ n) :
    1 - (plays env (m.maxDepth - dp).toNat s0).length * (rareBound (pa * po) (m.maxDepth - dp).toNat M N + B * farBound V η M) ≤
    probAfter env m alg D k s0 dp tm tb N sched n (fun st h => Finished N st h ∧
      MeasuresMean env s0 st (adv st) D.obs L (expValue env m D.obs (remaining m dp) tm s0) (L * (2 * (remaining m dp * sampleError V η K M)))) := by
  have ht : TableOk m tb := fun h => by rw [hu] at h; exact absurd h (by simp)
  refine le_trans (sampled_prob hl hv htb hu hX hpa hpo (by omega) hB hV0 hV hη0 hη hk hsch hn) (prob_mono hv htb ht hX ?_)
  rintro st h hr ⟨q1, q2⟩
  exact ⟨q1, c111_sampled hl hv H hvis htb hu hr q1.1 hX.obs hlr hV0.le hV hη0.le hK0 hK hM q2 he hL hth hlow (hadv st)⟩

open Verif.Ments Verif.Dents

/-- C111.  DB-MENTS, game with chance. -/
theorem c111_dbments_chance {cfg : Cfg S A} {eps : ℝ} {iter : View S A DB DB → List (A × ℝ) → List (A × ℝ)}
    (hl : env.Live) (hmv : cfg.mostVisited = false) (hu : m.useTable = false) (htb : Leftover tb) (G : GoodCfg cfg env) (hnd : ∀ s, (env.actions s).Nodup)
    (hB : ∀ s, (env.actions s).length ≤ B) (heps : 0 ≤ eps) (hit : ∀ v l, List.Perm (iter v l) l) (hobs : Transitions env obs po)
    (hlr : ∀ s a, env.isSink s = false → a ∈ env.actions s → lr s a = mean1 (obs s a) fun o => env.reward s a o)
    (hp : 1 / 10 ^ 16 ≤ softExplore cfg B N) (hpo : 0 ≤ po ∧ po ≤ 1)
    (hV0 : 0 < V) (hV : ∀ n t s, n ≤ (m.maxDepth - dp).toNat → |expValue env m obs n t s| ≤ V) (hη0 : 0 < η) (hη : η ≤ V)
    (hK0 : 0 < K) (hK : ∀ s a, (env.succ s a).length ≤ K) (hM : 2 * K ≤ M)
    (he : ∀ steps s', Walk env s0 steps s' → L ≤ steps.length → env.isSink s' = true) (hL : dp + L ≤ m.maxDepth) (hth : cfg.threshold ≤ M)
    (hlow : ∀ n t s a, n < remaining m dp → env.isSink s = false → a ∈ env.actions s →
      cfg.low + remaining m dp * sampleError V η K M ≤ (if isOpponent m t then -1 else 1) * actionValue env m obs n t s a)
    (hk : 0 < k) (hsch : Productive env m (dbments eps cfg lr) k s0 dp tm tb N sched) {n : Nat} (hn : (4 * (m.maxDepth - dp).toNat + 4) * N ≤ n) :
    1 - (plays env (m.maxDepth - dp).toNat s0).length *
      (rareBound (softExplore cfg B N * po) (m.maxDepth - dp).toNat M N + B * farBound V η M) ≤
    probAfter env m (dbments eps cfg lr) (softDice eps cfg (mentsQ cfg DB.soft) iter obs) k s0 dp tm tb N sched n (fun st h => Finished N st h ∧
      MeasuresMean env s0 st (SaysDB cfg env m st DB.dp) obs L (expValue env m obs (remaining m dp) tm s0) (L * (2 * (remaining m dp * sampleError V η K M)))) :=
  c111_chance hl (dbments_valid eps cfg lr) (dbments_hasDp eps cfg lr) (fun x => rfl) hu htb
    (c77_dbments_explores (m := m) (lr := lr) (k := k) (s0 := s0) (dp := dp) (tm := tm) htb G hl hnd hB heps hit hobs hp) hlr
    (c77_explore_range G.max1 hp) hpo hB hV0 hV hη0 hη hK0 hK hM he hL hth hlow (by
      rintro st nd raw oa ⟨lowI, iter', iterI, hi, ho⟩
      refine ⟨iter', hi, ?_⟩
      rw [ho]
      simp only [recommendDB, hmv, Bool.false_eq_true, if_false]) hk hsch hn

/-- C111.  DENTS with DP values, game with chance. -/
theorem c111_dents_chance {cfg : DCfg S A} {eps : ℝ} {iter : View S A DX DY → List (A × ℝ) → List (A × ℝ)}
    (hl : env.Live) (hdpv : cfg.useDp = true) (hmv : cfg.toCfg.mostVisited = false) (hu : m.useTable = false) (htb : Leftover tb) (G : GoodCfg cfg.toCfg env) (hnd : ∀ s, (env.actions s).Nodup)
    (hB : ∀ s, (env.actions s).length ≤ B) (heps : 0 ≤ eps) (hit : ∀ v l, List.Perm (iter v l) l) (hobs : Transitions env obs po)
    (hlr : ∀ s a, env.isSink s = false → a ∈ env.actions s → lr s a = mean1 (obs s a) fun o => env.reward s a o)
    (hp : 1 / 10 ^ 16 ≤ softExplore cfg.toCfg B N) (hpo : 0 ≤ po ∧ po ≤ 1)
    (hV0 : 0 < V) (hV : ∀ n t s, n ≤ (m.maxDepth - dp).toNat → |expValue env m obs n t s| ≤ V) (hη0 : 0 < η) (hη : η ≤ V)
    (hK0 : 0 < K) (hK : ∀ s a, (env.succ s a).length ≤ K) (hM : 2 * K ≤ M)
    (he : ∀ steps s', Walk env s0 steps s' → L ≤ steps.length → env.isSink s' = true) (hL : dp + L ≤ m.maxDepth) (hth : cfg.toCfg.threshold ≤ M)
    (hlow : ∀ n t s a, n < remaining m dp → env.isSink s = false → a ∈ env.actions s →
      cfg.toCfg.low + remaining m dp * sampleError V η K M ≤ (if isOpponent m t then -1 else 1) * actionValue env m obs n t s a)
    (hk : 0 < k) (hsch : Productive env m (dents eps cfg env m lr) k s0 dp tm tb N sched) {n : Nat} (hn : (4 * (m.maxDepth - dp).toNat + 4) * N ≤ n) :
    1 - (plays env (m.maxDepth - dp).toNat s0).length *
      (rareBound (softExplore cfg.toCfg B N * po) (m.maxDepth - dp).toNat M N + B * farBound V η M) ≤
    probAfter env m (dents eps cfg env m lr) (softDice eps cfg.toCfg (dentsQ cfg) iter obs) k s0 dp tm tb N sched n (fun st h => Finished N st h ∧
      MeasuresMean env s0 st (SaysDents cfg env m st) obs L (expValue env m obs (remaining m dp) tm s0) (L * (2 * (remaining m dp * sampleError V η K M)))) :=
  c111_chance hl (dents_valid eps cfg env m lr) (dents_hasDp eps env m lr hdpv) (fun x => rfl) hu htb
    (c77_dents_explores (m := m) (lr := lr) (k := k) (s0 := s0) (dp := dp) (tm := tm) htb G hl hnd hB heps hit hobs hp) hlr
    (c77_explore_range G.max1 hp) hpo hB hV0 hV hη0 hη hK0 hK hM he hL hth hlow (by
      rintro st nd raw oa ⟨lowI, iter', iterI, hi, ho⟩
      refine ⟨iter', hi, ?_⟩
      rw [ho]
      simp only [recommendDents, recommendDB, hdpv, if_true, hmv, Bool.false_eq_true, if_false]) hk hsch hn

/-- C111.  EST with DP values, game with chance. -/
theorem c111_est_chance {cfg : DCfg S A} {eps : ℝ} {iter : View S A DX DY → List (A × ℝ) → List (A × ℝ)}
    (hl : env.Live) (hdpv : cfg.useDp = true) (hmv : cfg.toCfg.mostVisited = false) (hu : m.useTable = false) (htb : Leftover tb) (G : GoodCfg cfg.toCfg env) (hnd : ∀ s, (env.actions s).Nodup)
    (hB : ∀ s, (env.actions s).length ≤ B) (heps : 0 ≤ eps) (hit : ∀ v l, List.Perm (iter v l) l) (hobs : Transitions env obs po)
    (hlr : ∀ s a, env.isSink s = false → a ∈ env.actions s → lr s a = mean1 (obs s a) fun o => env.reward s a o)
    (hp : 1 / 10 ^ 16 ≤ softExplore cfg.toCfg B N) (hpo : 0 ≤ po ∧ po ≤ 1)
    (hV0 : 0 < V) (hV : ∀ n t s, n ≤ (m.maxDepth - dp).toNat → |expValue env m obs n t s| ≤ V) (hη0 : 0 < η) (hη : η ≤ V)
    (hK0 : 0 < K) (hK : ∀ s a, (env.succ s a).length ≤ K) (hM : 2 * K ≤ M)
    (he : ∀ steps s', Walk env s0 steps s' → L ≤ steps.length → env.isSink s' = true) (hL : dp + L ≤ m.maxDepth) (hth : cfg.toCfg.threshold ≤ M)
    (hlow : ∀ n t s a, n < remaining m dp → env.isSink s = false → a ∈ env.actions s →
      cfg.toCfg.low + remaining m dp * sampleError V η K M ≤ (if isOpponent m t then -1 else 1) * actionValue env m obs n t s a)
    (hk : 0 < k) (hsch : Productive env m (est eps cfg env m lr) k s0 dp tm tb N sched) {n : Nat} (hn : (4 * (m.maxDepth - dp).toNat + 4) * N ≤ n) :
    1 - (plays env (m.maxDepth - dp).toNat s0).length *
      (rareBound (softExplore cfg.toCfg B N * po) (m.maxDepth - dp).toNat M N + B * farBound V η M) ≤
    probAfter env m (est eps cfg env m lr) (softDice eps cfg.toCfg (estQ cfg) iter obs) k s0 dp tm tb N sched n (fun st h => Finished N st h ∧
      MeasuresMean env s0 st (SaysDents cfg env m st) obs L (expValue env m obs (remaining m dp) tm s0) (L * (2 * (remaining m dp * sampleError V η K M)))) :=
  c111_chance hl (est_valid eps cfg env m lr) (est_hasDp eps env m lr hdpv) (fun x => rfl) hu htb
    (c77_est_explores (m := m) (lr := lr) (k := k) (s0 := s0) (dp := dp) (tm := tm) htb G hl hnd hB heps hit hobs hp) hlr
    (c77_explore_range G.max1 hp) hpo hB hV0 hV hη0 hη hK0 hK hM he hL hth hlow (by
      rintro st nd raw oa ⟨lowI, iter', iterI, hi, ho⟩
      refine ⟨iter', hi, ?_⟩
      rw [ho]
      simp only [recommendDents, recommendDB, hdpv, if_true, hmv, Bool.false_eq_true, if_false]) hk hsch hn

end

/-! ## Example -/

/-- One move: action `true` leads to state 1 with probability 3/4 and to state 2 otherwise, action `false` the other way round; state 1 pays 1. -/
def flipEnv : Env Nat Bool ℝ :=
  { isSink := fun s => decide (1 ≤ s), actions := fun _ => [false, true], succ := fun _ _ => [1, 2], reward := fun _ _ o => if o = 1 then 1 else 0 }

noncomputable def flipObs (_ : Nat) (a : Bool) : List (Nat × ℝ) := if a then [(1, 3 / 4), (2, 1 / 4)] else [(1, 1 / 4), (2, 3 / 4)]

def flipMgr : Manager Nat ℝ :=
  { maxDepth := 1, mctsMode := true, twoPlayer := false, useTable := false, numMutexes := 0, heuristic := none }

noncomputable def flipCfg : Verif.Ments.Cfg Nat Bool :=
  { temp := 1, priorWeight := 0, epsilon := 10 ^ 9, rootEpsilon := -1, maxExplore := 1 / 2, decay := none, minTemp := 0, scale := 1,
    rootScale := -1, defaultQ := 0, shift := false, offset := 0, threshold := 0, mostVisited := false, prior := none, low := -1000000 }

noncomputable def flipReward (_ : Nat) (a : Bool) : ℝ := if a then 3 / 4 else 1 / 4

theorem flipTransitions : Transitions flipEnv flipObs (1 / 4) := by
  intro s a _ _
  refine ⟨⟨?_, ?_⟩, ?_, ?_⟩
  · cases a <;> norm_num [flipObs]
  · cases a <;> norm_num [flipObs]
  · intro p hp _
    cases a <;> simp [flipObs] at hp <;> rcases hp with rfl | rfl <;> simp [flipEnv]
  · intro o ho
    have : o = 1 ∨ o = 2 := by simpa [flipEnv] using ho
    rcases this with rfl | rfl <;> cases a <;> norm_num [flipObs, weightOf]

theorem flipLive : flipEnv.Live := ⟨by simp [flipEnv], by simp [flipEnv]⟩

theorem flipValue0 (t : Int) (s : Nat) : expValue flipEnv flipMgr flipObs 0 t s = 0 := by simp [expValue, heurOf, flipMgr]

theorem flipAction (t : Int) (s : Nat) (a : Bool) : actionValue flipEnv flipMgr flipObs 0 t s a = if a then 3 / 4 else 1 / 4 := by
  unfold actionValue
  simp only [flipValue0]
  cases a <;> norm_num [flipEnv, flipObs, mean1]

theorem flipValue1 (t : Int) (s : Nat) : expValue flipEnv flipMgr flipObs 1 t s = if 1 ≤ s then 0 else 3 / 4 := by
  have h := fun a => flipAction t s a
  unfold actionValue at h
  unfold expValue
  simp only [h]
  by_cases hs : 1 ≤ s <;> norm_num [flipEnv, hs, isOpponent, flipMgr, bestOf, List.max?]

theorem flipBound : ∀ n t s, n ≤ (flipMgr.maxDepth - 0).toNat → |expValue flipEnv flipMgr flipObs n t s| ≤ 1 := by
  intro n t s hn
  have hn' : n ≤ 1 := hn
  interval_cases n
  · rw [flipValue0]; norm_num
  · rw [flipValue1]; split <;> norm_num

theorem flipEnds : ∀ steps s', Walk flipEnv 0 steps s' → 1 ≤ steps.length → flipEnv.isSink s' = true := by
  have key : ∀ s steps s', Walk flipEnv s steps s' → 1 ≤ steps.length → 1 ≤ s' := by
    intro s steps s' W
    induction W with
    | nil s => intro h; simp at h
    | @cons s s1 s' a rest h1 W ih =>
      intro _
      have : s1 = 1 ∨ s1 = 2 := by simpa [flipEnv] using h1
      cases W with
      | nil => omega
      | cons => exact ih (by simp)
  intro steps s' W h
  simpa [flipEnv] using key _ _ _ W h

def flipM : Nat := 128000
def flipN : Nat := 1 + flipM + 32 * (flipM + 21)

theorem flipN_eq : flipN = 4224673 := rfl

theorem flipRare : rareBound (1 / 16) 1 flipM flipN ≤ 1 / 2 ^ 20 := by
  unfold rareBound
  have h1 : (2 : ℝ) ≤ (1 + (1 / 16) ^ 1 / 2) ^ 32 := le_trans (by norm_num) (one_add_mul_le_pow (a := ((1 / 16) ^ 1 / 2 : ℝ)) (by norm_num) 32)
  rw [show flipN - (1 + flipM) = 32 * (flipM + 21) from rfl, pow_mul]
  have h2 : (2 : ℝ) ^ (flipM + 21) ≤ ((1 + (1 / 16) ^ 1 / 2) ^ 32) ^ (flipM + 21) := pow_le_pow_left₀ (by norm_num) h1 _
  rw [div_le_div_iff₀ (lt_of_lt_of_le (by positivity) h2) (by positivity), one_mul]
  refine le_trans (le_of_eq ?_) h2
  rw [← pow_add]
  congr 1

theorem flipFar : farBound 1 (1 / 20) flipM ≤ 2 / 2 ^ 20 := by
  unfold farBound flipM
  have h1 : (2 : ℝ) ≤ Real.exp 1 := by have := Real.add_one_le_exp (1 : ℝ); linarith
  have h2 : (2 : ℝ) ^ 20 ≤ Real.exp 20 := by
    have := pow_le_pow_left₀ (by norm_num) h1 20
    rwa [← Real.exp_nat_mul, show ((20 : ℕ) : ℝ) * 1 = 20 by norm_num] at this
  rw [show -((1 / 20 : ℝ) ^ 2 * ((128000 : ℕ) : ℝ) / (16 * 1 ^ 2)) = -20 by norm_num, Real.exp_neg, ← div_eq_mul_inv]
  exact div_le_div_of_nonneg_left (by norm_num) (by norm_num) h2

theorem flipExplore : softExplore flipCfg 2 flipN = 1 / 4 := by
  have hN : (flipN : ℝ) ≤ 2 * 10 ^ 9 := by rw [flipN_eq]; norm_num
  have hN0 : (1 : ℝ) ≤ flipN := by rw [flipN_eq]; norm_num
  have h : Real.log ((flipN : ℝ) + 1) ≤ flipN := by
    have := Real.log_le_sub_one_of_pos (x := (flipN : ℝ) + 1) (by linarith)
    linarith
  have h0 : 0 < Real.log ((flipN : ℝ) + 1) := Real.log_pos (by linarith)
  have h1 : (1 / 2 : ℝ) ≤ 10 ^ 9 / Real.log ((flipN : ℝ) + 1) := by
    rw [div_le_div_iff₀ (by norm_num) h0]
    linarith
  have h2 : min (minEps flipCfg / Real.log ((flipN : ℝ) + 1)) flipCfg.maxExplore = 1 / 2 := by
    have : minEps flipCfg = 10 ^ 9 := by norm_num [minEps, flipCfg]
    rw [this]
    exact min_eq_right h1
  rw [softExplore, h2]
  norm_num

open Verif.Ments Verif.Dents in
/-- A DB-MENTS search by three workers of this game: with probability at least 0.999 the expected mean return of every evaluation of the tree is
within 0.21 of 3/4, the value of the game. -/
example : ∃ sched : Scheduler Nat Bool ℝ, 999 / 1000 ≤
    probAfter flipEnv flipMgr (dbments 0 flipCfg flipReward) (softDice 0 flipCfg (mentsQ flipCfg DB.soft) (fun _ l => l) flipObs)
      3 0 0 0 [] flipN sched (8 * flipN) (fun st h => Finished flipN st h ∧
        MeasuresMean flipEnv 0 st (SaysDB flipCfg flipEnv flipMgr st DB.dp) flipObs 1 (3 / 4) (21 / 100)) := by
  have G : GoodCfg flipCfg flipEnv := by
    refine ⟨by simp [flipCfg], by norm_num [flipCfg], by norm_num [flipCfg], by norm_num [flipCfg], ?_, by simp [flipCfg], ?_, ?_, ?_⟩
    · simp only [flipCfg]; exact Real.log_nonneg (by norm_num)
    all_goals intro f hf; simp [flipCfg] at hf
  have htb : Leftover ([] : List ((Int × Nat) × Option Nat)) := by simp [Leftover]
  have ht : TableOk flipMgr ([] : List ((Int × Nat) × Option Nat)) := by simp [TableOk, flipMgr]
  obtain ⟨sched, hsch⟩ := productive_exists (env := flipEnv) (m := flipMgr) (k := 3) (s0 := 0) (dp := 0) (tm := 0) (N := flipN)
    (dbments_valid 0 flipCfg flipReward) htb ht
  refine ⟨sched, ?_⟩
  have hp : 1 / 10 ^ 16 ≤ softExplore flipCfg 2 flipN := by rw [flipExplore]; norm_num
  have hse : ((1 : ℕ) : ℝ) * sampleError 1 (1 / 20) 2 flipM ≤ 105 / 1000 := by norm_num [sampleError, flipM]
  have key := c111_dbments_chance (cfg := flipCfg) (eps := 0) (B := 2) (K := 2) (M := flipM) (V := 1) (η := 1 / 20) (iter := fun _ l => l)
    (env := flipEnv) (m := flipMgr) (obs := flipObs) (po := 1 / 4) (lr := flipReward) (k := 3) (s0 := 0) (dp := 0) (tm := 0) (tb := []) (N := flipN)
    (sched := sched) (n := 8 * flipN) (L := 1) flipLive rfl rfl htb G (by simp [flipEnv]) (by simp [flipEnv]) le_rfl (fun _ l => List.Perm.refl l)
    flipTransitions (by intro s a _ _; cases a <;> norm_num [mean1, flipObs, flipEnv, flipReward]) hp (by norm_num) (by norm_num) flipBound (by norm_num)
    (by norm_num) (by norm_num) (by simp [flipEnv]) (by norm_num [flipM]) flipEnds (by simp [flipMgr]) (by simp [flipCfg]) (by
      intro n t s a hn _ _
      have hn' : n < 1 := hn
      interval_cases n
      rw [show remaining flipMgr 0 = 1 from rfl, flipAction, show isOpponent flipMgr t = false by simp [isOpponent, flipMgr]]
      have h3 : flipCfg.low = -1000000 := rfl
      rw [h3]
      cases a <;> norm_num <;> norm_num at hse <;> linarith) (by norm_num) hsch (by rw [show (flipMgr.maxDepth - 0).toNat = 1 from rfl])
  have hX := c77_dbments_explores (m := flipMgr) (lr := flipReward) (k := 3) (s0 := 0) (dp := 0) (tm := 0) (tb := [])
    (eps := 0) (iter := fun _ l => l) htb G flipLive (by simp [flipEnv]) (B := 2) (by simp [flipEnv]) le_rfl (fun _ l => List.Perm.refl l) flipTransitions hp
  refine le_trans ?_ (le_trans key (prob_mono (dbments_valid 0 flipCfg _) htb ht hX ?_))
  · rw [flipExplore, show (plays flipEnv (flipMgr.maxDepth - 0).toNat 0).length = 5 from rfl,
      show (flipMgr.maxDepth - 0).toNat = 1 from rfl, show (1 / 4 * (1 / 4) : ℝ) = 1 / 16 by norm_num]
    have h1 := flipRare
    have h2 := flipFar
    norm_num at h1 h2 ⊢
    linarith
  · rintro st h _ ⟨r1, r2⟩
    refine ⟨r1, fun c p E ch hch htr hT hR sched' hs' n' hn' => ?_⟩
    have := r2 c p E ch hch htr hT hR sched' hs' n' hn'
    rw [show remaining flipMgr 0 = 1 from rfl, flipValue1] at this
    norm_num at this hse ⊢
    linarith

end Verif.Random
