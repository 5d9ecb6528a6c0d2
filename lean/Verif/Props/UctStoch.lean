import Verif.Proofs.UctStochEnd
import Verif.Props.Stochastic

/-!
# Property C102: UCT and PUCT find the values of stochastic environments

`SolvableS`, `SolvedAt` and `AlwaysSolved` are defined in `Verif.Spec.UctStoch`; the value of the game, `expValue`, in `Verif.Spec.Stochastic`;
`probAfter`, `Explores`, `Productive` and `Finished` in `Verif.Spec.Random`.
-/

namespace Verif.Uct

open Verif.Search Verif.Backups Verif.Random Verif.Spec
open Verif.Eval (mean1)

set_option linter.unusedSectionVars false
set_option linter.unusedSimpArgs false

section
variable {S A : Type} [DecidableEq S] [DecidableEq A] {env : Env S A ℝ} {m : Manager S ℝ} {cfg : Cfg S A ℝ} {k : Nat} {s0 : S} {dp tm : Int}
  {tb : List ((Int × S) × Option Nat)} {st : St S A ℝ (Stats ℝ) (Stats ℝ)} {h : List (Event S A ℝ)} {obs : S → A → List (S × ℝ)} {lo hi : ℝ}
  {D : Dice S A ℝ (Stats ℝ) (Stats ℝ)} {N : Nat} {pa po : ℝ} {sched : Scheduler S A ℝ}

theorem mean1_abs_support {α : Type} {d : List (α × ℝ)} (hd : Eval.IsDistr d) {f : α → ℝ} {V : ℝ} (hf : ∀ p ∈ d, p.2 ≠ 0 → |f p.1| ≤ V) :
    |mean1 d f| ≤ V := by
  obtain ⟨h0, h1⟩ := hd
  have key : ∀ l : List (α × ℝ), (∀ p ∈ l, 0 ≤ p.2) → (∀ p ∈ l, p.2 ≠ 0 → |f p.1| ≤ V) → |mean1 l f| ≤ (l.map Prod.snd).sum * V := by
    intro l
    induction l with
    | nil => intro _ _; simp [mean1]
    | cons p l ih =>
      intro g0 g1
      have i := ih (fun q hq => g0 q (by simp [hq])) (fun q hq => g1 q (by simp [hq]))
      have hp0 := g0 p (by simp)
      have hp : |p.2 * f p.1| ≤ p.2 * V := by
        rw [abs_mul, abs_of_nonneg hp0]
        by_cases hz : p.2 = 0
        · simp [hz]
        · exact mul_le_mul_of_nonneg_left (g1 p (by simp) hz) hp0
      have e : mean1 (p :: l) f = p.2 * f p.1 + mean1 l f := by simp [mean1]
      rw [e, List.map_cons, List.sum_cons, add_mul]
      exact (abs_add_le _ _).trans (add_le_add hp i)
  have := key d h0 hf
  rwa [h1, one_mul] at this

/-- The values of the game are bounded. -/
theorem exp_bound (G : SolvableS env m cfg obs lo hi) (n : Nat) : ∀ t s, |expValue env m obs n t s| ≤ (n + 1) * max (-lo) hi := by
  have hM0 : 0 ≤ max (-lo) hi := le_trans G.bounded.hi0 (le_max_right _ _)
  have hin : ∀ x : ℝ, lo ≤ x → x ≤ hi → |x| ≤ max (-lo) hi := by
    intro x h1 h2
    rw [abs_le]
    exact ⟨by have := le_max_left (-lo) hi; linarith, h2.trans (le_max_right _ _)⟩
  induction n with
  | zero => intro t s; simpa [expValue] using hin _ (G.bounded.heur s).1 (G.bounded.heur s).2
  | succ n ih =>
    intro t s
    cases hsink : env.isSink s with
    | true => simp only [expValue, hsink, if_true, abs_zero]; positivity
    | false =>
      by_cases hemp : env.actions s = []
      · have : expValue env m obs (n + 1) t s = 0 := by
          simp only [expValue, hsink, hemp, List.map_nil]
          cases isOpponent m t <;> simp [bestOf]
        rw [this, abs_zero]; positivity
      · obtain ⟨⟨a, ha, haV⟩, _⟩ := best_action (m := m) (obs := obs) (n := n) (t := t) hsink hemp
        rw [← haV]
        unfold actionValue
        obtain ⟨x1, x2⟩ := G.distr s a hsink ha
        have h1 := mean1_abs_support x1 (f := fun o => env.reward s a o) (V := max (-lo) hi) (fun p hp hz =>
          hin _ (G.bounded.reward s a p.1 ha (x2 p hp hz)).1 (G.bounded.reward s a p.1 ha (x2 p hp hz)).2)
        have h2 := mean1_abs x1 (f := fun o => expValue env m obs n (t + 1) o) (fun o => ih (t + 1) o)
        have := abs_add_le (mean1 (obs s a) fun o => env.reward s a o) (mean1 (obs s a) fun o => expValue env m obs n (t + 1) o)
        push_cast
        linarith

/-- The surplus of an observation has mean zero and is bounded. -/
theorem surplus_centred (G : SolvableS env m cfg obs lo hi) (hD : D.obs = obs) :
    Centred env D dp (surplus env m obs) (2 * (((remaining m dp : ℝ) + 2) * max (-lo) hi) + 1) := by
  have hM0 : 0 ≤ max (-lo) hi := le_trans G.bounded.hi0 (le_max_right _ _)
  have hin : ∀ x : ℝ, lo ≤ x → x ≤ hi → |x| ≤ max (-lo) hi := by
    intro x h1 h2
    rw [abs_le]
    exact ⟨by have := le_max_left (-lo) hi; linarith, h2.trans (le_max_right _ _)⟩
  have hV : ∀ dep tim : Int, dp ≤ dep → ∀ s, |expValue env m obs (remaining m (dep + 1)) tim s| ≤ ((remaining m dp : ℝ) + 1) * max (-lo) hi := by
    intro dep tim hdep s
    refine (exp_bound G _ tim s).trans (mul_le_mul_of_nonneg_right ?_ hM0)
    have : remaining m (dep + 1) ≤ remaining m dp := by unfold remaining; omega
    have : (remaining m (dep + 1) : ℝ) ≤ remaining m dp := by exact_mod_cast this
    linarith
  refine ⟨fun s a dep tim hs ha hdep => ?_, fun s a dep tim o hs ha hdep ho => ?_⟩
  · obtain ⟨x1, _⟩ := G.distr s a hs ha
    rw [hD]
    unfold surplus actionValue
    simp only [sub_eq_add_neg]
    rw [mean1_add, mean1_add, Eval.mean1_const x1]
    ring
  · obtain ⟨x1, x2⟩ := G.distr s a hs ha
    have h0 := hin _ (G.bounded.reward s a o ha ho).1 (G.bounded.reward s a o ha ho).2
    have h1 := hV dep (tim + 1) hdep o
    have h2 := mean1_abs_support x1 (f := fun o => env.reward s a o) (V := max (-lo) hi) (fun p hp hz =>
      hin _ (G.bounded.reward s a p.1 ha (x2 p hp hz)).1 (G.bounded.reward s a p.1 ha (x2 p hp hz)).2)
    have h3 := mean1_abs x1 (f := fun o => expValue env m obs (remaining m (dep + 1)) (tim + 1) o) (fun o => hV dep (tim + 1) hdep o)
    unfold surplus actionValue
    rw [abs_le] at *
    constructor <;> linarith [h0.1, h0.2, h1.1, h1.2, h2.1, h2.2, h3.1, h3.2]

theorem exec_suffix {ls : List (Nat × Choice S A)} {st1 : St S A ℝ (Stats ℝ) (Stats ℝ)} {h1 : List (Event S A ℝ)}
    (hx : execFrom env m (uct cfg m) st1 h1 ls = some (st, h)) : h1 <:+ h :=
  exec_induct (fun _ h' => h1 <:+ h') (fun _ _ _ e _ hp _ _ => hp.trans (List.suffix_cons e _)) (List.suffix_refl _) hx

/-- Samples are typical with high probability. -/
theorem typical_prob (G : SolvableS env m cfg obs lo hi) (s0 : S) (dp : Int) {η : ℝ} (hη0 : 0 < η)
    (hη1 : η ≤ 2 * (2 * (((remaining m dp : ℝ) + 2) * max (-lo) hi) + 1)) {δ : ℝ} (hδ : 0 < δ) :
    ∃ K0 : ℝ, 0 ≤ K0 ∧ ∀ {k : Nat} {tm : Int} {tb : List ((Int × S) × Option Nat)} {D : Dice S A ℝ (Stats ℝ) (Stats ℝ)} {N : Nat} {pa po : ℝ}
      {sched : Scheduler S A ℝ} (n : Nat), Leftover tb → D.obs = obs → Explores env m (uct cfg m) D k s0 dp tm tb N pa po →
      1 - δ ≤ probAfter env m (uct cfg m) D k s0 dp tm tb N sched n (fun st h => ∀ c, ¬ EverFar (surplus env m obs) η K0 c st h) := by
  set b := 2 * (((remaining m dp : ℝ) + 2) * max (-lo) hi) + 1 with hb
  have hM0 : 0 ≤ max (-lo) hi := le_trans G.bounded.hi0 (le_max_right _ _)
  have hb0 : 0 < b := by positivity
  set L := plays env (m.maxDepth - dp).toNat s0 with hL
  obtain ⟨B, hB⟩ := uniformN L (fun l B => (env.actions (endState s0 l)).length ≤ B) (fun _ _ _ h1 h2 => h2.trans h1) (fun l _ => ⟨_, le_refl _⟩)
  set C := L.length * B with hC
  set K0 := 2 * b ^ 2 / η * Real.log (2 * C / δ + 1) with hK0
  have hC0 : (0 : ℝ) ≤ 2 * C / δ := by positivity
  have hK00 : 0 ≤ K0 := mul_nonneg (by positivity) (Real.log_nonneg (by linarith))
  refine ⟨K0, hK00, ?_⟩
  intro k tm tb D N pa po sched n htb hD hX
  have ht : TableOk m tb := fun h => by rw [G.noTable] at h; exact absurd h (by simp)
  have hv := uct_valid cfg m
  have h1 := (c77_prob_range hv htb ht hX n (sched := sched) (fun st h => ∀ c, ¬ EverFar (surplus env m obs) η K0 c st h)).2.2
  have h2 : probAfter env m (uct cfg m) D k s0 dp tm tb N sched n (fun st h => ¬ ∀ c, ¬ EverFar (surplus env m obs) η K0 c st h) ≤
      probAfter env m (uct cfg m) D k s0 dp tm tb N sched n (fun st h => ∃ c ∈ List.range C, EverFar (surplus env m obs) η K0 c st h) := by
    refine prob_mono hv htb ht hX ?_
    intro st h hr hx
    push Not at hx
    obtain ⟨c, hx⟩ := hx
    refine ⟨c, List.mem_range.2 ?_, hx⟩
    obtain ⟨nc, hnc, _⟩ := hx
    exact lt_of_lt_of_le (List.getElem?_eq_some_iff.1 hnc).1 (chance_count hv htb hr hB)
  have h3 := prob_union hv htb ht hX (sched := sched) (List.range C) (fun c => EverFar (surplus env m obs) η K0 c) n
    (fun c _ => ever_far hv htb ht hX (surplus_centred G hD) hb0 hη0 hη1 hK00 c n)
  rw [List.length_range] at h3
  have h4 : Real.exp (-(η * K0 / (2 * b ^ 2))) = (2 * C / δ + 1)⁻¹ := by
    have : η * K0 / (2 * b ^ 2) = Real.log (2 * C / δ + 1) := by
      rw [hK0]
      field_simp
    rw [this, Real.exp_neg, Real.exp_log (by linarith)]
  have h5 : (C : ℝ) * (2 * Real.exp (-(η * K0 / (2 * b ^ 2)))) ≤ δ := by
    rw [h4]
    have e : (2 * C / δ + 1 : ℝ) = (2 * C + δ) / δ := by field_simp
    rw [e, inv_div, ← mul_assoc, ← mul_div_assoc, div_le_iff₀ (by positivity)]
    nlinarith
  linarith

/-- C102, everywhere.  For every accuracy and failure probability there is a number of trials such that, with at most that probability of
failing, at every moment of the search every node from which that many trials went on has solved the game: its value, the values of all its
actions, the share of the trials that suboptimal actions get and the recommendation are right.  The number depends neither on the
scheduler, nor on the budget of trials, nor on how the search breaks ties (the part `D.sel` of the dice). -/
theorem c102_always (G : SolvableS env m cfg obs lo hi) {ε δ : ℝ} (hε : 0 < ε) (hδ : 0 < δ) (k : Nat) (s0 : S) {dp : Int} (tm : Int) {lowI : Int}
    (hlowI : lowI ≤ 0) (hlow : cfg.low ≤ (remaining m dp + 1 : Nat) * lo ∧ cfg.low ≤ -((remaining m dp + 1 : Nat) * hi)) :
    ∃ N0 : Nat, ∀ {tb : List ((Int × S) × Option Nat)} {D : Dice S A ℝ (Stats ℝ) (Stats ℝ)} {N : Nat} {pa po : ℝ} {sched : Scheduler S A ℝ} (n : Nat),
      Leftover tb → D.obs = obs → Explores env m (uct cfg m) D k s0 dp tm tb N pa po →
      1 - δ ≤ probAfter env m (uct cfg m) D k s0 dp tm tb N sched n (AlwaysSolved env m cfg obs k s0 dp tm tb lowI ε N0) := by
  set b := 2 * (((remaining m dp : ℝ) + 2) * max (-lo) hi) + 1 with hb
  have hM0 : 0 ≤ max (-lo) hi := le_trans G.bounded.hi0 (le_max_right _ _)
  have hb0 : 0 < b := by positivity
  set L := plays env (m.maxDepth - dp).toNat s0 with hL
  obtain ⟨η0, hη0, hη⟩ := uniformE L (fun l e => env.isSink (endState s0 l) = false → ∀ η : ℝ, 0 < η → η ≤ e →
      Eventually env m cfg k dp obs (remaining m (dp + l.length + 1)) (tm + l.length) (endState s0 l)
        (fun st h d _ => SolvedAt env m cfg obs lowI ε st h d) η)
    (fun l e e' he H hs η h0 h1 => H hs η h0 (h1.trans he)) (fun l _ => by
      by_cases hs : env.isSink (endState s0 l) = false
      · obtain ⟨e, he, H⟩ := solved_typ G hε k (dp := dp) (remaining m (dp + l.length + 1)) (tm + l.length) hs hlowI hlow
        exact ⟨e, he, fun _ => H⟩
      · exact ⟨1, one_pos, fun hs' => absurd hs' hs⟩)
  set η := min η0 b with hηdef
  have hη1 : 0 < η := lt_min hη0 hb0
  obtain ⟨K0, hK0, hP⟩ := typical_prob G s0 dp hη1 ((min_le_right _ _).trans (by linarith)) hδ
  obtain ⟨N0, hN0⟩ := uniformN L (fun l N => env.isSink (endState s0 l) = false → ∀ (st : St S A ℝ (Stats ℝ) (Stats ℝ)) (h : List (Event S A ℝ)),
      Typ env m cfg k dp obs η K0 st h → ∀ (d : Nat) nd, st.dn[d]? = some nd → nd.state = endState s0 l → nd.time = tm + l.length →
        remaining m nd.depth = remaining m (dp + l.length + 1) + 1 → N ≤ trialsThrough d h → SolvedAt env m cfg obs lowI ε st h d)
    (fun l N N' hN H hs st h R d nd e1 e2 e3 e4 e5 => H hs st h R d nd e1 e2 e3 e4 (hN.trans e5)) (fun l hl => by
      by_cases hs : env.isSink (endState s0 l) = false
      · obtain ⟨N, H⟩ := hη l hl hs η hη1 (min_le_left _ _) K0 hK0
        exact ⟨N, fun _ => H⟩
      · exact ⟨0, fun hs' => absurd hs' hs⟩)
  refine ⟨N0, ?_⟩
  intro tb D N pa po sched n htb hD hX
  have ht : TableOk m tb := fun h => by rw [G.noTable] at h; exact absurd h (by simp)
  have hv := uct_valid cfg m
  refine (hP n htb hD hX).trans (prob_mono hv htb ht hX ?_)
  intro st h hr htyp st1 h1 hr1 ⟨ls, hx⟩ d nd hd hs hdep hN
  have I := reach_inv hv htb hr1
  have T : Typ env m cfg k dp obs η K0 st h := ⟨⟨s0, tm, tb, htb, hr⟩, htyp⟩
  have T1 := T.sub htb hr1 (exec_le hx) (exec_suffix hx)
  have hdp := (I.tree.heap.dTime d nd.skel (by simp [hd])).2
  simp only [DNode.skel] at hdp
  obtain ⟨l, k1, k2, k3⟩ := every_node hv htb hr1 (nd.depth - dp).toNat d nd hd (by omega)
  obtain ⟨nr, r1, r2, r3, r4⟩ := root_node I.tree
  obtain ⟨nd', q1, q2, q3, q4⟩ := k1.node I.tree r1
  rw [hd] at q1
  obtain rfl := Option.some.inj q1
  rw [r2] at q2
  rw [r3] at q3
  rw [r4] at q4
  refine hN0 l (mem_plays.2 ⟨k2, by omega⟩) (by rw [← q2]; exact hs) st1 h1 T1 d nd hd q2 q4 ?_ hN
  rw [q3]
  rw [q3] at hdep
  unfold remaining
  omega

/-- C102 at the root.  For every accuracy and failure probability there is a number of trials from which on every search of that many trials ends
with the game solved at the root, with at most that probability of failing. -/
theorem c102_root (G : SolvableS env m cfg obs lo hi) {ε δ : ℝ} (hε : 0 < ε) (hδ : 0 < δ) {k : Nat} (hk : 0 < k) {s0 : S} {dp : Int} (tm : Int)
    (hsink : env.isSink s0 = false) (hdp : dp < m.maxDepth) {lowI : Int}
    (hlowI : lowI ≤ 0) (hlow : cfg.low ≤ (remaining m dp + 1 : Nat) * lo ∧ cfg.low ≤ -((remaining m dp + 1 : Nat) * hi)) :
    ∃ N0 : Nat, ∀ {tb : List ((Int × S) × Option Nat)} {D : Dice S A ℝ (Stats ℝ) (Stats ℝ)} {N : Nat} {pa po : ℝ} {sched : Scheduler S A ℝ} {n : Nat},
      N0 ≤ N → Leftover tb → D.obs = obs → Explores env m (uct cfg m) D k s0 dp tm tb N pa po →
      Productive env m (uct cfg m) k s0 dp tm tb N sched → (4 * (m.maxDepth - dp).toNat + 4) * N ≤ n →
      1 - δ ≤ probAfter env m (uct cfg m) D k s0 dp tm tb N sched n
        (fun st h => Finished N st h ∧ SolvedAt env m cfg obs lowI ε st h st.root) := by
  obtain ⟨N0, H⟩ := c102_always G hε hδ k s0 (dp := dp) tm hlowI hlow
  refine ⟨N0, ?_⟩
  intro tb D N pa po sched n hN htb hD hX hsch hn
  have ht : TableOk m tb := fun h => by rw [G.noTable] at h; exact absurd h (by simp)
  have hv := uct_valid cfg m
  have h1 := H (sched := sched) n htb hD hX
  rw [prob_finished hv htb ht hX hdp.le hk hsch hn] at h1
  refine h1.trans (prob_mono hv htb ht hX ?_)
  rintro st h hr ⟨hf, hA⟩
  refine ⟨hf, ?_⟩
  obtain ⟨nd, e1, e2, e3, e4, e5⟩ := root_trials htb hr hsink hdp
  exact hA st h hr ⟨[], rfl⟩ st.root nd e1 (by rw [e2]; exact hsink) (by rw [e3]; exact hdp) (by rw [hf.2] at e5; omega)

/-! ## The code's own random choices -/

/-- Without uniformly random actions the choices of UCT and PUCT are a distribution over the actions that `select_action` can return. -/
theorem c102_uct_choices {iter : View S A (Stats ℝ) (Stats ℝ) → List (A × ℝ) → List (A × ℝ)} (U : UctOk cfg env m dp lo hi) (hl : env.Live)
    (htb : Leftover tb) (he0 : cfg.epsilon ≤ 0) (hnd : ∀ s, (env.actions s).Nodup) (hit : ∀ v, IterOk (iter v)) (hobs : Transitions env obs po) :
    Explores env m (uct cfg m) (uctDice cfg iter obs) k s0 dp tm tb N 0 po where
  obs := hobs
  sel := by
    intro st h w cur path rs new nd hr hN hw hd hs v
    have hne : v.actions ≠ [] := hl.acts _ (cont_notSink hs)
    set M := v.actions.length.factorial with hM
    have hM0 : (0 : ℝ) < M := by exact_mod_cast Nat.factorial_pos _
    choose c hc using fun raw => uct_ucb_total U hl htb hr hd hs raw (hit v)
    have hc' : ∀ raw, c raw ∈ v.actions := fun raw => (selectUcb_mem (hit v) (hc raw)).1
    have hf : ∀ raw, (fun u => selectAction cfg v u raw (iter v)) = fun u => if u < 0 then some (c raw) else some (c raw) := by
      intro raw
      funext u
      unfold selectAction
      rw [if_neg (fun h => absurd h.1 (not_lt.2 he0)), ite_self]
      exact hc raw
    have hpr : ∀ raw a, prob (fun u => selectAction cfg v u raw (iter v)) (· = some a) = if some (c raw) = some a then 1 else 0 := by
      intro raw a
      rw [hf, prob_split le_rfl zero_le_one]
      simp
    have hD : (uctDice cfg iter obs).sel v (st.ctxOf w) = v.actions.map fun a => (a, ((List.range M).map fun raw =>
        prob (fun u => selectAction cfg v u raw (iter v)) (· = some a)).sum / M) := rfl
    rw [hD]
    have hnn : ∀ a, 0 ≤ ((List.range M).map fun raw => prob (fun u => selectAction cfg v u raw (iter v)) (· = some a)).sum / M := by
      intro a
      refine div_nonneg (List.sum_nonneg ?_) hM0.le
      intro y hy
      obtain ⟨raw, _, rfl⟩ := List.mem_map.1 hy
      exact prob_nonneg _ _
    refine ⟨⟨?_, ?_⟩, ?_, ?_⟩
    · intro x hx
      obtain ⟨a, _, rfl⟩ := List.mem_map.1 hx
      exact hnn a
    · rw [List.map_map]
      have hone : ∀ raw, (v.actions.map fun a => prob (fun u => selectAction cfg v u raw (iter v)) (· = some a)).sum = 1 := by
        intro raw
        simp only [hpr]
        rw [sum_ite (l := v.actions) (hnd _) _ (hc' raw)]
      have swap : ∀ l : List Nat, (v.actions.map fun a => (l.map fun raw => prob (fun u => selectAction cfg v u raw (iter v)) (· = some a)).sum / M).sum =
          l.length / M := by
        intro l
        induction l with
        | nil => simp
        | cons raw l ih =>
          simp only [List.map_cons, List.sum_cons, List.length_cons, add_div]
          rw [List.sum_map_add, ih]
          have : (v.actions.map fun a => prob (fun u => selectAction cfg v u raw (iter v)) (· = some a) / M).sum = 1 / M := by
            rw [← hone raw]
            simp only [div_eq_mul_inv]
            rw [List.sum_map_mul_right]
          rw [this]
          push_cast
          ring
      have := swap (List.range M)
      rw [List.length_range, div_self hM0.ne'] at this
      exact this
    · intro x hx hx0
      obtain ⟨a, _, rfl⟩ := List.mem_map.1 hx
      have : ∃ raw, prob (fun u => selectAction cfg v u raw (iter v)) (· = some a) ≠ 0 := by
        by_contra hx1
        push Not at hx1
        apply hx0
        simp only [hx1]
        simp
      obtain ⟨raw, g⟩ := this
      obtain ⟨u, g0, g1, g2⟩ := prob_ne_zero g
      exact (selectable_iff cfg v a).2 ⟨u, raw, iter v, g0, g1, hit v, g2⟩
    · intro a ha
      rw [weightOf_map (l := v.actions) (hnd _) _ ha]
      exact hnn a

/-- C102 for the code's own random choices: ties are broken by the remainder of a random number. -/
theorem c102_uct (G : SolvableS env m cfg obs lo hi) (hl : env.Live) (hnd : ∀ s, (env.actions s).Nodup)
    {ε δ : ℝ} (hε : 0 < ε) (hδ : 0 < δ) {k : Nat} (hk : 0 < k) {s0 : S} {dp : Int} (tm : Int)
    (hsink : env.isSink s0 = false) (hdp : dp < m.maxDepth) {lowI : Int} (hlowI : lowI ≤ 0)
    (hlow : cfg.low ≤ (remaining m dp + 1 : Nat) * lo ∧ cfg.low ≤ -((remaining m dp + 1 : Nat) * hi)) :
    ∃ N0 : Nat, ∀ {iter : View S A (Stats ℝ) (Stats ℝ) → List (A × ℝ) → List (A × ℝ)} {N : Nat} {sched : Scheduler S A ℝ} {n : Nat},
      N0 ≤ N → (∀ v, IterOk (iter v)) → Productive env m (uct cfg m) k s0 dp tm [] N sched → (4 * (m.maxDepth - dp).toNat + 4) * N ≤ n →
      1 - δ ≤ probAfter env m (uct cfg m) (uctDice cfg iter obs) k s0 dp tm [] N sched n
        (fun st h => Finished N st h ∧ SolvedAt env m cfg obs lowI ε st h st.root) := by
  obtain ⟨N0, H⟩ := c102_root G hε hδ hk tm hsink hdp hlowI hlow
  have U : UctOk cfg env m dp lo hi := by
    refine ⟨G.bounded, G.growing.1, ?_, ?_, hlow⟩
    · rcases G.fair.bias with h | h
      · exact .inl h
      · exact .inr h.le
    · intro f hf s a ha
      obtain ⟨p, h1, h2⟩ := G.fair.prior f hf s a ha
      exact ⟨p, h1, h2.le⟩
  have htb : Leftover ([] : List ((Int × S) × Option Nat)) := by simp [Leftover]
  have hobs : Transitions env obs 0 := by
    intro s a hs ha
    obtain ⟨x1, x2⟩ := G.distr s a hs ha
    refine ⟨x1, x2, fun o _ => ?_⟩
    unfold weightOf mass
    refine List.sum_nonneg ?_
    intro x hx
    obtain ⟨p, hp, rfl⟩ := List.mem_map.1 hx
    exact x1.1 p (List.mem_of_mem_filter hp)
  exact ⟨N0, fun hN hit hsch hn => H hN htb rfl (c102_uct_choices U hl htb G.fair.eps hnd hit hobs) hsch hn⟩

end

/-! ## Example -/

/-- UCT, or PUCT with the power 1/2 and a prior that favours the worse action, in the environment of C90. -/
noncomputable def coinUct (mv puct : Bool) : Cfg Bool Bool ℝ :=
  { bias := -1, epsilon := 0, pseudo := 3, mostVisited := mv, prior := if puct then some fun _ => [(false, 3 / 4), (true, 1 / 4)] else none,
    term := if puct then puctTerm (1 / 2) else uctTerm, low := -100 }

theorem coinSolvable (mv puct : Bool) : SolvableS coinEnv coinMgr (coinUct mv puct) coinObs 0 1 where
  distr s a hs ha := ⟨(coinTransitions s a hs ha).1, (coinTransitions s a hs ha).2.1⟩
  bounded := ⟨le_rfl, zero_le_one, fun s a o _ _ => by cases s <;> norm_num [coinEnv], fun s => by norm_num [heurOf, coinMgr]⟩
  noTable := rfl
  fair := ⟨by simp [coinUct], .inl rfl, fun f hf s a ha => by
    cases puct with
    | false => simp [coinUct] at hf
    | true =>
      simp only [coinUct, if_true, Option.some.injEq] at hf
      subst hf
      cases a
      · exact ⟨3 / 4, by simp [find?], by norm_num⟩
      · exact ⟨1 / 4, by simp [find?], by norm_num⟩⟩
  term := by
    cases puct
    · exact .inl (by simp [coinUct])
    · exact .inr (.inl ⟨1 / 2, by norm_num, by norm_num, by simp [coinUct]⟩)

/-- The hypotheses of `c102_uct` hold for the coin environment with UCT and with PUCT with a prior, and with either criterion: from some number of
trials on a search by three workers ends, with probability at least 99/100, with the right value and with `true` recommended; and such searches exist. -/
example (mv puct : Bool) : ∃ N0, ∀ N ≥ N0, ∃ sched : Scheduler Bool Bool ℝ, ∀ n, 12 * N ≤ n →
    99 / 100 ≤ probAfter coinEnv coinMgr (uct (coinUct mv puct) coinMgr) (uctDice (coinUct mv puct) (fun _ l => l) coinObs) 3 false 0 0 [] N sched n
      (fun st h => Finished N st h ∧ ∃ nd, st.dn[st.root]? = some nd ∧ |nd.x.avg - 3 / 4| ≤ 1 / 100 ∧
        ∀ raw, recommend (coinUct mv puct) (-1) (viewOf coinEnv coinMgr st nd) raw id id = some true) := by
  have htb : Leftover ([] : List ((Int × Bool) × Option Nat)) := by simp [Leftover]
  have ht : TableOk coinMgr ([] : List ((Int × Bool) × Option Nat)) := by simp [TableOk, coinMgr]
  have hv := uct_valid (coinUct mv puct) coinMgr
  obtain ⟨N0, H⟩ := c102_uct (coinSolvable mv puct) coinLive (by simp [coinEnv]) (ε := 1 / 100) (δ := 1 / 100) (by norm_num) (by norm_num) (k := 3)
    (by norm_num) (s0 := false) (dp := 0) 0 (by simp [coinEnv]) (by simp [coinMgr]) (lowI := -1) (by norm_num)
    (by rw [show remaining coinMgr 0 = 2 from rfl]; constructor <;> norm_num [coinUct])
  refine ⟨N0, fun N hN => ?_⟩
  obtain ⟨sched, hsch⟩ := productive_exists (env := coinEnv) (m := coinMgr) (k := 3) (s0 := false) (dp := 0) (tm := 0) (N := N) hv htb ht
  refine ⟨sched, fun n hn => ?_⟩
  have U : UctOk (coinUct mv puct) coinEnv coinMgr 0 0 1 := by
    refine ⟨(coinSolvable mv puct).bounded, (coinSolvable mv puct).growing.1, .inl rfl, ?_, ?_⟩
    · intro f hf s a ha
      obtain ⟨p, h1, h2⟩ := (coinSolvable mv puct).fair.prior f hf s a ha
      exact ⟨p, h1, h2.le⟩
    · rw [show remaining coinMgr 0 = 2 from rfl]; constructor <;> norm_num [coinUct]
  have hX := c102_uct_choices (cfg := coinUct mv puct) (k := 3) (s0 := false) (tm := 0) (N := N) (iter := fun _ l => l) U coinLive htb (by simp [coinUct]) (by simp [coinEnv])
    (fun v l a => Iff.rfl) coinTransitions
  have key := H (iter := fun _ l => l) (sched := sched) (n := n) hN (fun v l a => Iff.rfl) hsch hn
  refine le_trans (by norm_num) (key.trans (prob_mono hv htb ht hX ?_))
  rintro st h hr ⟨h1, nd, e1, e2, _, _, e3⟩
  obtain ⟨nr, r1, r2, r3, r4⟩ := root_node (reach_inv hv htb hr).tree
  rw [e1] at r1
  obtain rfl := Option.some.inj r1
  rw [r2, r3, r4, show remaining coinMgr 0 = 2 from rfl, coinValue2] at e2 e3
  refine ⟨h1, nd, e1, by simpa using e2, fun raw => ?_⟩
  obtain ⟨a, g1, _, g2⟩ := e3 raw id id (fun _ _ => Iff.rfl) (fun _ _ => Iff.rfl)
  rw [show remaining coinMgr (0 + 1) = 1 from rfl, coinAction] at g2
  cases a with
  | true => exact g1
  | false => norm_num at g2

end Verif.Uct
