import Verif.Props.Ments
import Verif.Props.Decay
import Verif.Proofs.MentsSearch

/-!
# Properties of MENTS: C33 (soft part), C34, C36, C37, C55
-/

set_option linter.unusedSectionVars false
set_option linter.unusedSimpArgs false

namespace Verif.Ments

open Verif.Search Verif.Sampling Verif.Spec Verif.Backups
open Verif.Uct (IterOk)

variable {S A X Y : Type} [DecidableEq S] [DecidableEq A] {cfg : Cfg S A} {q : A → Except Bad ℝ} {v : View S A X Y} {Q : A → ℝ}

/-! ## C33 -/

/-- C33.  The soft backup of a chance node: local reward plus the mean of the children's values weighted by their backup counts. -/
theorem c33_soft_backup (localReward : ℝ) (l : List (Nat × ℝ)) (y : Soft) :
    softBackupC localReward (l.map fun p => { n := p.1, val := some p.2 }) y = { n := y.n + 1, val := some (localReward + wmean l) } := by
  simp only [softBackupC, finiteSoft_mk, Option.map_some]
  rw [meanLoop_eq, add_comm (wmean l)]

/-! ## C34 -/

/-- The pseudo Q-values of the actions of a prior. -/
noncomputable def pseudoQs (cfg : Cfg S A) (s : S) (prior : List (A × ℝ)) : List ℝ :=
  prior.map fun p => logWeight p.2 + nodeOffset cfg s

noncomputable def mean (l : List ℝ) : ℝ := l.sum / l.length

theorem shiftLoop_one (l : List (A × ℝ)) : ∀ (mean : ℝ), shiftLoop l mean 1 = ((l.getLast?).map fun p => logWeight p.2).getD mean := by
  induction l with
  | nil => intro mean; rfl
  | cons p l ih =>
    intro mean
    obtain ⟨a, w⟩ := p
    simp only [shiftLoop]
    rw [ih]
    cases l with
    | nil => simp
    | cons p' l' =>
      cases h : (p' :: l').getLast? with
      | none => simp at h
      | some r => rw [List.getLast?_cons_cons, h]; rfl

/-- C34, what the code computes instead: the offset is such that the action visited last in the prior's iteration order gets
`psuedo_q_value_offset`. -/
theorem c34_last_action_is_centred {f : S → List (A × ℝ)} (hp : cfg.prior = some f) (hs : cfg.shift = true) (s : S) {p : A × ℝ}
    (hl : (f s).getLast? = some p) : logWeight p.2 + nodeOffset cfg s = cfg.offset := by
  simp only [nodeOffset, hp, hs, if_true]
  rw [shiftLoop_one, hl]
  simp

/-- C34 is false of the code: with prior probabilities 1/4 and 3/4 the pseudo Q-values do not have mean
`psuedo_q_value_offset`, whatever that is. -/
theorem c34_mean_false : ∃ f : Unit → List (Bool × ℝ), (∀ s, mass (f s) = 1 ∧ ∀ p ∈ f s, 0 < p.2) ∧
    ∀ cfg : Cfg Unit Bool, cfg.prior = some f → cfg.shift = true → mean (pseudoQs cfg () (f ())) ≠ cfg.offset := by
  refine ⟨fun _ => [(false, 1 / 4), (true, 3 / 4)], ?_, ?_⟩
  · intro _
    constructor
    · norm_num
    · intro p hp
      simp at hp
      rcases hp with rfl | rfl <;> norm_num
  · intro cfg hp hs
    have h1 := c34_last_action_is_centred hp hs () (p := (true, 3 / 4)) rfl
    dsimp only at h1
    simp only [mean, pseudoQs, List.map_cons, List.map_nil, List.sum_cons, List.sum_nil, List.length_cons, List.length_nil, h1]
    have e : ∀ x : ℝ, 1 / 10 ^ 32 < x → x < 10 ^ 32 → logWeight x = Real.log x := by
      intro x h1 h2
      unfold logWeight logMaxArg logMinArg
      rw [if_neg (not_le.2 h2), if_pos h1]
    have h2 := e (3 / 4) (by norm_num) (by norm_num)
    have h3 := e (1 / 4) (by norm_num) (by norm_num)
    rw [h2] at h1
    rw [h3]
    have h4 : Real.log (1 / 4) < Real.log (3 / 4) := Real.log_lt_log (by norm_num) (by norm_num)
    push_cast
    intro h5
    linarith

/-- C34, proved part: for priors that give all actions the same probability (in particular with one action) the mean is
`psuedo_q_value_offset`.  Missing: other priors, for which it is false. -/
theorem c34_mean_partial {f : S → List (A × ℝ)} (hp : cfg.prior = some f) (hs : cfg.shift = true) (s : S) (hne : f s ≠ [])
    (w : ℝ) (hw : ∀ p ∈ f s, p.2 = w) : mean (pseudoQs cfg s (f s)) = cfg.offset := by
  have h1 := c34_last_action_is_centred hp hs s (List.getLast?_eq_some_getLast hne)
  rw [hw _ (List.getLast_mem hne)] at h1
  have h2 : pseudoQs cfg s (f s) = (f s).map fun _ => cfg.offset := by
    refine List.map_congr_left ?_
    intro p hp
    rw [hw p hp, h1]
  have hn : ((f s).length : ℝ) ≠ 0 := by exact_mod_cast (List.length_pos_of_ne_nil hne).ne'
  rw [mean, h2]
  simp only [List.map_const', List.sum_replicate, List.length_replicate, nsmul_eq_mul]
  field_simp

example : mean (pseudoQs { exCfg with shift := true, offset := 7 } () [(true, 1 / 2), (false, 1 / 2)]) = 7 :=
  c34_mean_partial (cfg := { exCfg with shift := true, offset := 7 }) (f := fun _ => [(true, 1 / 2), (false, 1 / 2)]) rfl rfl ()
    (by simp) (1 / 2) (by simp)

/-! ## C55 -/

/-- C55 is false of the code: an impossible action gets a larger pseudo Q-value than one with a tiny probability. -/
theorem c55_pseudo_q_monotone_false : ∃ w w' : ℝ, 0 ≤ w ∧ w < w' ∧ w' ≤ 1 ∧ logWeight w' < logWeight w := by
  refine ⟨0, 1 / 10 ^ 20, le_rfl, by positivity, by norm_num, ?_⟩
  have h1 : logWeight 0 = -32 := by
    unfold logWeight logMaxArg logMinArg minLogWeight
    rw [if_neg (by norm_num), if_neg (by norm_num)]
  have h2 : logWeight (1 / 10 ^ 20) = Real.log (1 / 10 ^ 20) := by
    unfold logWeight logMaxArg logMinArg
    rw [if_neg (by norm_num), if_pos (by norm_num)]
  rw [h1, h2, Real.log_lt_iff_lt_exp (by positivity)]
  have h3 : Real.exp (-32) = (Real.exp 1 ^ 32)⁻¹ := by
    rw [← Real.exp_nat_mul, Real.exp_neg]
    norm_num
  rw [h3, one_div, inv_lt_inv₀ (by positivity) (by positivity)]
  calc Real.exp 1 ^ 32 < 3 ^ 32 := by
        refine pow_lt_pow_left₀ ?_ (Real.exp_pos 1).le (by norm_num)
        exact Real.exp_one_lt_three
    _ < 10 ^ 20 := by norm_num

/-- C55, proved part: monotone for probabilities that are zero, or not smaller than exp(-32).  Missing: probabilities between
1e-32 and exp(-32), about 1.3e-14, for which it is false. -/
theorem c55_pseudo_q_monotone_partial (cfg : Cfg S A) (s : S) {w w' : ℝ} (h0 : w = 0 ∨ Real.exp (-32) ≤ w) (hw : w ≤ w') (h1 : w' ≤ 1)
    (h0' : w' = 0 ∨ Real.exp (-32) ≤ w') : logWeight w + nodeOffset cfg s ≤ logWeight w' + nodeOffset cfg s := by
  have e0 : logWeight 0 = -32 := by
    unfold logWeight logMaxArg logMinArg minLogWeight
    rw [if_neg (by norm_num), if_neg (by norm_num)]
  have hexp : (1 : ℝ) / 10 ^ 32 < Real.exp (-32) := by
    have h3 : Real.exp (-32) = (Real.exp 1 ^ 32)⁻¹ := by
      rw [← Real.exp_nat_mul, Real.exp_neg]
      norm_num
    rw [h3, one_div, inv_lt_inv₀ (by positivity) (by positivity)]
    calc Real.exp 1 ^ 32 < 3 ^ 32 := pow_lt_pow_left₀ Real.exp_one_lt_three (Real.exp_pos 1).le (by norm_num)
      _ < 10 ^ 32 := by norm_num
  have e1 : ∀ x, Real.exp (-32) ≤ x → x ≤ 1 → logWeight x = Real.log x := by
    intro x g1 g2
    unfold logWeight logMaxArg logMinArg
    rw [if_neg (by intro h; have : (1 : ℝ) < 10 ^ 32 := by norm_num
                   linarith), if_pos (by linarith)]
  have hpos := Real.exp_pos (-32)
  refine add_le_add_left ?_ _
  rcases h0 with rfl | h0
  · rcases h0' with rfl | h0'
    · exact le_rfl
    · rw [e0, e1 w' h0' h1, Real.le_log_iff_exp_le (by linarith)]
      exact h0'
  · rw [e1 w h0 (by linarith), e1 w' (by linarith) h1]
    exact Real.log_le_log (by linarith) hw

/-! ## C36 -/

/-- C36.  For a well-formed configuration, at a visited node with at least one action, whatever the iteration order of the map:
a draw below `1 - |A|·1e-16` selects a valid action; any other draw either does so or lies in the removed tail and raises the
exception for too little mass. -/
theorem c36_selects_valid_action (hq : QIs q v Q) (hN : 0 < v.visits) (hne : v.actions ≠ []) (w : WellFormed cfg v)
    {eps : ℝ} (heps : 0 ≤ eps) {iter : List (A × ℝ) → List (A × ℝ)} (hi : ∀ l, List.Perm (iter l) l) {u : ℝ} (h0 : 0 ≤ u) :
    (∃ a ∈ v.actions, selectAction eps cfg q v u iter = .ok (.key a)) ∨
    (selectAction eps cfg q v u iter = .ok .tooLittle ∧ 1 - v.actions.length * (1 / 10 ^ 16) ≤ u) := by
  obtain ⟨l, h1, h2, h3, h4, h5⟩ := c31_after_dropping hq hN hne w
  have hpos : ∀ p ∈ iter l, 0 < p.2 := fun p hp => h3 p ((hi l).mem_iff.1 hp)
  have hm : mass (iter l) = mass l := ((hi l).map Prod.snd).sum_eq
  have hs : selectAction eps cfg q v u iter = .ok (pickAt 1 u 0 (iter l)) := by
    unfold selectAction
    rw [h1]
    dsimp only
    rw [sampleFrom_positive heps hpos (by rw [hm]; exact h4)]
  by_cases hu : u < mass l
  · obtain ⟨a, ha⟩ := pickAt_total 1 u (iter l) 0 h0 (by simpa [hm] using hu)
    refine .inl ⟨a, ?_, by rw [hs, ha]⟩
    refine selectAction_valid hi (u := u) (eps := eps) (cfg := cfg) (q := q) ?_
    rw [hs, ha]
  · refine .inr ⟨?_, by linarith⟩
    rw [hs, pickAt_none u (iter l) 0 hpos (by rw [hm]; linarith)]

/-- C36.  The action is selected with its probability under the search policy, or never if that is below 1e-16. -/
theorem c36_probability (hq : QIs q v Q) (hN : 0 < v.visits) (hne : v.actions ≠ []) (hnd : v.actions.Nodup) (w : WellFormed cfg v)
    {eps : ℝ} (heps : 0 ≤ eps) {iter : List (A × ℝ) → List (A × ℝ)} (hi : ∀ l, List.Perm (iter l) l) {a : A} (ha : a ∈ v.actions) :
    prob (fun u => selectAction eps cfg q v u iter) (· = .ok (.key a)) =
      if policy cfg (getTemp cfg v) v Q a < 1 / 10 ^ 16 then 0 else policy cfg (getTemp cfg v) v Q a := by
  obtain ⟨l, h1, h2, h3, h4, h5⟩ := c31_after_dropping hq hN hne w
  have hpos : ∀ p ∈ iter l, 0 < p.2 := fun p hp => h3 p ((hi l).mem_iff.1 hp)
  have hm : mass (iter l) = mass l := ((hi l).map Prod.snd).sum_eq
  have hs : ∀ u, selectAction eps cfg q v u iter = .ok (pickAt 1 u 0 (iter l)) := by
    intro u
    unfold selectAction
    rw [h1]
    dsimp only
    rw [sampleFrom_positive heps hpos (by rw [hm]; exact h4)]
  have hkeys : (l.map Prod.fst).Nodup := by
    have h6 : actionDistr cfg q v = .ok ((v.actions.map fun a => (a, policy cfg (getTemp cfg v) v Q a)).filter fun p => ¬ p.2 < EPS) := by
      rw [actionDistr, fullDistr_eq hq hN w.covers]
    rw [h1] at h6
    simp only [Except.ok.injEq] at h6
    rw [h6]
    refine (List.filter_sublist.map Prod.fst).nodup ?_
    simpa [List.map_map, Function.comp_def] using hnd
  have hkeys' : ((iter l).map Prod.fst).Nodup := (((hi l).map Prod.fst).nodup_iff).2 hkeys
  by_cases hsmall : policy cfg (getTemp cfg v) v Q a < 1 / 10 ^ 16
  · rw [if_pos hsmall]
    have : prob (fun u => selectAction eps cfg q v u iter) (· = .ok (.key a)) = 0 - 0 := by
      refine prob_interval le_rfl zero_le_one le_rfl ?_
      intro u h0 hu1
      constructor
      · intro h
        rw [hs u] at h
        simp only [Except.ok.injEq] at h
        have h7 := pickAt_mem 1 u _ _ _ h
        rw [((hi l).map Prod.fst).mem_iff] at h7
        obtain ⟨⟨b, p⟩, hp, rfl⟩ := List.mem_map.1 h7
        obtain ⟨_, rfl, h8⟩ := (h2 b p).1 hp
        exact absurd h8 (not_le.2 hsmall)
      · rintro ⟨_, h⟩
        linarith
    simpa using this
  · rw [if_neg hsmall]
    have hmem : (a, policy cfg (getTemp cfg v) v Q a) ∈ iter l := (hi l).mem_iff.2 ((h2 _ _).2 ⟨ha, rfl, not_lt.1 hsmall⟩)
    obtain ⟨pre, suf, hd⟩ := List.append_of_mem hmem
    have hmm : mass pre + (policy cfg (getTemp cfg v) v Q a + mass suf) ≤ 1 := by
      have : mass (iter l) ≤ 1 := by rw [hm]; exact h4
      rw [hd] at this
      simpa using this
    have g1 : 0 ≤ mass pre := mass_nonneg fun p hp => (hpos p (by simp [hd, hp])).le
    have g2 : 0 ≤ mass suf := mass_nonneg fun p hp => (hpos p (by simp [hd, hp])).le
    have g3 : 0 < policy cfg (getTemp cfg v) v Q a := hpos _ hmem
    have : prob (fun u => selectAction eps cfg q v u iter) (· = .ok (.key a)) =
        (mass pre + policy cfg (getTemp cfg v) v Q a) - mass pre := by
      refine prob_interval g1 (by linarith) (by linarith) ?_
      intro u h0 hu1
      rw [hs u, Except.ok.injEq, hd, pickAt_iff 1 u one_pos pre a _ suf 0 (by rw [← hd]; exact hkeys')
        (by rw [← hd]; exact fun p hp => (hpos p hp).le) h0]
      simp
    rw [this]
    ring

/-- What the library assumes about a configuration, for a whole search in environment `env`. -/
structure GoodCfg (cfg : Cfg S A) (env : Env S A ℝ) : Prop where
  temp : if cfg.decay.isSome then 0 < cfg.minTemp else 0 < cfg.temp
  eps : 0 ≤ cfg.epsilon
  max0 : 0 ≤ cfg.maxExplore
  max1 : cfg.maxExplore ≤ 1
  weight : cfg.priorWeight ≤ Real.log 4
  some : 0 < cfg.priorWeight → ∃ f, cfg.prior = some f
  /-- a prior is a distribution that gives every valid action a probability -/
  total : PriorTotal cfg env
  prior0 : ∀ f, cfg.prior = Option.some f → ∀ s, ∀ p ∈ f s, 0 ≤ p.2
  prior1 : ∀ f, cfg.prior = Option.some f → ∀ s, ((env.actions s).map fun a => (find? a (f s)).getD 0).sum = 1

theorem getTemp_pos {env : Env S A ℝ} (G : GoodCfg cfg env) (v : View S A X Y) : 0 < getTemp cfg v := by
  have := G.temp
  unfold getTemp
  cases h : cfg.decay with
  | none => simpa [h] using this
  | some f =>
    rw [h] at this
    simp at this
    exact lt_of_lt_of_le this (Decay.c35_at_least_min _ _ _ _ _)

theorem goodCfg_wellFormed {env : Env S A ℝ} (G : GoodCfg cfg env) {v : View S A X Y} (hv : v.actions = env.actions v.state) :
    WellFormed cfg v where
  temp := getTemp_pos G v
  eps := by
    unfold epsilonAt
    split
    · next h => exact h.2.le
    · exact G.eps
  max0 := G.max0
  max1 := G.max1
  weight := Or.inl G.weight
  covers h := by
    obtain ⟨f, hf⟩ := G.some h
    exact ⟨f, hf, fun a ha => G.total f hf v.state a (hv ▸ ha)⟩
  prior0 h a ha := by
    obtain ⟨f, hf⟩ := G.some h
    obtain ⟨w, hw⟩ := Option.isSome_iff_exists.1 (G.total f hf v.state a (hv ▸ ha))
    simp only [priorAt, hf, hw, Option.getD_some]
    exact G.prior0 f hf v.state _ (find?_mem' hw)
  prior1 h := by
    obtain ⟨f, hf⟩ := G.some h
    have := G.prior1 f hf v.state
    rw [← hv] at this
    have e : priorAt cfg v = fun a => (find? a (f v.state)).getD 0 := by funext a; simp [priorAt, hf]
    rw [e]
    exact this

section
variable {env : Env S A ℝ} {m : Manager S ℝ} {eps : ℝ} {lr : S → A → ℝ} {k : Nat} {s0 : S} {dp tm : Int}
  {tb : List ((Int × S) × Option Nat)} {st : St S A ℝ Soft Soft} {h : List (Event S A ℝ)}

/-- In every reachable state of a MENTS search every soft value is a number, and so is every Q-value. -/
theorem c36_values_finite (G : GoodCfg cfg env) (htb : Leftover tb) (hr : Reachable env m (ments eps cfg lr) k s0 dp tm tb st h) :
    (∀ (d : Nat) nd, st.dn[d]? = some nd → ∃ r, nd.x.val = some r) ∧ (∀ (c : Nat) nc, st.cn[c]? = some nc → ∃ r, nc.y.val = some r) := by
  obtain ⟨_, D⟩ := local_reach (ments_local m eps G.total lr) (ments_valid eps cfg lr) htb hr
  exact ⟨D.d, D.c⟩

theorem q_defined (G : GoodCfg cfg env) (htb : Leftover tb) (hr : Reachable env m (ments eps cfg lr) k s0 dp tm tb st h)
    (nd : DNode S A ℝ Soft) : ∃ Q, QIs (mentsQ cfg id (viewOf env m st nd)) (viewOf env m st nd) Q := by
  refine mentsQ_total G.total rfl id ?_
  intro k hk
  obtain ⟨c, nc, _, h2, h3⟩ := mem_kidsY.1 hk
  rw [h3]
  exact (c36_values_finite G htb hr).2 c nc h2

/-- C36 for a whole search, any number of workers and any schedule: whenever a worker is about to select an action at a node with
at least one action, every draw below `1 - |A|·1e-16` selects a valid action. -/
theorem c36_never_fails_in_search (G : GoodCfg cfg env) (htb : Leftover tb) (heps : 0 ≤ eps)
    (hr : Reachable env m (ments eps cfg lr) k s0 dp tm tb st h) {w cur : Nat} {path : List (Nat × Nat)} {rs : List ℝ} {new : Bool}
    (_hw : st.ws[w]? = some (.sel cur path rs new)) {nd : DNode S A ℝ Soft} (_hd : st.dn[cur]? = some nd)
    (hne : env.actions nd.state ≠ []) {u : ℝ} (h0 : 0 ≤ u) (h1 : u < 1 - (env.actions nd.state).length * (1 / 10 ^ 16))
    {iter : List (A × ℝ) → List (A × ℝ)} (hi : ∀ l, List.Perm (iter l) l) :
    let v := viewOf env m st { nd with visits := nd.visits + 1, x := softVisit false nd.x }
    ∃ a ∈ env.actions nd.state, selectAction eps cfg (mentsQ cfg id v) v u iter = .ok (.key a) := by
  intro v
  obtain ⟨Q, hQ⟩ := q_defined G htb hr { nd with visits := nd.visits + 1, x := softVisit false nd.x }
  rcases c36_selects_valid_action hQ (Nat.succ_pos _) hne (goodCfg_wellFormed G rfl) heps hi h0 with h2 | ⟨_, h2⟩
  · exact h2
  · exact absurd h1 (not_lt.2 h2)

/-- C36.  In particular the search never gets stuck at a selection: some action can be selected. -/
theorem c36_can_continue (G : GoodCfg cfg env) (htb : Leftover tb) (heps : 0 ≤ eps)
    (hr : Reachable env m (ments eps cfg lr) k s0 dp tm tb st h) (hc : st.crashed = none) {w cur : Nat} {path : List (Nat × Nat)} {rs : List ℝ}
    {new : Bool} (hw : st.ws[w]? = some (.sel cur path rs new)) {nd : DNode S A ℝ Soft} (hd : st.dn[cur]? = some nd)
    (hs : shouldContinue env m nd new = true) (hne : env.actions nd.state ≠ []) (hlen : (env.actions nd.state).length < 10 ^ 16) :
    ∃ a ∈ env.actions nd.state, ∃ st' e, step env m (ments eps cfg lr) st w (.act a) = some (st', e) := by
  obtain ⟨a, h1, h2⟩ := c36_never_fails_in_search G htb heps hr hw hd hne le_rfl (by
    have : ((env.actions nd.state).length : ℝ) < 10 ^ 16 := by exact_mod_cast hlen
    rw [mul_one_div, sub_pos, div_lt_one (by positivity)]
    exact this) (iter := id) (fun l => List.Perm.refl l)
  refine ⟨a, h1, ?_⟩
  have hsel : (ments eps cfg lr).canSelect (viewOf env m st { nd with visits := nd.visits + 1, x := softVisit false nd.x }) (st.ctxOf w) a = true := by
    show selectable _ _ _ _ _ = true
    unfold selectable
    rw [@decide_eq_true_eq _ (Classical.propDecidable _)]
    exact ⟨0, id, le_rfl, one_pos, fun l => List.Perm.refl l, h2⟩
  unfold step
  rw [hc, hw]
  simp only [Option.isSome_none, Bool.false_eq_true, if_false, hd, hs, if_true, blockD]
  have hsel' : (ments eps cfg lr).canSelect (viewOf env m st { nd with visits := nd.visits + 1, x := (ments eps cfg lr).visitD false nd.x }) (st.ctxOf w) a = true := hsel
  rw [if_pos hsel']
  split
  · exact ⟨_, _, rfl⟩
  · exact ⟨_, _, rfl⟩

/-- C36.  After a selection the node has a child for the selected action, and the action is valid. -/
theorem c36_child_exists (htb : Leftover tb) (hr : Reachable env m (ments eps cfg lr) k s0 dp tm tb st h) {w d c : Nat} {a : A}
    (he : .selected w d a c ∈ h) : childC st d a = some c ∧ ∃ nd, st.dn[d]? = some nd ∧ a ∈ env.actions nd.state := by
  obtain ⟨I, C⟩ := reach_both (ments_valid eps cfg lr) htb hr
  have h1 := C.evSel w d a c he
  obtain ⟨nd, nc, h2, _, _, _, _, _, _, h3⟩ := childC_facts I.tree h1
  exact ⟨h1, nd, h2, h3⟩

end

/-- A small environment for the example configuration: one state, two actions. -/
def exEnv : Env Unit Bool ℝ := { isSink := fun _ => false, actions := fun _ => [false, true], succ := fun _ _ => [()], reward := fun _ _ _ => 1 }

def exMgr : Manager Unit ℝ :=
  { maxDepth := 3, mctsMode := true, twoPlayer := false, useTable := false, numMutexes := 0, heuristic := none }

theorem exGood : GoodCfg exCfg exEnv := by
  refine ⟨by simp [exCfg], by norm_num [exCfg], by simp [exCfg], by simp [exCfg], exWeight, fun _ => ⟨_, rfl⟩, ?_, ?_, ?_⟩
  · intro f hf s a _
    simp only [exCfg, Option.some.injEq] at hf
    subst hf
    cases a <;> simp [find?]
  · intro f hf s p hp
    simp only [exCfg, Option.some.injEq] at hf
    subst hf
    simp at hp
    rcases hp with rfl | rfl <;> simp
  · intro f hf s
    simp only [exCfg, Option.some.injEq] at hf
    subst hf
    simp [exEnv, find?]
    norm_num

/-- A worker has begun a trial and can select an action. -/
example : ∃ st h a st' e, Reachable exEnv exMgr (ments 0 exCfg fun _ _ => 1) 2 () 0 0 [] st h ∧
    step exEnv exMgr (ments 0 exCfg fun _ _ => 1) st 1 (.act a) = some (st', e) := by
  have hr : Reachable exEnv exMgr (ments 0 exCfg fun _ _ => 1) 2 () 0 0 [] _ _ := ⟨[(1, .go)], rfl⟩
  obtain ⟨a, _, st', e, h⟩ := c36_can_continue exGood (by intro p hp; simp at hp) le_rfl hr rfl (w := 1) rfl rfl (by rfl)
    (by simp [exEnv]) (by simp [exEnv])
  exact ⟨_, _, a, st', e, hr, h⟩

/-! ## C37 -/

/-- The action has a child with enough visits. -/
def Meets (cfg : Cfg S A) (v : View S A X Y) (a : A) : Prop := ∃ n y, find? a v.kids = some (n, y) ∧ cfg.threshold ≤ (n : Int)

/-- C37, value based recommendation of MENTS. -/
theorem c37_best_soft_value (hq : QIs q v Q) (hne : v.actions ≠ []) (hlow : ∀ a ∈ v.actions, cfg.low ≤ Q a) (raw : Nat)
    {iter : List (A × ℝ) → List (A × ℝ)} (hi : IterOk iter) :
    ∃ a ∈ v.actions, recommendSoft cfg q v raw iter = .ok (some a) ∧
      ((∃ b ∈ v.actions, Meets cfg v b) → Meets cfg v a ∧ ∀ b ∈ v.actions, Meets cfg v b → Q b ≤ Q a) ∧
      ((¬ ∃ b ∈ v.actions, Meets cfg v b) → ∀ b ∈ v.actions, Q b ≤ Q a) := by
  have hmet : ∀ a, metThreshold cfg v a = true ↔ Meets cfg v a := by
    intro a
    unfold Meets metThreshold
    cases h : find? a v.kids with
    | none => simp
    | some p => obtain ⟨n, y⟩ := p; simp
  unfold recommendSoft
  rw [qList_eq hq]
  dsimp only
  by_cases hex : ∃ b ∈ v.actions, Meets cfg v b
  · obtain ⟨b, hb, hbm⟩ := hex
    have hmem : ∀ b ∈ v.actions, Meets cfg v b → (b, Q b) ∈ (v.actions.map fun a => (a, Q a)).filter fun p =>
        metThreshold cfg v p.1 := fun b hb hbm =>
      List.mem_filter.2 ⟨List.mem_map.2 ⟨b, hb, rfl⟩, (hmet b).2 hbm⟩
    rw [if_pos (List.length_pos_of_mem (hmem b hb hbm))]
    obtain ⟨a, h1, val, h2, h3⟩ := c22_returns_maximiser cfg.low (iter _) raw ⟨_, (hi _ _).2 (hmem b hb hbm), hlow b hb⟩
    rw [hi, List.mem_filter, List.mem_map] at h2
    obtain ⟨⟨a', ha', he⟩, hm⟩ := h2
    simp only [Prod.mk.injEq] at he
    obtain ⟨rfl, rfl⟩ := he
    refine ⟨a', ha', by rw [h1], fun _ => ⟨(hmet a').1 hm, ?_⟩, fun h => absurd ⟨b, hb, hbm⟩ h⟩
    intro b' hb' hbm'
    exact h3 _ ((hi _ _).2 (hmem b' hb' hbm'))
  · have hnil : ((v.actions.map fun a => (a, Q a)).filter fun p =>
        metThreshold cfg v p.1) = [] := by
      rw [List.filter_eq_nil_iff]
      intro p hp
      obtain ⟨a, ha, rfl⟩ := List.mem_map.1 hp
      intro h
      exact hex ⟨a, ha, (hmet a).1 h⟩
    rw [hnil, if_neg (by simp)]
    have hmem : ∀ b ∈ v.actions, (b, Q b) ∈ (v.actions.map fun a => (a, Q a)).filter fun p =>
        ! metThreshold cfg v p.1 := by
      intro b hb
      refine List.mem_filter.2 ⟨List.mem_map.2 ⟨b, hb, rfl⟩, ?_⟩
      rw [Bool.not_eq_true', Bool.eq_false_iff]
      intro h
      exact hex ⟨b, hb, (hmet b).1 h⟩
    obtain ⟨b, hb⟩ := List.exists_mem_of_ne_nil _ hne
    obtain ⟨a, h1, val, h2, h3⟩ := c22_returns_maximiser cfg.low (iter _) raw ⟨_, (hi _ _).2 (hmem b hb), hlow b hb⟩
    rw [hi, List.mem_filter, List.mem_map] at h2
    obtain ⟨⟨a', ha', he⟩, _⟩ := h2
    simp only [Prod.mk.injEq] at he
    obtain ⟨rfl, rfl⟩ := he
    refine ⟨a', ha', by rw [h1], fun h => absurd h hex, fun _ b' hb' => h3 _ ((hi _ _).2 (hmem b' hb'))⟩

/-- The tried action has Q-value -5 for the opponent and one visit, the untried one log(1/2).  With a threshold of one visit
the tried action is recommended, with a threshold of two the untried one. -/
example : recommendSoft { exCfg with threshold := 1 } (mentsQ exCfg id exView) exView 0 id = .ok (some true) ∧
    recommendSoft { exCfg with threshold := 2 } (mentsQ exCfg id exView) exView 0 id = .ok (some false) := by
  have hlog : Real.log (1 / 2) ≤ 0 ∧ -1 ≤ Real.log (1 / 2) := by
    constructor
    · exact Real.log_nonpos (by norm_num) (by norm_num)
    · have := Real.one_sub_inv_le_log_of_pos (x := 1 / 2) (by norm_num)
      norm_num at this ⊢
      linarith
  have hq : QIs (mentsQ exCfg id exView) exView (fun a => if a then -5 else Real.log (1 / 2)) := by
    intro a _
    cases a
    · have h1 : ¬ (10 : ℝ) ^ 32 ≤ 2⁻¹ := by norm_num
      have h2 : ((10 : ℝ) ^ 32)⁻¹ < 2⁻¹ := by norm_num
      simp [mentsQ, exView, find?, untriedQ, exCfg, logWeight, logMaxArg, logMinArg, nodeOffset, h1, h2]
    · simp [mentsQ, exView, find?, oppCoeff]
  have hlow : ∀ t : Int, ∀ a ∈ exView.actions, { exCfg with threshold := t }.low ≤ (if a then -5 else Real.log (1 / 2)) := by
    intro t a _
    cases a
    · simp only [exCfg, Bool.false_eq_true, if_false]; linarith [hlog.2]
    · simp only [exCfg, if_true]; norm_num
  constructor
  · obtain ⟨a, h1, h2, h3, h4⟩ := c37_best_soft_value (cfg := { exCfg with threshold := 1 }) hq (by simp [exView]) (hlow 1) 0
      (iter := id) (fun _ _ => Iff.rfl)
    have := (h3 ⟨true, by simp [exView], 1, ⟨1, some 5⟩, by simp [exView, find?], by simp⟩).1
    obtain ⟨n, y, h5, _⟩ := this
    cases a
    · simp [exView, find?] at h5
    · exact h2
  · obtain ⟨a, h1, h2, h3, h4⟩ := c37_best_soft_value (cfg := { exCfg with threshold := 2 }) hq (by simp [exView]) (hlow 2) 0
      (iter := id) (fun _ _ => Iff.rfl)
    have h6 := h4 (by
      rintro ⟨b, _, n, y, h5, h6⟩
      simp [exView, find?] at h5
      obtain ⟨_, rfl, _⟩ := h5
      simp at h6) false (by simp [exView])
    cases a
    · exact h2
    · simp only [Bool.false_eq_true, if_false, if_true] at h6
      linarith [hlog.2]

/-- C37 with `recommend_most_visited`: a most visited child; if there is none, some valid action. -/
theorem c37_most_visited {lowI : Int} (hlow : lowI ≤ 0) (hne : v.actions ≠ []) (hk : ∀ a, (find? a v.kids).isSome → a ∈ v.actions)
    (raw : Nat) {iter : List (A × Int) → List (A × Int)} (hi : IterOk iter) :
    ∃ a ∈ v.actions, recommendVisited lowI v raw iter = some a ∧
      ((∃ b, (find? b v.kids).isSome) → ∃ n y, find? a v.kids = some (n, y) ∧ ∀ b n' y', find? b v.kids = some (n', y') → n' ≤ n) := by
  rw [recommendVisited]
  have hmem : ∀ b n y, find? b v.kids = some (n, y) → (b, (n : Int)) ∈ v.actions.filterMap fun a => (find? a v.kids).map fun y => (a, (y.1 : Int)) := by
    intro b n y hb
    exact List.mem_filterMap.2 ⟨b, hk b (by rw [hb]; rfl), by rw [hb]; rfl⟩
  by_cases hex : ∃ b, (find? b v.kids).isSome
  · obtain ⟨b, hb⟩ := hex
    obtain ⟨⟨n, y⟩, hb⟩ := Option.isSome_iff_exists.1 hb
    have hl := List.length_pos_of_mem (hmem b n y hb)
    rw [if_neg (by omega)]
    obtain ⟨a, h1, val, h2, h3⟩ := c22_returns_maximiser lowI (iter _) raw ⟨_, (hi _ _).2 (hmem b n y hb), by simp; omega⟩
    rw [hi, List.mem_filterMap] at h2
    obtain ⟨a', ha', h4⟩ := h2
    cases hka : find? a' v.kids with
    | none => rw [hka] at h4; simp at h4
    | some p =>
      obtain ⟨n', y'⟩ := p
      rw [hka] at h4
      simp at h4
      obtain ⟨rfl, rfl⟩ := h4
      refine ⟨a', ha', h1, fun _ => ⟨n', y', hka, ?_⟩⟩
      intro b2 n2 y2 hb2
      have := h3 _ ((hi _ _).2 (hmem b2 n2 y2 hb2))
      dsimp only at this
      exact_mod_cast this
  · have hnil : (v.actions.filterMap fun a => (find? a v.kids).map fun y => (a, (y.1 : Int))) = [] := by
      rw [List.filterMap_eq_nil_iff]
      intro a _
      cases hka : find? a v.kids with
      | none => rfl
      | some y => exact absurd ⟨a, by rw [hka]; rfl⟩ hex
    rw [hnil, if_pos List.length_nil]
    obtain ⟨a, ha⟩ := Uct.sampleUniform_defined v.actions raw hne
    exact ⟨a, (Uct.sampleUniform_mem ha).1, ha, fun h => absurd h hex⟩

/-- C37 for whole searches: the recommendation at any node of any reachable tree, in the middle of trials or not, is valid. -/
theorem c37_valid_in_search {env : Env S A ℝ} {m : Manager S ℝ} {eps : ℝ} {lr : S → A → ℝ} {k : Nat} {s0 : S} {dp tm : Int}
    {tb : List ((Int × S) × Option Nat)} {st : St S A ℝ Soft Soft} {h : List (Event S A ℝ)}
    (G : GoodCfg cfg env) (htb : Leftover tb) (hr : Reachable env m (ments eps cfg lr) k s0 dp tm tb st h)
    {d : Nat} {nd : DNode S A ℝ Soft} (hd : st.dn[d]? = some nd) (hne : env.actions nd.state ≠ [])
    (hlow : ∀ a ∈ env.actions nd.state, ∀ x, mentsQ cfg id (viewOf env m st nd) a = .ok x → cfg.low ≤ x) {lowI : Int} (hlowI : lowI ≤ 0)
    (raw : Nat) {iter : List (A × ℝ) → List (A × ℝ)} (hi : IterOk iter) {iterI : List (A × Int) → List (A × Int)} (hiI : IterOk iterI) :
    ∃ a ∈ env.actions nd.state, recommend cfg (mentsQ cfg id (viewOf env m st nd)) lowI (viewOf env m st nd) raw iter iterI = .ok (some a) := by
  unfold recommend
  split
  · obtain ⟨I, _⟩ := reach_both (ments_valid eps cfg lr) htb hr
    obtain ⟨a, h1, h2, _⟩ := c37_most_visited (v := viewOf env m st nd) hlowI hne (by
      intro a ha
      obtain ⟨y, hy⟩ := Option.isSome_iff_exists.1 ha
      obtain ⟨c, nc, g1, g2, g3⟩ := mem_kidsY.1 (find?_mem' hy)
      obtain ⟨nd2, nc2, f1, f2, _, _, _, _, _, f8⟩ := childC_facts I.tree (childC_of_mem I.tree hd g1)
      rw [hd] at f1
      obtain rfl := Option.some.inj f1
      exact f8) raw hiI
    exact ⟨a, h1, by rw [h2]⟩
  · obtain ⟨Q, hQ⟩ := q_defined G htb hr nd
    obtain ⟨a, h1, h2, _⟩ := c37_best_soft_value hQ hne (fun a ha => hlow a ha _ (hQ a ha)) raw hi
    exact ⟨a, h1, h2⟩

section
variable {K 𝕜 : Type} [Field 𝕜] [LinearOrder 𝕜] [IsStrictOrderedRing 𝕜]

/-- C37 for the DP and empirical values (`num_backups` takes the part of visits; untried actions are not considered). -/
theorem c37_best_value {low : 𝕜} {threshold : Int} {opp : Bool} {kids : List (K × Nat × 𝕜)} (hne : kids ≠ [])
    (hlow : ∀ p ∈ kids, low ≤ (if opp then -1 else 1) * p.2.2) (raw : Nat) {iter : List (K × 𝕜) → List (K × 𝕜)} (hi : IterOk iter) :
    ∃ a n x, (a, n, x) ∈ kids ∧ recommendBest low threshold opp kids raw iter = some a ∧
      ((∃ p ∈ kids, threshold ≤ (p.2.1 : Int)) → threshold ≤ (n : Int) ∧
        ∀ p ∈ kids, threshold ≤ (p.2.1 : Int) → (if opp then -1 else 1) * p.2.2 ≤ (if opp then -1 else 1) * x) ∧
      ((¬ ∃ p ∈ kids, threshold ≤ (p.2.1 : Int)) → ∀ p ∈ kids, (if opp then -1 else 1) * p.2.2 ≤ (if opp then -1 else 1) * x) := by
  unfold recommendBest
  dsimp only
  by_cases hex : ∃ p ∈ kids, threshold ≤ (p.2.1 : Int)
  · obtain ⟨b, hb, hbm⟩ := hex
    have hmem : ∀ p ∈ kids, threshold ≤ (p.2.1 : Int) → (p.1, oppCoeff opp * p.2.2) ∈
        (kids.filter fun p => decide (threshold ≤ (p.2.1 : Int))).map fun p => (p.1, (oppCoeff opp * p.2.2 : 𝕜)) :=
      fun p hp ht => List.mem_map.2 ⟨p, List.mem_filter.2 ⟨hp, decide_eq_true ht⟩, rfl⟩
    rw [if_pos (List.length_pos_of_mem (hmem b hb hbm))]
    obtain ⟨a, h1, val, h2, h3⟩ := c22_returns_maximiser low (iter _) raw ⟨_, (hi _ _).2 (hmem b hb hbm), hlow b hb⟩
    rw [hi, List.mem_map] at h2
    obtain ⟨⟨a', n, x⟩, ha', he⟩ := h2
    obtain ⟨hk, ht⟩ := List.mem_filter.1 ha'
    simp only [Prod.mk.injEq] at he
    obtain ⟨rfl, rfl⟩ := he
    refine ⟨a', n, x, hk, h1, fun _ => ⟨of_decide_eq_true ht, ?_⟩, fun h => absurd ⟨b, hb, hbm⟩ h⟩
    intro p hp hpt
    exact h3 _ ((hi _ _).2 (hmem p hp hpt))
  · have hnil : ((kids.filter fun p => decide (threshold ≤ (p.2.1 : Int))).map fun p => (p.1, (oppCoeff opp * p.2.2 : 𝕜))) = [] := by
      rw [List.map_eq_nil_iff, List.filter_eq_nil_iff]
      intro p hp h
      exact hex ⟨p, hp, of_decide_eq_true h⟩
    rw [hnil, if_neg (by simp)]
    have hmem : ∀ p ∈ kids, (p.1, oppCoeff opp * p.2.2) ∈
        (kids.filter fun p => decide (¬ threshold ≤ (p.2.1 : Int))).map fun p => (p.1, (oppCoeff opp * p.2.2 : 𝕜)) :=
      fun p hp => List.mem_map.2 ⟨p, List.mem_filter.2 ⟨hp, decide_eq_true fun h => hex ⟨p, hp, h⟩⟩, rfl⟩
    obtain ⟨b, hb⟩ := List.exists_mem_of_ne_nil _ hne
    obtain ⟨a, h1, val, h2, h3⟩ := c22_returns_maximiser low (iter _) raw ⟨_, (hi _ _).2 (hmem b hb), hlow b hb⟩
    rw [hi, List.mem_map] at h2
    obtain ⟨⟨a', n, x⟩, ha', he⟩ := h2
    obtain ⟨hk, _⟩ := List.mem_filter.1 ha'
    simp only [Prod.mk.injEq] at he
    obtain ⟨rfl, rfl⟩ := he
    exact ⟨a', n, x, hk, h1, fun h => absurd h hex, fun _ p hp => h3 _ ((hi _ _).2 (hmem p hp))⟩

/-- C37.  With no child, the DP and empirical recommendation is a random valid action. -/
theorem c37_no_child {low : 𝕜} {threshold : Int} {opp : Bool} {actions : List K} (hne : actions ≠ []) (raw : Nat)
    (iter : List (K × 𝕜) → List (K × 𝕜)) :
    ∃ a ∈ actions, recommendBestOrRandom low threshold opp actions [] raw iter = some a := by
  obtain ⟨a, ha⟩ := Uct.sampleUniform_defined actions raw hne
  exact ⟨a, (Uct.sampleUniform_mem ha).1, by simp [recommendBestOrRandom, ha]⟩

example : recommendBest (-1000 : ℚ) 2 false [(0, 3, 5), (1, 1, 9), (2, 2, 6)] 0 id = some 2 ∧
    recommendBest (-1000 : ℚ) 2 true [(0, 3, 5), (1, 1, 9), (2, 2, 6)] 0 id = some 0 ∧
    recommendBest (-1000 : ℚ) 4 false [(0, 3, 5), (1, 1, 9), (2, 2, 6)] 0 id = some 1 := by decide +kernel

end

end Verif.Ments
