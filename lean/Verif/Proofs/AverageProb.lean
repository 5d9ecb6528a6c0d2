import Verif.Proofs.Average
import Verif.Proofs.RandomSearch
import Verif.Props.RandomSearch
import Verif.Props.Dents
import Mathlib.Tactic.IntervalCases

/-! # The game in which average returns mislead: probabilities (C113) -/

set_option linter.unusedSectionVars false
set_option linter.unusedSimpArgs false

namespace Verif.Random

open Verif.Search Verif.Eval Verif.Spec Verif.Sampling Verif.Ments

variable {S A X Y : Type} [DecidableEq S] [DecidableEq A] {env : Env S A ℝ} {m : Manager S ℝ} {alg : Alg S A ℝ X Y} {k : Nat} {s0 : S}
  {dp tm : Int} {tb : List ((Int × S) × Option Nat)} {eps : ℝ} {cfg : Cfg S A} {q : View S A X Y → A → Except Bad ℝ}
  {iter : View S A X Y → List (A × ℝ) → List (A × ℝ)} {obs : S → A → List (S × ℝ)} {N : Nat} {pa po : ℝ}

/-- The distribution of the selected action is the documented policy, if no probability is dropped. -/
theorem softDice_policy (hit : ∀ v l, List.Perm (iter v l) l) (heps : 0 ≤ eps) (hpa : 1 / 10 ^ 16 ≤ pa) {v : View S A X Y} {Q : A → ℝ}
    (hQ : QIs (q v) v Q) (hpos : 0 < v.visits) (hne : v.actions ≠ []) (hnd : v.actions.Nodup) (hW : WellFormed cfg v)
    (hlow : ∀ a ∈ v.actions, pa ≤ policy cfg (getTemp cfg v) v Q a) (ctx : Ctx A ℝ) :
    (softDice eps cfg q iter obs).sel v ctx = v.actions.map fun a => (a, policy cfg (getTemp cfg v) v Q a) := by
  simp only [softDice]
  apply List.map_congr_left
  intro a ha
  rw [c36_probability hQ hpos hne hnd hW heps (hit v) ha, if_neg (not_lt.2 (le_trans hpa (hlow a ha)))]

/-- A search whose policy never falls below `pa` explores. -/
theorem soft_explores_low (hv : alg.Valid) (htb : Leftover tb) (hcan : ∀ v ctx a, alg.canSelect v ctx a = selectable eps cfg (q v) v a)
    (hq : ∀ st h, Reachable env m alg k s0 dp tm tb st h → ∀ nd : DNode S A ℝ X,
      ∃ Q, QIs (q (viewOf env m st nd)) (viewOf env m st nd) Q ∧ (0 < (viewOf env m st nd).visits → env.isSink nd.state = false →
        ∀ a ∈ (viewOf env m st nd).actions, pa ≤ policy cfg (getTemp cfg (viewOf env m st nd)) (viewOf env m st nd) Q a))
    (G : GoodCfg cfg env) (hl : env.Live) (hnd : ∀ s, (env.actions s).Nodup) (heps : 0 ≤ eps)
    (hit : ∀ v l, List.Perm (iter v l) l) (hobs : Transitions env obs po) (hpa : 1 / 10 ^ 16 ≤ pa) :
    Explores env m alg (softDice eps cfg q iter obs) k s0 dp tm tb N pa po where
  obs := hobs
  sel := by
    intro st h w cur path rs new nd hr hN hw hd hs v
    have hpos : 0 < v.visits := Nat.succ_pos _
    have hne : v.actions ≠ [] := hl.acts _ (cont_notSink hs)
    have hW : WellFormed cfg v := goodCfg_wellFormed G rfl
    obtain ⟨Q, hQ, hlow⟩ := hq st h hr { nd with visits := nd.visits + 1, x := alg.visitD false nd.x }
    replace hlow := hlow hpos (cont_notSink hs)
    obtain ⟨d1, d2⟩ := c31_is_distribution hpos hne hW Q
    rw [softDice_policy (q := q) (obs := obs) hit heps hpa hQ hpos hne (hnd _) hW hlow]
    refine ⟨⟨?_, ?_⟩, ?_, ?_⟩
    · intro x hx
      obtain ⟨a, ha, rfl⟩ := List.mem_map.1 hx
      exact (d1 a ha).2
    · rw [← d2]
      simp only [List.map_map]
      rfl
    · intro x hx hx0
      obtain ⟨a, ha, rfl⟩ := List.mem_map.1 hx
      have hx1 : prob (fun u => selectAction eps cfg (q v) v u (iter v)) (· = .ok (.key a)) ≠ 0 := by
        rw [c36_probability hQ hpos hne (hnd _) hW heps (hit v) ha, if_neg (not_lt.2 (le_trans hpa (hlow a ha)))]
        exact hx0
      obtain ⟨u, g0, g1, g2⟩ := prob_ne_zero hx1
      rw [hcan]
      unfold selectable
      rw [@decide_eq_true_eq _ (Classical.propDecidable _)]
      exact ⟨u, iter v, g0, g1, hit v, g2⟩
    · intro a ha
      rw [weightOf_map (l := v.actions) (hnd _) _ ha]
      exact hlow a ha

end Verif.Random

namespace Verif.Average

open Verif.Search Verif.Eval Verif.Spec Verif.Sampling Verif.Ments Verif.Dents Verif.Random Verif.Backups

/-! ## Arithmetic -/

theorem weights_bound {a s g b : Nat} (h1 : g + b ≤ a) (h2 : 9 * a ≤ 10 * g) :
    (11 / 10 : ℝ) ^ (a + s) ≤ (4 / 5) ^ a * (11 / 10) ^ s * (7 / 4) ^ g * (1 / 5) ^ b := by
  obtain ⟨u, rfl⟩ : ∃ u, a = g + u := ⟨a - g, by omega⟩
  have hb : b ≤ u := by omega
  have hg : 9 * u ≤ g := by omega
  have e1 : (1 / 5 : ℝ) ^ u ≤ (1 / 5) ^ b := pow_le_pow_of_le_one (by norm_num) (by norm_num) hb
  have e2 : (55 / 8 : ℝ) ^ u ≤ (14 / 11) ^ g := by
    calc (55 / 8 : ℝ) ^ u ≤ ((14 / 11) ^ 9) ^ u := pow_le_pow_left₀ (by norm_num) (by norm_num) u
      _ = (14 / 11) ^ (9 * u) := (pow_mul _ _ _).symm
      _ ≤ (14 / 11) ^ g := pow_le_pow_right₀ (by norm_num) hg
  calc (11 / 10 : ℝ) ^ (g + u + s) = (11 / 10) ^ s * ((11 / 10) ^ g * ((4 / 25) ^ u * (55 / 8) ^ u)) := by
        rw [← mul_pow, pow_add, pow_add]; norm_num; ring
    _ ≤ (11 / 10) ^ s * ((11 / 10) ^ g * ((4 / 25) ^ u * (14 / 11) ^ g)) := by gcongr
    _ = (4 / 5) ^ (g + u) * (11 / 10) ^ s * (7 / 4) ^ g * (1 / 5) ^ u := by
        have q1 : (7 / 4 : ℝ) ^ g * (4 / 5) ^ g = (11 / 10) ^ g * (14 / 11) ^ g := by rw [← mul_pow, ← mul_pow]; norm_num
        have q2 : (4 / 5 : ℝ) ^ u * (1 / 5) ^ u = (4 / 25) ^ u := by rw [← mul_pow]; norm_num
        rw [pow_add, ← q2]
        linear_combination -((11 / 10 : ℝ) ^ s * (4 / 5) ^ u * (1 / 5) ^ u) * q1
    _ ≤ _ := by gcongr

/-- Two nearly equal values have nearly equal probabilities. -/
theorem share_bound {x y : ℝ} (hx : 0 ≤ x ∧ x ≤ 3 / 100) (hy : 0 ≤ y ∧ y ≤ 3 / 100) :
    49 / 100 ≤ Real.exp x / (Real.exp x + Real.exp y) ∧ Real.exp x / (Real.exp x + Real.exp y) ≤ 51 / 100 := by
  have hi : ∀ z : ℝ, 0 ≤ z ∧ z ≤ 3 / 100 → 1 ≤ Real.exp z ∧ Real.exp z ≤ 100 / 97 := by
    intro z hz
    refine ⟨Real.one_le_exp hz.1, ?_⟩
    have h1 := Real.add_one_le_exp (-z)
    have h2 : Real.exp (-z) * Real.exp z = 1 := by rw [← Real.exp_add]; simp
    have h3 := Real.exp_pos z
    nlinarith
  obtain ⟨x1, x2⟩ := hi x hx
  obtain ⟨y1, y2⟩ := hi y hy
  rw [le_div_iff₀ (by linarith), div_le_iff₀ (by linarith)]
  constructor <;> linarith

theorem policy_two {S A X Y : Type} [DecidableEq S] [DecidableEq A] {cfg : Cfg S A} {v : View S A X Y} {Q : A → ℝ} {a b : A} (hv : v.actions = [a, b] ∨ v.actions = [b, a])
    (hN : 0 < v.visits) (w : WellFormed cfg v) (ht : getTemp cfg v = 1) (hp : cfg.priorWeight = 0) (ha : 0 ≤ Q a ∧ Q a ≤ 3 / 100) (hb : 0 ≤ Q b ∧ Q b ≤ 3 / 100) :
    49 / 100 ≤ policy cfg (getTemp cfg v) v Q a ∧ policy cfg (getTemp cfg v) v Q a ≤ 51 / 100 := by
  obtain ⟨l0, l1⟩ := uniformWeight_range hN w
  obtain ⟨s1, s2⟩ := share_bound ha hb
  have hz : boltzmann 1 Q v.actions a = Real.exp (Q a) / (Real.exp (Q a) + Real.exp (Q b)) := by
    rcases hv with hv | hv
    · simp [boltzmann, partition, hv]
    · simp [boltzmann, partition, hv, add_comm]
  have hl : (v.actions.length : ℝ) = 2 := by rcases hv with hv | hv <;> simp [hv]
  have hw : priorWeightAt cfg v = 0 := by simp [priorWeightAt, hp]
  unfold policy
  rw [ht, hz, hl, hw]
  generalize Real.exp (Q a) / (Real.exp (Q a) + Real.exp (Q b)) = z at *
  generalize uniformWeight cfg v = u at *
  constructor <;> nlinarith

/-! ## The game -/

theorem plain_good {cfg : DCfg Place Move} (P : Plain cfg) : GoodCfg cfg.toCfg forkEnv where
  temp := by simp [P.decay, P.temp]
  eps := P.eps
  max0 := P.max0
  max1 := P.max1
  weight := by rw [P.weight]; exact Real.log_nonneg (by norm_num)
  some := by rw [P.weight]; simp
  total := by intro f hf; rw [P.prior] at hf; simp at hf
  prior0 := by intro f hf; rw [P.prior] at hf; simp at hf
  prior1 := by intro f hf; rw [P.prior] at hf; simp at hf

theorem fork_live : forkEnv.Live where
  acts := by
    intro s hs
    by_cases h : s = .finish
    · subst h; simp [forkEnv] at hs
    · cases s <;> simp [forkEnv] at h ⊢
  succs := by intro s _ a _; cases a <;> simp [forkEnv]

theorem fork_nodup (s : Place) : (forkEnv.actions s).Nodup := by cases s <;> simp [forkEnv]

theorem fork_det : ∀ s a, a ∈ forkEnv.actions s → forkEnv.succ s a = [forkNext s a] := by
  intro s a _
  cases a <;> rfl

theorem fork_bounded (b : Bool) : Bounded forkEnv (forkMgr b) 0 (1 / 100) where
  lo0 := le_rfl
  hi0 := by norm_num
  reward := by intro s a o _ _; cases a <;> simp [forkEnv] <;> norm_num
  heur := by intro s; simp [heurOf, forkMgr]

/-- A search algorithm for this game whose estimates of values are between 0 and 3/100. -/
structure Mild (alg : Alg Place Move ℝ DX DY) (b : Bool) (eps : ℝ) (cfg : DCfg Place Move) (q : View Place Move DX DY → Move → Except Bad ℝ)
    (k : Nat) : Prop where
  valid : alg.Valid
  can : ∀ v ctx a, alg.canSelect v ctx a = selectable eps cfg.toCfg (q v) v a
  q : ∀ st h, Reachable forkEnv (forkMgr b) alg k .start 0 0 [] st h → ∀ nd : DNode Place Move ℝ DX,
    ∃ Q, QIs (q (viewOf forkEnv (forkMgr b) st nd)) (viewOf forkEnv (forkMgr b) st nd) Q ∧ ∀ a ∈ forkEnv.actions nd.state, 0 ≤ Q a ∧ Q a ≤ 3 / 100
  avg : ∀ st h, Reachable forkEnv (forkMgr b) alg k .start 0 0 [] st h → ∀ (c : Nat) nc, st.cn[c]? = some nc →
    nc.y.emp.n = (returnsC c h).length ∧ nc.y.emp.avg = (returnsC c h).sum / (returnsC c h).length

section
variable {alg : Alg Place Move ℝ DX DY} {b : Bool} {eps : ℝ} {cfg : DCfg Place Move} {q : View Place Move DX DY → Move → Except Bad ℝ} {k N : Nat}
  {iter : View Place Move DX DY → List (Move × ℝ) → List (Move × ℝ)}

theorem mild_policy (P : Plain cfg) (M : Mild alg b eps cfg q k) {st : St Place Move ℝ DX DY} {h : List (Event Place Move ℝ)}
    (hr : Reachable forkEnv (forkMgr b) alg k .start 0 0 [] st h) (nd : DNode Place Move ℝ DX) :
    ∃ Q, QIs (q (viewOf forkEnv (forkMgr b) st nd)) (viewOf forkEnv (forkMgr b) st nd) Q ∧ (0 < (viewOf forkEnv (forkMgr b) st nd).visits →
      forkEnv.isSink nd.state = false → ∀ a ∈ (viewOf forkEnv (forkMgr b) st nd).actions,
        49 / 100 ≤ policy cfg.toCfg (getTemp cfg.toCfg (viewOf forkEnv (forkMgr b) st nd)) (viewOf forkEnv (forkMgr b) st nd) Q a ∧
        policy cfg.toCfg (getTemp cfg.toCfg (viewOf forkEnv (forkMgr b) st nd)) (viewOf forkEnv (forkMgr b) st nd) Q a ≤ 51 / 100) := by
  obtain ⟨Q, h1, h2⟩ := M.q st h hr nd
  refine ⟨Q, h1, fun hN hs a ha => ?_⟩
  have hW : WellFormed cfg.toCfg (viewOf forkEnv (forkMgr b) st nd) := goodCfg_wellFormed (plain_good P) rfl
  have ht : getTemp cfg.toCfg (viewOf forkEnv (forkMgr b) st nd) = 1 := by simp [getTemp, P.decay, P.temp]
  have hacts : (viewOf forkEnv (forkMgr b) st nd).actions = forkEnv.actions nd.state := rfl
  rw [hacts] at ha
  cases hn : nd.state with
  | start =>
    rw [hn] at ha h2 hacts
    simp only [forkEnv, List.mem_cons, List.not_mem_nil, or_false] at ha hacts h2
    rcases ha with rfl | rfl
    · exact policy_two (b := .stop) (Or.inl hacts) hN hW ht P.weight (h2 _ (by simp)) (h2 _ (by simp))
    · exact policy_two (b := .on) (Or.inr hacts) hN hW ht P.weight (h2 _ (by simp)) (h2 _ (by simp))
  | fork =>
    rw [hn] at ha h2 hacts
    simp only [forkEnv, List.mem_cons, List.not_mem_nil, or_false] at ha hacts h2
    rcases ha with rfl | rfl
    · exact policy_two (b := .bad) (Or.inl hacts) hN hW ht P.weight (h2 _ (by simp)) (h2 _ (by simp))
    · exact policy_two (b := .good) (Or.inr hacts) hN hW ht P.weight (h2 _ (by simp)) (h2 _ (by simp))
  | finish => rw [hn] at hs; simp [forkEnv] at hs

theorem mild_explores (P : Plain cfg) (M : Mild alg b eps cfg q k) (heps : 0 ≤ eps) (hit : ∀ v l, List.Perm (iter v l) l) :
    Explores forkEnv (forkMgr b) alg (softDice eps cfg.toCfg q iter (certain forkNext)) k .start 0 0 [] N (49 / 100) 1 :=
  soft_explores_low M.valid (by simp [Leftover]) M.can (fun st h hr nd => by
    obtain ⟨Q, h1, h2⟩ := mild_policy P M hr nd
    exact ⟨Q, h1, fun g1 g2 a ha => (h2 g1 g2 a ha).1⟩) (plain_good P) fork_live fork_nodup heps hit (certain_ok fork_det) (by norm_num)

/-- The mean weight of the selected move. -/
theorem mild_mean (P : Plain cfg) (M : Mild alg b eps cfg q k) (heps : 0 ≤ eps) (hit : ∀ v l, List.Perm (iter v l) l) {f : Move → ℝ}
    (h1 : ∀ p : ℝ, 49 / 100 ≤ p → p ≤ 51 / 100 → p * f .on + (1 - p) * f .stop ≤ 1 ∧ p * f .good + (1 - p) * f .bad ≤ 1)
    (st : St Place Move ℝ DX DY) (h : List (Event Place Move ℝ)) (w cur : Nat) (path : List (Nat × Nat)) (rs : List ℝ) (new : Bool)
    (nd : DNode Place Move ℝ DX) (hr : Reachable forkEnv (forkMgr b) alg k .start 0 0 [] st h)
    (hs : shouldContinue forkEnv (forkMgr b) nd new = true) :
    mean1 ((softDice eps cfg.toCfg q iter (certain forkNext)).sel
      (viewOf forkEnv (forkMgr b) st { nd with visits := nd.visits + 1, x := alg.visitD false nd.x }) (st.ctxOf w)) f ≤ 1 := by
  obtain ⟨Q, hQ, hp⟩ := mild_policy P M hr { nd with visits := nd.visits + 1, x := alg.visitD false nd.x }
  have hsink := cont_notSink hs
  have hpos : 0 < (viewOf forkEnv (forkMgr b) st { nd with visits := nd.visits + 1, x := alg.visitD false nd.x }).visits := Nat.succ_pos _
  replace hp := hp hpos hsink
  have hW := goodCfg_wellFormed (v := viewOf forkEnv (forkMgr b) st { nd with visits := nd.visits + 1, x := alg.visitD false nd.x }) (plain_good P) rfl
  have hne : (viewOf forkEnv (forkMgr b) st { nd with visits := nd.visits + 1, x := alg.visitD false nd.x }).actions ≠ [] := fork_live.acts _ hsink
  rw [softDice_policy hit heps (pa := 49 / 100) (by norm_num) hQ hpos hne (fork_nodup _) hW (fun a ha => (hp a ha).1)]
  obtain ⟨_, d2⟩ := c31_is_distribution hpos hne hW Q
  generalize policy cfg.toCfg _ _ Q = π at *
  have hacts : (viewOf forkEnv (forkMgr b) st { nd with visits := nd.visits + 1, x := alg.visitD false nd.x }).actions = forkEnv.actions nd.state := rfl
  rw [hacts] at hp d2 ⊢
  cases hn : nd.state with
  | start =>
    rw [hn] at hp d2
    simp only [forkEnv, List.mem_cons, List.not_mem_nil, or_false, List.map_cons, List.map_nil, List.sum_cons, List.sum_nil, mean1] at hp d2 ⊢
    obtain ⟨p1, p2⟩ := hp .on (Or.inl rfl)
    have := (h1 _ p1 p2).1
    have e : π .stop = 1 - π .on := by linarith
    rw [e]
    linarith
  | fork =>
    rw [hn] at hp d2
    simp only [forkEnv, List.mem_cons, List.not_mem_nil, or_false, List.map_cons, List.map_nil, List.sum_cons, List.sum_nil, mean1] at hp d2 ⊢
    obtain ⟨p1, p2⟩ := hp .good (Or.inl rfl)
    have := (h1 _ p1 p2).2
    have e : π .bad = 1 - π .good := by linarith
    rw [e]
    linarith
  | finish => rw [hn] at hsink; simp [forkEnv] at hsink

end

end Verif.Average
