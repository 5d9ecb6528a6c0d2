import Verif.Proofs.AverageProb
import Verif.Proofs.Converge
import Mathlib.Analysis.SpecificLimits.Basic

/-!
# Property C113: searches with average returns

The game, `OptimalMove` and `MayRecommend` are in `Verif.Spec.Average`; `probAfter`, `Finished` and `Productive` in `Verif.Spec.Random`.
-/

set_option linter.unusedSectionVars false
set_option linter.unusedSimpArgs false

namespace Verif.Average

open Verif.Search Verif.Spec Verif.Sampling Verif.Ments Verif.Dents Verif.Random Verif.Backups
open Verif.Eval (mean1)
open Verif.Uct (IterOk)

/-! ## The false part -/

theorem prob_or {S A R X Y : Type} [DecidableEq S] [DecidableEq A] [AddMonoid R] {env : Env S A R} {m : Manager S R} {alg : Alg S A R X Y}
    {D : Dice S A R X Y} {k : Nat} {s0 : S} {dp tm : Int} {tb : List ((Int × S) × Option Nat)} {N : Nat} {pa po : ℝ} {sched : Scheduler S A R}
    (hv : alg.Valid) (htb : Leftover tb) (ht : TableOk m tb) (hX : Explores env m alg D k s0 dp tm tb N pa po) {n : Nat}
    {P P1 P2 : St S A R X Y → List (Event S A R) → Prop} (hP : ∀ st h, Reachable env m alg k s0 dp tm tb st h → P st h → P1 st h ∨ P2 st h) :
    probAfter env m alg D k s0 dp tm tb N sched n P ≤
      probAfter env m alg D k s0 dp tm tb N sched n P1 + probAfter env m alg D k s0 dp tm tb N sched n P2 := by
  classical
  unfold probAfter
  rw [← expect_add]
  refine expect_le hv htb ht hX (fun st h hr _ => ?_) n reach_start (by simp [trialsBegun])
  by_cases h1 : P st h
  · rcases hP st h hr h1 with g | g
    · rw [if_pos h1, if_pos g]
      split <;> norm_num
    · rw [if_pos h1, if_pos g]
      split <;> norm_num
  · rw [if_neg h1]
    split <;> split <;> norm_num

/-- The only optimal move is `on`. -/
theorem optimal_on {b : Bool} {a : Move} (h : OptimalMove forkEnv (forkMgr b) forkNext 0 0 .start a) : a = .on := by
  obtain ⟨ha, hb⟩ := h
  simp only [forkEnv, List.mem_cons, List.not_mem_nil, or_false] at ha
  rcases ha with rfl | rfl
  · rfl
  exfalso
  have ho : isOpponent (forkMgr b) 0 = false := rfl
  rw [ho] at hb
  simp only [Best, Bool.false_eq_true, if_false] at hb
  have h1 := hb.2 ⟨.on, by simp [forkEnv], rfl⟩
  have e : remaining (forkMgr b) (0 + 1) = 1 := rfl
  rw [e] at h1
  norm_num [gameValue, forkEnv, forkNext, forkMgr, bestOf, isOpponent, heurOf, show Place.fork ≠ Place.finish by decide] at h1

example {b : Bool} : OptimalMove forkEnv (forkMgr b) forkNext 0 0 .start .on := by
  refine ⟨by simp [forkEnv], ?_⟩
  have ho : isOpponent (forkMgr b) 0 = false := rfl
  have e : remaining (forkMgr b) (0 + 1) = 1 := rfl
  rw [ho, e]
  simp only [Best, Bool.false_eq_true, if_false]
  refine ⟨⟨.on, by simp [forkEnv], rfl⟩, ?_⟩
  rintro x ⟨c, hc, rfl⟩
  simp only [forkEnv, List.mem_cons, List.not_mem_nil, or_false] at hc
  rcases hc with rfl | rfl
  · exact le_rfl
  · norm_num [gameValue, forkEnv, forkNext, forkMgr, bestOf, isOpponent, heurOf, show Place.fork ≠ Place.finish by decide]

section
variable {alg : Alg Place Move ℝ DX DY} {b : Bool} {eps : ℝ} {cfg : DCfg Place Move} {q : View Place Move DX DY → Move → Except Bad ℝ} {k N : Nat}
  {iter : View Place Move DX DY → List (Move × ℝ) → List (Move × ℝ)}

/-- If `on` can be recommended, then `stop` was never tried or at least nine of ten trials through `on` went on with `good`. -/
theorem recommend_on (P : Plain cfg) (M : Mild alg b eps cfg q k)
    (h0 : ∀ st h, Reachable forkEnv (forkMgr b) alg k .start 0 0 [] st h → ∀ (c : Nat) nc, st.cn[c]? = some nc → 0 ≤ nc.y.emp.avg)
    {st : St Place Move ℝ DX DY} {h : List (Event Place Move ℝ)} (hr : Reachable forkEnv (forkMgr b) alg k .start 0 0 [] st h) (hq : Quiescent st)
    (hm : MayRecommend forkEnv (forkMgr b) cfg st .on) :
    h.countP (picked .stop) = 0 ∨ 9 * h.countP (picked .on) ≤ 10 * h.countP (picked .good) := by
  by_cases hs : h.countP (picked .stop) = 0
  · exact Or.inl hs
  right
  obtain ⟨nd, hd, lowI, raw, it, itI, hi, _, hrec⟩ := hm
  obtain ⟨I, C⟩ := facts M.valid hr
  obtain ⟨cs, hcs⟩ := picked_child M.valid hr (Or.inr rfl) (Nat.pos_of_ne_zero hs)
  obtain ⟨nd1, ncs, f1, f2, f3, _, _, _, _, _⟩ := childC_facts I.tree hcs
  rw [hd] at f1
  obtain rfl := Option.some.inj f1
  -- the average of `stop`
  have hlen : 1 ≤ (returnsC cs h).length := by
    rw [returns_selected M.valid hr hq]
    have := le_picked M.valid hr (Or.inr rfl) hcs
    omega
  obtain ⟨n1, a1⟩ := M.avg st h hr cs ncs f2
  have hstop : ncs.y.emp.avg = 9 / 1000 := by
    rw [a1, sum_const (last_returns M.valid hr hq hcs (by simp))]
    have : ((returnsC cs h).length : ℝ) ≠ 0 := by
      have : (returnsC cs h).length ≠ 0 := by omega
      exact_mod_cast this
    rw [mul_div_assoc, mul_div_cancel₀]
    · rfl
    · exact this
  unfold recommendDents at hrec
  rw [if_neg (by simp [P.visited]), if_neg (by simp [P.dp])] at hrec
  set kids := (viewOf forkEnv (forkMgr b) st nd).kids.map fun k => (k.1, k.2.2.emp.n, k.2.2.emp.avg) with hkids
  have hkid : ∀ p ∈ kids, ∃ c nc, (p.1, c) ∈ nd.kids ∧ st.cn[c]? = some nc ∧ p.2 = (nc.y.emp.n, nc.y.emp.avg) := by
    intro p hp
    obtain ⟨x, hx, rfl⟩ := List.mem_map.1 hp
    obtain ⟨c, nc, g1, g2, g3⟩ := mem_kidsY.1 hx
    exact ⟨c, nc, g1, g2, by rw [g3]⟩
  have hms : (Move.stop, ncs.y.emp.n, ncs.y.emp.avg) ∈ kids := List.mem_map.2 ⟨(.stop, ncs.visits, ncs.y), mem_kidsY.2 ⟨cs, ncs, f3, f2, rfl⟩, rfl⟩
  have hkne : kids ≠ [] := List.ne_nil_of_mem hms
  have hopp : (viewOf forkEnv (forkMgr b) st nd).opp = false := rfl
  rw [hopp] at hrec
  unfold recommendBestOrRandom at hrec
  rw [if_neg (by simpa using hkne)] at hrec
  obtain ⟨a, n, x, g1, g2, g3, _⟩ := c37_best_value (low := cfg.low) (threshold := cfg.threshold) (opp := false) (kids := kids) hkne (by
    intro p hp
    obtain ⟨c, nc, _, e2, e3⟩ := hkid p hp
    have := h0 st h hr c nc e2
    rw [e3]
    simp only [Bool.false_eq_true, if_false, one_mul]
    linarith [P.low]) raw hi
  rw [hrec] at g2
  obtain rfl := Option.some.inj g2
  obtain ⟨_, hbest⟩ := g3 ⟨_, hms, by have := P.threshold; simp only; omega⟩
  have hx := hbest _ hms (by have := P.threshold; simp only; omega)
  simp only [Bool.false_eq_true, if_false, one_mul, hstop] at hx
  obtain ⟨c, nc, e1, e2, e3⟩ := hkid _ g1
  have hc : childC st st.root .on = some c := childC_of_mem I.tree hd e1
  simp only [Prod.mk.injEq] at e3
  rw [e3.2, (M.avg st h hr c nc e2).2] at hx
  have hsum := on_sum M.valid hr hq hc
  have hcount : h.countP (picked .on) ≤ (returnsC c h).length := by
    rw [returns_selected M.valid hr hq]
    exact le_picked M.valid hr (Or.inl rfl) hc
  have hpos : (0 : ℝ) < (returnsC c h).length := by
    rcases Nat.eq_zero_or_pos (returnsC c h).length with hz | hz
    · rw [hz] at hx
      norm_num at hx
    · exact_mod_cast hz
  rw [le_div_iff₀ hpos] at hx
  have hcount' : (h.countP (picked .on) : ℝ) ≤ (returnsC c h).length := by exact_mod_cast hcount
  have : (9 * h.countP (picked .on) : ℝ) ≤ 10 * h.countP (picked .good) := by linarith
  exact_mod_cast this

/-- The probability that `on` can be recommended after `N` trials. -/
theorem mild_false (P : Plain cfg) (M : Mild alg b eps cfg q k)
    (h0 : ∀ st h, Reachable forkEnv (forkMgr b) alg k .start 0 0 [] st h → ∀ (c : Nat) nc, st.cn[c]? = some nc → 0 ≤ nc.y.emp.avg)
    (heps : 0 ≤ eps) (hit : ∀ v l, List.Perm (iter v l) l) (sched : Scheduler Place Move ℝ) (n : Nat) :
    probAfter forkEnv (forkMgr b) alg (softDice eps cfg.toCfg q iter (certain forkNext)) k .start 0 0 [] N sched n
      (fun st h => Finished N st h ∧ ∃ a, OptimalMove forkEnv (forkMgr b) forkNext 0 0 .start a ∧ MayRecommend forkEnv (forkMgr b) cfg st a) ≤
    2 * (10 / 11) ^ N := by
  have htb : Leftover ([] : List ((Int × Place) × Option Nat)) := by simp [Leftover]
  have ht : TableOk (forkMgr b) [] := by simp [TableOk, forkMgr]
  have hX := mild_explores (N := N) P M heps hit
  refine le_trans (prob_or M.valid htb ht hX
    (P1 := fun st h => (11 / 10 : ℝ) ^ N ≤ tilt (fun a : Move => match a with | .on => 4 / 5 | .stop => 11 / 10 | .good => 7 / 4 | .bad => 1 / 5) h)
    (P2 := fun st h => (19 / 10 : ℝ) ^ N ≤ tilt (fun a : Move => match a with | .on => 19 / 10 | .stop => 0 | _ => 1) h) ?_) ?_
  · rintro st h hr ⟨⟨hq, hN⟩, a, ha, hm⟩
    obtain rfl := optimal_on ha
    have r1 := root_moves M.valid hr hq
    have r2 := fork_after_on M.valid hr
    rw [hN] at r1
    rcases recommend_on P M h0 hr hq hm with g | g
    · right
      rw [tilt_counts, g]
      simp only [pow_zero, mul_one, one_pow]
      exact pow_le_pow_right₀ (by norm_num) (by omega)
    · left
      rw [tilt_counts]
      refine le_trans (pow_le_pow_right₀ (by norm_num) r1) ?_
      exact weights_bound r2 g
  · have p1 := tilt_prob (sched := sched) M.valid htb ht hX (N := N)
      (f := fun a : Move => match a with | .on => 4 / 5 | .stop => 11 / 10 | .good => 7 / 4 | .bad => 1 / 5)
      (by intro a; cases a <;> norm_num)
      (fun st h w cur path rs new nd hr _ _ _ hs => mild_mean P M heps hit (by intro p g1 g2; constructor <;> simp only <;> linarith) st h w cur path rs new nd hr hs)
      n (c := (11 / 10 : ℝ) ^ N) (by positivity) (P := fun st h => (11 / 10 : ℝ) ^ N ≤ tilt (fun a : Move => match a with | .on => 4 / 5 | .stop => 11 / 10 | .good => 7 / 4 | .bad => 1 / 5) h)
      (fun st h _ hp => hp)
    have p2 := tilt_prob (sched := sched) M.valid htb ht hX (N := N)
      (f := fun a : Move => match a with | .on => 19 / 10 | .stop => 0 | _ => 1)
      (by intro a; cases a <;> norm_num)
      (fun st h w cur path rs new nd hr _ _ _ hs => mild_mean P M heps hit (by intro p g1 g2; constructor <;> simp only <;> linarith) st h w cur path rs new nd hr hs)
      n (c := (19 / 10 : ℝ) ^ N) (by positivity) (P := fun st h => (19 / 10 : ℝ) ^ N ≤ tilt (fun a : Move => match a with | .on => 19 / 10 | .stop => 0 | _ => 1) h)
      (fun st h _ hp => hp)
    have e1 : ((11 / 10 : ℝ) ^ N)⁻¹ = (10 / 11) ^ N := by rw [← inv_pow]; norm_num
    have e2 : ((19 / 10 : ℝ) ^ N)⁻¹ ≤ (10 / 11) ^ N := by
      rw [← inv_pow]
      exact pow_le_pow_left₀ (by norm_num) (by norm_num) N
    rw [e1] at p1
    linarith [le_trans p2 e2]

end

section
variable {b : Bool} {eps : ℝ} {cfg : DCfg Place Move} {k N : Nat} {lr : Place → Move → ℝ}
  {iter : View Place Move DX DY → List (Move × ℝ) → List (Move × ℝ)}

theorem avg_range {alg : Alg Place Move ℝ DX DY} (P : Plain cfg)
    (ha : alg = dents eps cfg forkEnv (forkMgr b) lr ∨ alg = est eps cfg forkEnv (forkMgr b) lr) {st : St Place Move ℝ DX DY}
    {h : List (Event Place Move ℝ)} (hr : Reachable forkEnv (forkMgr b) alg k .start 0 0 [] st h) {c : Nat} {nc : CNode Place Move ℝ DY}
    (hc : st.cn[c]? = some nc) : 0 ≤ nc.y.emp.avg ∧ nc.y.emp.avg ≤ 3 / 100 := by
  have V : alg.Valid := by
    rcases ha with rfl | rfl
    · exact dents_valid _ _ _ _ _
    · exact est_valid _ _ _ _ _
  have htb : Leftover ([] : List ((Int × Place) × Option Nat)) := by simp [Leftover]
  have W := (c40_averages_bounded P.dp ha (fork_bounded b) htb hr).2 c nc hc
  obtain ⟨d, hcc⟩ := (c14_parents V htb hr).2.1 c nc hc
  obtain ⟨nd, nc', e1, e2, _, _, _, e3, _⟩ := childC_facts (facts V hr).1.tree hcc
  rw [hc] at e2
  obtain rfl := Option.some.inj e2
  obtain ⟨j, hj⟩ := depth_ge V htb hr e1
  have hrem : remaining (forkMgr b) nc.depth + 1 ≤ 3 := by
    have : (forkMgr b).maxDepth = 2 := rfl
    unfold remaining
    omega
  have hrem' : ((remaining (forkMgr b) nc.depth + 1 : Nat) : ℝ) ≤ 3 := by exact_mod_cast hrem
  obtain ⟨w1, w2⟩ := W
  constructor
  · simpa using w1
  · linarith

theorem est_mild (P : Plain cfg) : Mild (est eps cfg forkEnv (forkMgr b) lr) b eps cfg (estQ cfg) k where
  valid := est_valid _ _ _ _ _
  can _ _ _ := rfl
  q st h hr nd := by
    refine ⟨fun a => match find? a (viewOf forkEnv (forkMgr b) st nd).kids with | some y => y.2.emp.avg | none => 0, ?_, ?_⟩
    · intro a _
      have ho : (viewOf forkEnv (forkMgr b) st nd).opp = false := rfl
      simp only [estQ, mentsQ, untriedQ, P.prior, estimate, P.dp, P.defaultQ, ho, oppCoeff, Bool.false_eq_true, if_false]
      cases find? a (viewOf forkEnv (forkMgr b) st nd).kids <;> simp
    · intro a _
      dsimp only
      cases hf : find? a (viewOf forkEnv (forkMgr b) st nd).kids with
      | none => norm_num
      | some y =>
        obtain ⟨c, nc, _, g2, g3⟩ := mem_kidsY.1 (find?_mem' hf)
        simp only at g3
        simp only [g3]
        exact avg_range P (Or.inr rfl) hr g2
  avg st h hr c nc hc := (c56_average_returns P.dp (Or.inr rfl) hr).2 c nc hc

theorem dents_mild (P : Plain cfg) (he : 0 < cfg.epsilon) (hv : cfg.valueDecay = none) (hz : cfg.valueInit = 0) :
    Mild (dents eps cfg forkEnv (forkMgr b) lr) b eps cfg (dentsQ cfg) k where
  valid := dents_valid _ _ _ _ _
  can _ _ _ := rfl
  q st h hr nd := by
    have htb : Leftover ([] : List ((Int × Place) × Option Nat)) := by simp [Leftover]
    obtain ⟨_, D⟩ := dents_finite (plain_good P).total (plain_good P).some he htb hr
    refine ⟨fun a => match find? a (viewOf forkEnv (forkMgr b) st nd).kids with | some y => y.2.emp.avg | none => 0, ?_, ?_⟩
    · intro a _
      have ho : (viewOf forkEnv (forkMgr b) st nd).opp = false := rfl
      simp only [dentsQ]
      cases hf : find? a (viewOf forkEnv (forkMgr b) st nd).kids with
      | none => simp [mentsQ, hf, untriedQ, P.prior, P.defaultQ]
      | some y =>
        obtain ⟨c, nc, _, g2, g3⟩ := mem_kidsY.1 (find?_mem' hf)
        simp only at g3
        obtain ⟨_, r, hr'⟩ := D c nc g2
        simp [estimate, P.dp, g3, hr', ho, oppCoeff, valueTempD, hv, hz]
    · intro a _
      dsimp only
      cases hf : find? a (viewOf forkEnv (forkMgr b) st nd).kids with
      | none => norm_num
      | some y =>
        obtain ⟨c, nc, _, g2, g3⟩ := mem_kidsY.1 (find?_mem' hf)
        simp only at g3
        simp only [g3]
        exact avg_range P (Or.inl rfl) hr g2
  avg st h hr c nc hc := (c56_average_returns P.dp (Or.inl rfl) hr).2 c nc hc

/-- C113 is false.  The probability that a finished EST search with average returns can recommend an optimal move of this game is at most
`2 (10/11)^N` after `N` trials, whatever the number of workers, the schedule and the exploration. -/
theorem c113_est_false (P : Plain cfg) (heps : 0 ≤ eps) (hit : ∀ v l, List.Perm (iter v l) l) (sched : Scheduler Place Move ℝ) (n : Nat) :
    probAfter forkEnv (forkMgr b) (est eps cfg forkEnv (forkMgr b) lr) (softDice eps cfg.toCfg (estQ cfg) iter (certain forkNext)) k .start 0 0 []
      N sched n (fun st h => Finished N st h ∧
        ∃ a, OptimalMove forkEnv (forkMgr b) forkNext 0 0 .start a ∧ MayRecommend forkEnv (forkMgr b) cfg st a) ≤ 2 * (10 / 11) ^ N :=
  mild_false P (est_mild P) (fun _ _ hr _ _ hc => (avg_range P (Or.inr rfl) hr hc).1) heps hit sched n

/-- C113 is false for DENTS, too, with value temperature zero. -/
theorem c113_dents_false (P : Plain cfg) (he : 0 < cfg.epsilon) (hv : cfg.valueDecay = none) (hz : cfg.valueInit = 0) (heps : 0 ≤ eps)
    (hit : ∀ v l, List.Perm (iter v l) l) (sched : Scheduler Place Move ℝ) (n : Nat) :
    probAfter forkEnv (forkMgr b) (dents eps cfg forkEnv (forkMgr b) lr) (softDice eps cfg.toCfg (dentsQ cfg) iter (certain forkNext)) k .start 0 0 []
      N sched n (fun st h => Finished N st h ∧
        ∃ a, OptimalMove forkEnv (forkMgr b) forkNext 0 0 .start a ∧ MayRecommend forkEnv (forkMgr b) cfg st a) ≤ 2 * (10 / 11) ^ N :=
  mild_false P (dents_mild P he hv hz) (fun _ _ hr _ _ hc => (avg_range P (Or.inl rfl) hr hc).1) heps hit sched n

/-- C113.  So a search that is not idle almost surely ends with a wrong recommendation. -/
theorem c113_est_wrong (P : Plain cfg) (heps : 0 ≤ eps) (hit : ∀ v l, List.Perm (iter v l) l) {sched : Scheduler Place Move ℝ} (hk : 0 < k)
    (hsch : Productive forkEnv (forkMgr b) (est eps cfg forkEnv (forkMgr b) lr) k .start 0 0 [] N sched) {n : Nat} (hn : 12 * N ≤ n) :
    1 - 2 * (10 / 11) ^ N ≤
    probAfter forkEnv (forkMgr b) (est eps cfg forkEnv (forkMgr b) lr) (softDice eps cfg.toCfg (estQ cfg) iter (certain forkNext)) k .start 0 0 []
      N sched n (fun st h => Finished N st h ∧
        ∀ a, MayRecommend forkEnv (forkMgr b) cfg st a → ¬ OptimalMove forkEnv (forkMgr b) forkNext 0 0 .start a) := by
  have M : Mild (est eps cfg forkEnv (forkMgr b) lr) b eps cfg (estQ cfg) k := est_mild P
  have htb : Leftover ([] : List ((Int × Place) × Option Nat)) := by simp [Leftover]
  have ht : TableOk (forkMgr b) [] := by simp [TableOk, forkMgr]
  have hX := mild_explores (N := N) P M heps hit
  have h1 := c77_ends (n := n) M.valid htb ht hX (by simp [forkMgr]) hk hsch (by simpa [forkMgr] using hn)
  have h2 := c113_est_false (k := k) (N := N) (b := b) (lr := lr) P heps hit sched n
  have h3 := prob_or (sched := sched) (n := n) M.valid htb ht hX (P := fun st h => Finished N st h)
    (P1 := fun st h => Finished N st h ∧ ∃ a, OptimalMove forkEnv (forkMgr b) forkNext 0 0 .start a ∧ MayRecommend forkEnv (forkMgr b) cfg st a)
    (P2 := fun st h => Finished N st h ∧ ∀ a, MayRecommend forkEnv (forkMgr b) cfg st a → ¬ OptimalMove forkEnv (forkMgr b) forkNext 0 0 .start a)
    (fun st h _ hf => by
      by_cases hx : ∃ a, OptimalMove forkEnv (forkMgr b) forkNext 0 0 .start a ∧ MayRecommend forkEnv (forkMgr b) cfg st a
      · exact Or.inl ⟨hf, hx⟩
      · exact Or.inr ⟨hf, fun a g1 g2 => hx ⟨a, g2, g1⟩⟩)
  linarith

end

/-- The bound tends to zero. -/
theorem c113_bound_vanishes : Filter.Tendsto (fun N : Nat => (2 : ℝ) * (10 / 11) ^ N) Filter.atTop (nhds 0) := by
  have := (tendsto_pow_atTop_nhds_zero_of_lt_one (r := (10 / 11 : ℝ)) (by norm_num) (by norm_num)).const_mul 2
  simpa using this

/-- Settings that meet the hypotheses: those of the default manager, except for `use_dp_value`. -/
noncomputable def plainCfg : DCfg Place Move where
  temp := 1
  priorWeight := 0
  epsilon := 1 / 2
  rootEpsilon := -1
  maxExplore := 1
  decay := none
  minTemp := 1 / 10 ^ 6
  scale := 1
  rootScale := -1
  defaultQ := 0
  shift := false
  offset := 0
  threshold := 0
  mostVisited := false
  prior := none
  low := -10 ^ 300
  valueDecay := none
  valueInit := 0
  valueMin := 1 / 10 ^ 6
  valueScale := 1
  valueRootScale := -1
  useDp := false

example : Plain plainCfg := by
  constructor <;> norm_num [plainCfg]

/-- Ninety trials by three workers, with the default settings: some schedule runs them all, and with probability at least 0.999 the search
ends with a recommendation that is not optimal. -/
example : ∃ sched : Scheduler Place Move ℝ, 999 / 1000 ≤
    probAfter forkEnv (forkMgr true) (est 0 plainCfg forkEnv (forkMgr true) fun _ _ => 0)
      (softDice 0 plainCfg.toCfg (estQ plainCfg) (fun _ l => l) (certain forkNext)) 3 .start 0 0 [] 90 sched 1080
      (fun st h => Finished 90 st h ∧
        ∀ a, MayRecommend forkEnv (forkMgr true) plainCfg st a → ¬ OptimalMove forkEnv (forkMgr true) forkNext 0 0 .start a) := by
  have P : Plain plainCfg := by constructor <;> norm_num [plainCfg]
  obtain ⟨sched, hsch⟩ := productive_exists (env := forkEnv) (m := forkMgr true) (k := 3) (s0 := Place.start) (dp := 0) (tm := 0) (N := 90)
    (tb := []) (est_valid 0 plainCfg forkEnv (forkMgr true) fun _ _ => 0) (by simp [Leftover]) (by simp [TableOk, forkMgr])
  refine ⟨sched, le_trans ?_ (c113_est_wrong P le_rfl (fun _ l => List.Perm.refl l) (by norm_num) hsch (by norm_num))⟩
  norm_num

/-- The hypotheses of the true part below are met by this game: it is deterministic, the heuristic is never too high, ... -/
example {b : Bool} : (∀ s a, a ∈ forkEnv.actions s → forkEnv.succ s a = [forkNext s a]) ∧ (forkMgr b).twoPlayer = false ∧
    ∀ n t s, heurOf forkEnv (forkMgr b) s ≤ gameValue forkEnv (forkMgr b) forkNext n t s := by
  refine ⟨fork_det, rfl, ?_⟩
  intro n
  induction n with
  | zero => intro t s; exact le_rfl
  | succ n ih =>
    intro t s
    have e : ∀ s, heurOf forkEnv (forkMgr b) s = 0 := fun s => by simp [heurOf, forkMgr]
    have ho : ∀ t, isOpponent (forkMgr b) t = false := fun t => by simp [isOpponent, forkMgr]
    cases s with
    | finish => simp [gameValue, forkEnv, heurOf, forkMgr]
    | start =>
      have h1 := ih (t + 1) .finish
      rw [e] at h1 ⊢
      have := (Verif.Uct.bestOf_spec (opp := false) (l := ([.on, .stop] : List Move).map fun a => forkEnv.reward .start a (forkNext .start a) +
        gameValue forkEnv (forkMgr b) forkNext n (t + 1) (forkNext .start a)) (by simp)).2 _ (List.mem_map.2 ⟨.stop, by simp, rfl⟩)
      simp only [Bool.false_eq_true, if_false, one_mul] at this
      refine le_trans ?_ this
      have h2 : forkEnv.reward .start .stop (forkNext .start .stop) = 9 / 1000 := rfl
      rw [h2]
      have h3 : forkNext .start .stop = .finish := rfl
      rw [h3]
      linarith
    | fork =>
      have h1 := ih (t + 1) .finish
      rw [e] at h1 ⊢
      have := (Verif.Uct.bestOf_spec (opp := false) (l := ([.good, .bad] : List Move).map fun a => forkEnv.reward .fork a (forkNext .fork a) +
        gameValue forkEnv (forkMgr b) forkNext n (t + 1) (forkNext .fork a)) (by simp)).2 _ (List.mem_map.2 ⟨.good, by simp, rfl⟩)
      simp only [Bool.false_eq_true, if_false, one_mul] at this
      refine le_trans ?_ this
      have h2 : forkEnv.reward .fork .good (forkNext .fork .good) = 1 / 100 := rfl
      rw [h2]
      have h3 : forkNext .fork .good = .finish := rfl
      rw [h3]
      linarith

/-- ... and there is a search of it that has ended and has tried everything. -/
example : ∃ st h, Reachable forkEnv (forkMgr false) (est 0 plainCfg forkEnv (forkMgr false) fun _ _ => 0) 3 .start 0 0 [] st h ∧ Quiescent st ∧
    Exhausted forkEnv (forkMgr false) st := by
  have P : Plain plainCfg := by constructor <;> norm_num [plainCfg]
  have M : Mild (est 0 plainCfg forkEnv (forkMgr false) fun _ _ => 0) false 0 plainCfg (estQ plainCfg) 3 := est_mild P
  have htb : Leftover ([] : List ((Int × Place) × Option Nat)) := by simp [Leftover]
  have ht : TableOk (forkMgr false) [] := by simp [TableOk, forkMgr]
  obtain ⟨sched, hsch⟩ := productive_exists (env := forkEnv) (m := forkMgr false) (k := 3) (s0 := Place.start) (dp := 0) (tm := 0) (N := 62)
    M.valid htb ht
  have hX := mild_explores (N := 62) (iter := fun _ l => l) P M le_rfl (fun _ l => List.Perm.refl l)
  have h1 := c77_exhausts (n := 744) fork_live M.valid htb ht hX ⟨by norm_num, by norm_num⟩ ⟨by norm_num, by norm_num⟩ (by simp [forkMgr]) (by norm_num)
    hsch (by simp [forkMgr])
  by_contra hno
  have h2 := prob_mono (sched := sched) (n := 744) M.valid htb ht hX (P := fun st h => Finished 62 st h ∧ Exhausted forkEnv (forkMgr false) st)
    (Q := fun _ _ => False) (fun st h hr hp => hno ⟨st, h, hr, hp.1.1, hp.2⟩)
  have h3 : probAfter forkEnv (forkMgr false) (est 0 plainCfg forkEnv (forkMgr false) fun _ _ => 0)
      (softDice 0 plainCfg.toCfg (estQ plainCfg) (fun _ l => l) (certain forkNext)) 3 .start 0 0 [] 62 sched 744 (fun _ _ => False) ≤ 0 := by
    simp only [probAfter, if_false]
    rw [expect_const M.valid htb ht hX 0 744 reach_start (by simp [trialsBegun])]
  have hlen : (plays forkEnv ((forkMgr false).maxDepth - 0).toNat .start).length ≤ 7 := by
    rw [show ((forkMgr false).maxDepth - 0).toNat = 2 from rfl]
    simp [plays, forkEnv, show (Place.start == Place.finish) = false from rfl, show (Place.fork == Place.finish) = false from rfl, show (Place.finish == Place.finish) = true from rfl]
  have hm : missBound (49 / 100 * 1) ((forkMgr false).maxDepth - 0).toNat 62 ≤ 1 / 10 := by
    rw [show ((forkMgr false).maxDepth - 0).toNat = 2 from rfl]
    norm_num [missBound]
  have hm0 : 0 ≤ missBound (49 / 100 * 1) ((forkMgr false).maxDepth - 0).toNat 62 := by
    unfold missBound; positivity
  have hlen' : ((plays forkEnv ((forkMgr false).maxDepth - 0).toNat .start).length : ℝ) ≤ 7 := by exact_mod_cast hlen
  have := mul_le_mul hlen' hm hm0 (by norm_num)
  linarith

/-! ## The true part -/

section
variable {S A : Type} [DecidableEq S] [DecidableEq A] {env : Env S A ℝ} {m : Manager S ℝ} {next : S → A → S} {k : Nat} {s0 : S} {dp tm : Int}
  {tb : List ((Int × S) × Option Nat)} {h : List (Event S A ℝ)} {eps : ℝ} {cfg : DCfg S A} {lr : S → A → ℝ}

section
variable {X Y : Type} {alg : Alg S A ℝ X Y} {st : St S A ℝ X Y}

/-- The returns of a chance node of a deterministic game come from its successor. -/
theorem returns_below (hdet : ∀ s a, a ∈ env.actions s → env.succ s a = [next s a]) (hv : alg.Valid) (htb : Leftover tb)
    (hu : m.useTable = false) (hr : Reachable env m alg k s0 dp tm tb st h) {d c : Nat} {a : A} (hc : childC st d a = some c) {r : ℝ}
    (hm : r ∈ returnsC c h) : ∃ nd d' nd', st.dn[d]? = some nd ∧ a ∈ env.actions nd.state ∧ st.dn[d']? = some nd' ∧
      nd'.state = next nd.state a ∧ nd'.depth = nd.depth + 1 ∧ nd'.time = nd.time + 1 ∧
      ∃ x ∈ below d' nd' h, r = x + env.reward nd.state a (next nd.state a) := by
  have T := (reach_inv hv htb hr).tree
  obtain ⟨nd, nc, f1, f2, _, f4, f5, f6, f7, f8⟩ := childC_facts T hc
  have F := flow_chance_held hv htb hu hr f2
  have hr1 : r ∈ (returnsC c h : Multiset ℝ) + (st.ws.map (Phase.pendM c)).sum := Multiset.mem_add.2 (Or.inl hm)
  rw [F] at hr1
  obtain ⟨q, q1, q2⟩ := mem_msum hr1
  obtain ⟨x, x1, rfl⟩ := Multiset.mem_map.1 q2
  have hcd := childD_of_mem T f2 (show (q.1, q.2) ∈ nc.kids from q1)
  obtain ⟨nc', nd', g1, g2, _, g3, g4, g5, g6⟩ := childD_facts T hcd
  rw [f2] at g1
  obtain rfl := Option.some.inj g1
  rw [f4, f5, hdet _ _ f8, List.mem_singleton] at g6
  rw [belowAt_some g2] at x1
  refine ⟨nd, q.2, nd', f1, f8, g2, by rw [g3, g6], by rw [g4, f6], by rw [g5, f7], x, x1, by rw [f4, f5, g6]⟩

theorem heur_of (hv : alg.Valid) (htb : Leftover tb) (hr : Reachable env m alg k s0 dp tm tb st h) {d : Nat} {nd : DNode S A ℝ X}
    (hd : st.dn[d]? = some nd) : nd.heur = heurOf env m nd.state :=
  (reach_inv hv htb hr).tree.heap.dHeur d nd.skel (by simp [hd])

theorem leaf_kids (hv : alg.Valid) (htb : Leftover tb) (hr : Reachable env m alg k s0 dp tm tb st h) {d : Nat} {nd : DNode S A ℝ X}
    (hd : st.dn[d]? = some nd) (hl : isLeaf env m nd = true) : nd.kids = [] :=
  (reach_inv hv htb hr).tree.heap.dLeaf d nd.skel (by simp [hd]) hl

theorem leaf_value (n : Nat) (t : Int) {s : S} (hs : env.isSink s = true ∨ n = 0) : gameValue env m next n t s = heurOf env m s := by
  cases n with
  | zero => rfl
  | succ n =>
    have hs' : env.isSink s = true := by
      rcases hs with hs | hs
      · exact hs
      · omega
    simp only [gameValue, hs', if_true, heurOf]
    cases m.heuristic <;> rfl

/-- The values that trials bring up to a node never exceed the value of the game from there, in games with one player. -/
theorem below_le (hdet : ∀ s a, a ∈ env.actions s → env.succ s a = [next s a]) (h1 : m.twoPlayer = false)
    (hheur : ∀ n t s, heurOf env m s ≤ gameValue env m next n t s) (hv : alg.Valid) (htb : Leftover tb) (hu : m.useTable = false)
    (hr : Reachable env m alg k s0 dp tm tb st h) (n : Nat) : ∀ {d : Nat} {nd : DNode S A ℝ X}, st.dn[d]? = some nd → remaining m nd.depth = n →
    ∀ x ∈ below d nd h, x ≤ gameValue env m next n nd.time nd.state := by
  induction n with
  | zero =>
    intro d nd hd hn x hx
    have hl : isLeaf env m nd = true := by
      unfold remaining at hn
      simp only [isLeaf, Bool.or_eq_true, decide_eq_true_eq]
      right
      omega
    simp only [below, leaf_kids hv htb hr hd hl, List.map_nil, List.sum_nil, zero_add] at hx
    rw [Multiset.eq_of_mem_replicate hx, heur_of hv htb hr hd]
    exact hheur _ _ _
  | succ n ih =>
    intro d nd hd hn x hx
    have T := (reach_inv hv htb hr).tree
    rcases Multiset.mem_add.1 hx with hx | hx
    · obtain ⟨p, p1, p2⟩ := mem_msum hx
      have hc := childC_of_mem T hd (show (p.1, p.2) ∈ nd.kids from p1)
      have hsink : env.isSink nd.state = false := by
        cases hs : env.isSink nd.state with
        | false => rfl
        | true =>
          have := leaf_kids hv htb hr hd (by simp [isLeaf, hs])
          rw [this] at p1
          simp at p1
      obtain ⟨nd2, d', nd', g1, g2, g3, g4, g5, g6, y, y1, rfl⟩ := returns_below hdet hv htb hu hr hc (r := x) p2
      rw [hd] at g1
      obtain rfl := Option.some.inj g1
      have hy := ih g3 (by unfold remaining at hn ⊢; omega) y y1
      rw [g4, g6] at hy
      simp only [gameValue, hsink, Bool.false_eq_true, if_false]
      have hopp : isOpponent m nd.time = false := by simp [isOpponent, h1]
      rw [hopp]
      have := (Verif.Uct.bestOf_spec (opp := false) (l := (env.actions nd.state).map fun a => env.reward nd.state a (next nd.state a) +
        gameValue env m next n (nd.time + 1) (next nd.state a)) (List.ne_nil_of_mem (List.mem_map.2 ⟨p.1, g2, rfl⟩))).2 _ (List.mem_map.2 ⟨p.1, g2, rfl⟩)
      simp only [Bool.false_eq_true, if_false, one_mul] at this
      linarith
    · rw [Multiset.eq_of_mem_replicate hx, heur_of hv htb hr hd]
      exact hheur _ _ _

end

variable {st : St S A ℝ DX DY}

/-- C113.  In a deterministic game with one player, with a heuristic that is never too high, average returns never exceed the value of the
best continuation, at any moment of any search. -/
theorem c113_never_above_partial (hdet : ∀ s a, a ∈ env.actions s → env.succ s a = [next s a]) (h1 : m.twoPlayer = false)
    (hheur : ∀ n t s, heurOf env m s ≤ gameValue env m next n t s) (hdp : cfg.useDp = false) {alg : Alg S A ℝ DX DY}
    (ha : alg = dents eps cfg env m lr ∨ alg = est eps cfg env m lr) (htb : Leftover tb) (hu : m.useTable = false)
    (hr : Reachable env m alg k s0 dp tm tb st h) {d c : Nat} {a : A} {nd : DNode S A ℝ DX} {nc : CNode S A ℝ DY} (hd : st.dn[d]? = some nd)
    (hc : childC st d a = some c) (hn : st.cn[c]? = some nc) (hb : nc.y.emp.n ≠ 0) :
    nc.y.emp.avg ≤ env.reward nd.state a (next nd.state a) +
      gameValue env m next (remaining m (nd.depth + 1)) (nd.time + 1) (next nd.state a) := by
  have V : alg.Valid := by
    rcases ha with rfl | rfl
    · exact dents_valid _ _ _ _ _
    · exact est_valid _ _ _ _ _
  obtain ⟨e1, e2⟩ := (c56_average_returns hdp ha hr).2 c nc hn
  rw [e1] at hb
  have hpos : (0 : ℝ) < (returnsC c h).length := by exact_mod_cast Nat.pos_of_ne_zero hb
  rw [e2, div_le_iff₀ hpos, mul_comm]
  have gen : ∀ (l : List ℝ) (M : ℝ), (∀ r ∈ l, r ≤ M) → l.sum ≤ l.length * M := by
    intro l M hl
    induction l with
    | nil => simp
    | cons x l ih =>
      have a1 := hl x (by simp)
      have a2 := ih fun r hr => hl r (by simp [hr])
      rw [List.sum_cons, List.length_cons]
      push_cast
      linarith
  refine gen _ _ fun r hm => ?_
  obtain ⟨nd2, d', nd', g1, g2, g3, g4, g5, g6, y, y1, rfl⟩ := returns_below hdet V htb hu hr hc hm
  rw [hd] at g1
  obtain rfl := Option.some.inj g1
  have hy := below_le hdet h1 hheur V htb hu hr _ g3 rfl y y1
  rw [g4, g5, g6] at hy
  linarith

/-- C113.  Average returns are exact for moves after which nothing more is played. -/
theorem c113_last_move_partial (hdet : ∀ s a, a ∈ env.actions s → env.succ s a = [next s a]) (hdp : cfg.useDp = false) {alg : Alg S A ℝ DX DY}
    (ha : alg = dents eps cfg env m lr ∨ alg = est eps cfg env m lr) (htb : Leftover tb) (hu : m.useTable = false)
    (hr : Reachable env m alg k s0 dp tm tb st h) {d c : Nat} {a : A} {nd : DNode S A ℝ DX} {nc : CNode S A ℝ DY} (hd : st.dn[d]? = some nd)
    (hc : childC st d a = some c) (hn : st.cn[c]? = some nc) (hb : nc.y.emp.n ≠ 0)
    (hlast : env.isSink (next nd.state a) = true ∨ m.maxDepth ≤ nd.depth + 1) :
    nc.y.emp.avg = env.reward nd.state a (next nd.state a) +
      gameValue env m next (remaining m (nd.depth + 1)) (nd.time + 1) (next nd.state a) := by
  have V : alg.Valid := by
    rcases ha with rfl | rfl
    · exact dents_valid _ _ _ _ _
    · exact est_valid _ _ _ _ _
  obtain ⟨e1, e2⟩ := (c56_average_returns hdp ha hr).2 c nc hn
  rw [e1] at hb
  have hpos : ((returnsC c h).length : ℝ) ≠ 0 := by exact_mod_cast hb
  have hall : ∀ r ∈ returnsC c h, r = env.reward nd.state a (next nd.state a) +
      gameValue env m next (remaining m (nd.depth + 1)) (nd.time + 1) (next nd.state a) := by
    intro r hm
    obtain ⟨nd2, d', nd', g1, g2, g3, g4, g5, g6, y, y1, rfl⟩ := returns_below hdet V htb hu hr hc hm
    rw [hd] at g1
    obtain rfl := Option.some.inj g1
    have hl : isLeaf env m nd' = true := by
      simp only [isLeaf, Bool.or_eq_true, decide_eq_true_eq, g4, g5]
      exact hlast
    simp only [below, leaf_kids V htb hr g3 hl, List.map_nil, List.sum_nil, zero_add] at y1
    rw [Multiset.eq_of_mem_replicate y1, heur_of V htb hr g3, g4, leaf_value, add_comm]
    rcases hlast with hx | hx
    · exact Or.inl hx
    · right; unfold remaining; omega
  rw [e2, sum_const hall, mul_div_assoc, mul_div_cancel₀ _ hpos]

/-- C113.  In a deterministic game of one move, with one or two players, a search with average returns that has tried every move recommends an
optimal one, at the root and at every other node whose moves end the game. -/
theorem c113_one_move_partial (hdet : ∀ s a, a ∈ env.actions s → env.succ s a = [next s a]) (hdp : cfg.useDp = false)
    (hmv : cfg.mostVisited = false) {alg : Alg S A ℝ DX DY} (ha : alg = dents eps cfg env m lr ∨ alg = est eps cfg env m lr) (htb : Leftover tb)
    (hu : m.useTable = false) (hr : Reachable env m alg k s0 dp tm tb st h) (hq : Quiescent st) {d : Nat} {nd : DNode S A ℝ DX}
    (hd : st.dn[d]? = some nd) (hne : env.actions nd.state ≠ []) (hx : ∀ a ∈ env.actions nd.state, ∃ c, childC st d a = some c)
    (hlast : ∀ a ∈ env.actions nd.state, env.isSink (next nd.state a) = true ∨ m.maxDepth ≤ nd.depth + 1) (hth : cfg.threshold ≤ 1)
    (hlow : ∀ a ∈ env.actions nd.state, cfg.low ≤ (if isOpponent m nd.time then -1 else 1) *
      (env.reward nd.state a (next nd.state a) + gameValue env m next (remaining m (nd.depth + 1)) (nd.time + 1) (next nd.state a)))
    (lowI : Int) (raw : Nat) {iter : List (A × ℝ) → List (A × ℝ)} {iterI : List (A × Int) → List (A × Int)} (hi : IterOk iter) :
    ∃ a, recommendDents cfg lowI (viewOf env m st nd) raw iter iterI = some a ∧ OptimalMove env m next nd.depth nd.time nd.state a := by
  have V : alg.Valid := by
    rcases ha with rfl | rfl
    · exact dents_valid _ _ _ _ _
    · exact est_valid _ _ _ _ _
  have T := (reach_inv V htb hr).tree
  let Q : A → ℝ := fun a => env.reward nd.state a (next nd.state a) +
    gameValue env m next (remaining m (nd.depth + 1)) (nd.time + 1) (next nd.state a)
  unfold recommendDents
  rw [if_neg (by simp [hmv]), if_neg (by simp [hdp])]
  set kids := (viewOf env m st nd).kids.map fun k => (k.1, k.2.2.emp.n, k.2.2.emp.avg) with hkids
  have hback : ∀ {a c nc}, childC st d a = some c → st.cn[c]? = some nc → 1 ≤ nc.y.emp.n := by
    intro a c nc hc hn
    rw [((c56_average_returns hdp ha hr).2 c nc hn).1]
    exact List.length_pos_iff.2 (c39_children_backed V htb hr hq hc).2
  have hkid : ∀ p ∈ kids, p.1 ∈ env.actions nd.state ∧ 1 ≤ p.2.1 ∧ p.2.2 = Q p.1 := by
    intro p hp
    obtain ⟨x, hx', rfl⟩ := List.mem_map.1 hp
    obtain ⟨c, nc, g1, g2, g3⟩ := mem_kidsY.1 hx'
    have hcc := childC_of_mem T hd g1
    obtain ⟨nd2, _, f1, _, _, _, _, _, _, f8⟩ := childC_facts T hcc
    rw [hd] at f1
    obtain rfl := Option.some.inj f1
    have hb := hback hcc g2
    refine ⟨f8, ?_, ?_⟩
    · rw [g3]; exact hb
    · rw [g3]
      exact c113_last_move_partial hdet hdp ha htb hu hr hd hcc g2 (by omega) (hlast _ f8)
  have hall : ∀ a ∈ env.actions nd.state, ∃ n, (a, n, Q a) ∈ kids := by
    intro a haa
    obtain ⟨c, hc⟩ := hx a haa
    obtain ⟨nd2, nc, f1, f2, f3, _⟩ := childC_facts T hc
    rw [hd] at f1
    obtain rfl := Option.some.inj f1
    have hm : (a, nc.y.emp.n, nc.y.emp.avg) ∈ kids := List.mem_map.2 ⟨(a, nc.visits, nc.y), mem_kidsY.2 ⟨c, nc, f3, f2, rfl⟩, rfl⟩
    have := (hkid _ hm).2.2
    simp only at this
    rw [this] at hm
    exact ⟨_, hm⟩
  obtain ⟨a0, ha0⟩ := List.exists_mem_of_ne_nil _ hne
  obtain ⟨n0, hn0⟩ := hall a0 ha0
  have hkne : kids ≠ [] := List.ne_nil_of_mem hn0
  obtain ⟨a, n, x, hm, h1, h2, _⟩ := c37_best_value (low := cfg.low) (threshold := cfg.threshold) (opp := isOpponent m nd.time)
    (kids := kids) hkne (by
      intro p hp
      obtain ⟨g1, _, g3⟩ := hkid p hp
      rw [g3]
      exact hlow p.1 g1) raw hi
  obtain ⟨_, hbest⟩ := h2 ⟨_, hn0, by have := (hkid _ hn0).2.1; simp only at this ⊢; omega⟩
  obtain ⟨haa, _, hxa⟩ := hkid _ hm
  simp only at hxa haa
  refine ⟨a, ?_, haa, ?_⟩
  · unfold recommendBestOrRandom
    rw [if_neg (by simpa using hkne)]
    exact h1
  · have hle : ∀ b ∈ env.actions nd.state, (if isOpponent m nd.time then (-1 : ℝ) else 1) * Q b ≤ (if isOpponent m nd.time then -1 else 1) * Q a := by
      intro b hb
      obtain ⟨nb, hnb⟩ := hall b hb
      have := hbest _ hnb (by have := (hkid _ hnb).2.1; simp only at this ⊢; omega)
      rw [← hxa]
      exact this
    unfold Best
    split
    · next ho =>
      refine ⟨⟨a, haa, rfl⟩, ?_⟩
      rintro _ ⟨b, hb, rfl⟩
      have := hle b hb
      simp only [ho, if_true] at this
      simp only [Q] at this
      linarith
    · next ho =>
      refine ⟨⟨a, haa, rfl⟩, ?_⟩
      rintro _ ⟨b, hb, rfl⟩
      have := hle b hb
      simp only [ho] at this
      simpa [Q] using this

end

end Verif.Average
