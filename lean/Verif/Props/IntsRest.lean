import Verif.Spec.Ints
import Verif.Props.System
import Verif.Props.Eval
import Verif.Props.Whole

/-!
# C92: the counters of the evaluator and of the logger

`FitsInt` is defined in `Verif.Spec.Ints`.
-/

set_option linter.unusedSectionVars false

namespace Verif.Eval

open Verif.Search

section
variable {S A R X Y : Type} [DecidableEq S] [DecidableEq A] [Add R] [Zero R]
variable {c : ECfg S A R X Y} {p : Policy} {old : List R} {es : EState S R} {h : List (EEvent S A R)}

/-- C92.  The loop variable of every thread of an evaluation (mc_eval.cpp:119) stays below the number of rollouts plus the number of threads, and below the number of
rollouts during a rollout. -/
theorem c92_evaluator (hr : EReach c p old es h) {th : Thread S R} (ht : th ∈ es.ts) :
    0 ≤ th.i ∧ th.i < max c.rollouts 0 + c.threads ∧ (th.roll.isSome → th.i < c.rollouts) := by
  suffices H : (∀ th ∈ es.ts, th.i < max c.rollouts 0 + c.threads) by
    have I := einv hr
    obtain ⟨t, hlt, hth⟩ := List.getElem_of_mem ht
    have hth : es.ts[t]? = some th := by rw [List.getElem?_eq_getElem hlt, hth]
    refine ⟨?_, H th ht, I.busy t th hth⟩
    obtain ⟨q, hq⟩ := I.pos t th hth
    rw [hq]
    have : (0 : Int) ≤ (c.threads : Int) * q := Int.mul_nonneg (by omega) (by omega)
    omega
  clear ht th
  induction hr with
  | start =>
    intro th ht
    simp only [start, List.mem_map, List.mem_range] at ht
    obtain ⟨j, hj, rfl⟩ := ht
    show (j : Int) < _
    omega
  | step hr0 hs ih =>
    intro th ht
    have I := einv hr0
    obtain ⟨_, E⟩ := eStep_eff hs
    cases E with
    | began th0 hth hroll hlt =>
      rcases List.mem_or_eq_of_mem_set ht with h1 | h1
      · exact ih th h1
      · subst h1; exact ih th0 (List.mem_of_getElem? hth)
    | acted th0 r raw _ _ hth hroll _ _ _ _ =>
      rcases List.mem_or_eq_of_mem_set ht with h1 | h1
      · exact ih th h1
      · subst h1; exact ih th0 (List.mem_of_getElem? hth)
    | finished th0 r hth hroll _ =>
      rcases List.mem_or_eq_of_mem_set ht with h1 | h1
      · exact ih th h1
      · subst h1
        have := I.busy _ _ hth (by rw [hroll]; rfl)
        show th0.i + (c.threads : Int) < _
        omega
    | died => exact ih th ht

/-- C92.  So it fits an `int` if the two arguments of `run_rollouts` together do. -/
theorem c92_evaluator_fits (hr : EReach c p old es h) (hn : max c.rollouts 0 + c.threads ≤ 2 ^ 31) {th : Thread S R} (ht : th ∈ es.ts) : FitsInt th.i := by
  obtain ⟨h1, h2, _⟩ := c92_evaluator hr ht
  unfold FitsInt
  omega

/-- C92 is false for the largest number of rollouts: with more than one thread, every evaluation of 2^31 - 1 rollouts that gets to its end has computed a loop variable that
does not fit an `int`. -/
theorem c92_evaluator_false (hr : EReach c p old es h) (hd : allDone c es) (hn : c.rollouts = 2 ^ 31 - 1) (hT : 2 ≤ c.threads) : ∃ th ∈ es.ts, ¬ FitsInt th.i := by
  have I := einv hr
  have hl := I.len
  have h0 : es.ts[0]? = some es.ts[0] := List.getElem?_eq_getElem (by omega)
  have h1 : es.ts[1]? = some es.ts[1] := List.getElem?_eq_getElem (by omega)
  have m0 := List.mem_of_getElem? h0
  have m1 := List.mem_of_getElem? h1
  have d0 := (hd.2 _ m0).2
  have d1 := (hd.2 _ m1).2
  obtain ⟨q0, p0⟩ := I.pos _ _ h0
  obtain ⟨q1, p1⟩ := I.pos _ _ h1
  by_cases f0 : FitsInt es.ts[0].i
  · by_cases f1 : FitsInt es.ts[1].i
    · exfalso
      unfold FitsInt at f0 f1
      have e : es.ts[0].i = es.ts[1].i := by omega
      rw [p0, p1] at e
      have e' : (c.threads : Int) * ((q0 : Int) - q1) = 1 := by
        rw [Int.mul_sub]; push_cast at e; omega
      have := Int.eq_one_or_neg_one_of_mul_eq_one e'
      omega
    · exact ⟨_, m1, f1⟩
  · exact ⟨_, m0, f0⟩

end

/-- Rollouts that end at once: `max_trial_length` is zero. -/
def manyEval : ECfg Nat Nat ℚ (Uct.Stats ℚ) (Uct.Stats ℚ) := { exEval 0 false with rollouts := 2 ^ 31 - 1, threads := 2 }

theorem many_reach : ∀ k : Nat, ∀ a b : Nat, a + b = k → a ≤ 2 ^ 30 → b + 1 ≤ 2 ^ 30 →
    ∃ es h, EReach manyEval (newPolicy 0) [] es h ∧ es.crashed = false ∧ es.ts = [⟨2 * a, newPolicy 0, none⟩, ⟨1 + 2 * b, newPolicy 0, none⟩] := by
  intro k
  induction k with
  | zero =>
    intro a b hk _ _
    obtain rfl : a = 0 := by omega
    obtain rfl : b = 0 := by omega
    exact ⟨_, _, .start, rfl, rfl⟩
  | succ k ih =>
    intro a b hk ha hb
    have hR : manyEval.rollouts = 2 ^ 31 - 1 := rfl
    have hM : manyEval.maxLen = 0 := rfl
    have hT : manyEval.threads = 2 := rfl
    cases a with
    | succ a =>
      obtain ⟨es, h, hr, hc, ht⟩ := ih a b (by omega) (by omega) hb
      have hlt : 2 * (a : Int) < 2 ^ 31 - 1 := by omega
      have s1 : eStep manyEval es 0 0 0 = some ({ es with ts := [⟨2 * a, newPolicy 0, some ⟨manyEval.init, 0, 0, manyEval.keepsCtx⟩⟩, ⟨1 + 2 * b, newPolicy 0, none⟩] },
          .began 0 (2 * a)) := by
        simp [eStep, hc, ht, hR, Policy.reset, newPolicy]
        omega
      have hr1 := EReach.step hr s1
      refine ⟨{ es with returns := es.returns ++ [0], ts := [⟨2 * a + (2 : Nat), newPolicy 0, none⟩, ⟨1 + 2 * b, newPolicy 0, none⟩] }, .finished 0 (2 * a) 0 :: _,
        .step hr1 (t := 0) (raw := 0) (s' := 0) (by simp [eStep, hc, hM, hT]), hc, ?_⟩
      have : 2 * (a : Int) + (2 : Nat) = 2 * ((a + 1 : Nat) : Int) := by omega
      simp only [this]
    | zero =>
      cases b with
      | zero => omega
      | succ b =>
        obtain ⟨es, h, hr, hc, ht⟩ := ih 0 b (by omega) (by omega) (by omega)
        have hlt : 1 + 2 * (b : Int) < 2 ^ 31 - 1 := by omega
        have s1 : eStep manyEval es 1 0 0 = some ({ es with ts := [⟨2 * (0 : Nat), newPolicy 0, none⟩, ⟨1 + 2 * b, newPolicy 0, some ⟨manyEval.init, 0, 0, manyEval.keepsCtx⟩⟩] },
            .began 1 (1 + 2 * b)) := by
          simp [eStep, hc, ht, hR, Policy.reset, newPolicy]
          omega
        have hr1 := EReach.step hr s1
        refine ⟨{ es with returns := es.returns ++ [0], ts := [⟨2 * (0 : Nat), newPolicy 0, none⟩, ⟨1 + 2 * b + (2 : Nat), newPolicy 0, none⟩] }, .finished 1 (1 + 2 * b) 0 :: _,
          .step hr1 (t := 1) (raw := 0) (s' := 0) (by simp [eStep, hc, hM, hT]), hc, ?_⟩
        have : 1 + 2 * (b : Int) + (2 : Nat) = 1 + 2 * ((b + 1 : Nat) : Int) := by omega
        simp only [this]

/-- Such an evaluation gets to its end. -/
example : ∃ es h, EReach manyEval (newPolicy 0) [] es h ∧ allDone manyEval es ∧ manyEval.rollouts = 2 ^ 31 - 1 ∧ 2 ≤ manyEval.threads := by
  obtain ⟨es, h, hr, hc, ht⟩ := many_reach _ (2 ^ 30) (2 ^ 30 - 1) rfl (by omega) (by omega)
  refine ⟨es, h, hr, ⟨hc, ?_⟩, rfl, by decide⟩
  have hR : manyEval.rollouts = 2 ^ 31 - 1 := rfl
  intro th hth
  rw [ht] at hth
  simp only [List.mem_cons, List.not_mem_nil, or_false] at hth
  rcases hth with rfl | rfl
  · exact ⟨rfl, by rw [hR]; show (2 : Int) ^ 31 - 1 ≤ 2 * ((2 ^ 30 : Nat) : Int); omega⟩
  · exact ⟨rfl, by rw [hR]; show (2 : Int) ^ 31 - 1 ≤ 1 + 2 * ((2 ^ 30 - 1 : Nat) : Int); omega⟩

example : ∃ es h, EReach (exEval 10 false) (newPolicy 0) [7] es h ∧ max (exEval 10 false).rollouts 0 + (exEval 10 false).threads ≤ 2 ^ 31 ∧ es.ts ≠ [] :=
  ⟨_, _, .start, by decide, by decide⟩

end Verif.Eval

namespace Verif.Sys

open Verif.Log
open Verif.Search (FitsInt)

section
variable {S A R X Y : Type} [DecidableEq S] [DecidableEq A] [AddMonoid R]
variable {env : Search.Env S A R} {m : Search.Manager S R} {alg : Search.Alg S A R X Y}
variable {n : Nat} {s0 : S} {dp tm : Int} {tb : List ((Int × S) × Option Nat)}
variable {s : St S A R X Y} {h : List (Event S A R)} {L0 : Logger}

/-- `last_log_num_trials` is at most `trials_completed`. -/
theorem last_le (h0 : 0 ≤ L0.trials) (hr : Reachable env m alg n s0 dp tm tb (some L0) s h) :
    numEntered h ≠ 0 → ∃ L, s.lg = some L ∧ 0 ≤ L.last ∧ L.last ≤ L.trials ∧ 0 ≤ L.trials := by
  refine log_induct (P := fun s h => numEntered h ≠ 0 → ∃ L, s.lg = some L ∧ 0 ≤ L.last ∧ L.last ≤ L.trials ∧ 0 ≤ L.trials) ?_ ?_ ?_ ?_ ?_ hr
  · intro h0; exact absurd rfl h0
  · intro s h es s' hr ih hp h1 _ _ _ _ _
    rw [plain_numEntered hp, h1]
    exact ih
  · intro s h k lim p hr ih hprep hnow _
    exact ih
  · intro s h hr ih hprep _
    obtain ⟨L, I⟩ := linv L0 hr
    refine ⟨L.beginRun s.pool.now, by simp [I.lg], ?_⟩
    have htr := I.trials
    have : (L.beginRun s.pool.now).last = 0 ∧ (L.beginRun s.pool.now).trials = L.trials := by
      unfold Log.Logger.beginRun
      split <;> exact ⟨rfl, rfl⟩
    omega
  · intro s h i p hr ih hnow hst
    obtain ⟨L, I⟩ := linv L0 hr
    have hne := entered_of_finish I hr hst
    obtain ⟨L', hL', h1, h2, h3⟩ := ih hne
    obtain rfl : L = L' := Option.some.inj (I.lg.symm.trans hL')
    intro _
    have hlg : ({ s with pool := p } : St S A R X Y).lg = some L := I.lg
    rw [tryLog_some hlg]
    refine ⟨_, rfl, ?_⟩
    rw [Log.tryLog_eq]
    simp only
    split <;> omega

/-- C92.  The logger counts the trials finished since it was made, from what its uninitialised counter happened to be, and the number at the last entry is between zero and
that. -/
theorem c92_logger (h0 : 0 ≤ L0.trials) (hr : Reachable env m alg n s0 dp tm tb (some L0) s h) (he : numEntered h ≠ 0) :
    ∃ L, s.lg = some L ∧ L.trials = L0.trials + finishedIn h ∧ 0 ≤ L.last ∧ L.last ≤ L.trials ∧ L.trialsDelta = L0.trialsDelta := by
  obtain ⟨L, I⟩ := linv _ hr
  obtain ⟨L', h1, h2, h3, _⟩ := last_le h0 hr he
  obtain rfl : L = L' := Option.some.inj (I.lg.symm.trans h1)
  exact ⟨L, h1, I.trials, h2, h3, I.delta.1⟩

/-- C92.  So everything it computes fits an `int`, if the trials finished and the interval between entries together do and the counter was zero at the start. -/
theorem c92_logger_fits_partial (h0 : L0.trials = 0) (hd : 0 ≤ L0.trialsDelta) (hr : Reachable env m alg n s0 dp tm tb (some L0) s h) (he : numEntered h ≠ 0)
    (hn : FitsInt (finishedIn h + 1 + L0.trialsDelta)) : ∃ L, s.lg = some L ∧ FitsInt L.trials ∧ FitsInt (L.trials + 1) ∧ FitsInt (L.last + L.trialsDelta) := by
  obtain ⟨L, h1, h2, h3, h4, h5⟩ := c92_logger (by omega) hr he
  refine ⟨L, h1, ?_⟩
  unfold FitsInt at *
  omega

/-- C92 is false for the logger: if the interval is more than half of the largest `int`, then after the first entry `last_log_num_trials + trials_delta`, which the next trial
computes, does not fit, although the numbers of trials do. -/
theorem c92_logger_delta_false (h0 : L0.trials = 0) (hrd : L0.runtimeDelta = none) (hd : 2 ^ 30 ≤ L0.trialsDelta) (hr : Reachable env m alg n s0 dp tm tb (some L0) s h)
    (h1 : numEntered h = 1) (hf : L0.trialsDelta ≤ finishedIn h) : ∃ L, s.lg = some L ∧ ¬ FitsInt (L.last + L.trialsDelta) := by
  obtain ⟨L, I⟩ := linv _ hr
  obtain ⟨e1, e2⟩ := I.first (by omega)
  obtain ⟨L', hL, _, hc⟩ := trial_log hrd (by omega) hr (by omega)
  obtain rfl : L = L' := Option.some.inj (I.lg.symm.trans hL)
  refine ⟨L, hL, ?_⟩
  have hp := finishedIn_parts h
  have hdl := I.delta.1
  unfold FitsInt
  rw [e1] at hc
  rcases hc with ⟨_, _, c3⟩ | ⟨q, _, c2, _, _⟩
  · omega
  · have : (0 : Int) ≤ (q : Int) * L0.trialsDelta := Int.mul_nonneg (by omega) (by omega)
    omega

end

/-- Such runs exist. -/
example : ∃ s h, Reachable Ments.exEnv Ments.exMgr (Ments.ments 0 Ments.exCfg fun _ _ => 1) 3 () 0 0 [] (some ((newLogger 0 0 0 none).setTrialsDelta (2 ^ 30))) s h ∧
    numEntered h = 1 ∧ (2 : Int) ^ 30 ≤ finishedIn h ∧ FitsInt (finishedIn h) := by
  have hl : Ments.exEnv.Live := ⟨by simp [Ments.exEnv], by simp [Ments.exEnv]⟩
  obtain ⟨s, h, h1, _, h2, h3, _⟩ := c112_first_run (m := Ments.exMgr) (lg := some ((newLogger 0 0 0 none).setTrialsDelta (2 ^ 30))) hl (Ments.ments_valid 0 Ments.exCfg fun _ _ => 1) (tb := [])
    (by simp [Search.Leftover]) (by simp [Search.TableOk, Ments.exMgr])
    (Search.c74_ments_selects Ments.exGood hl (by simp [Ments.exEnv]) (by simp [Search.Leftover]) (le_refl _)) (n := 3) (s0 := ()) (dp := 0) (tm := 0) (by simp [Ments.exMgr]) (by decide)
    (2 ^ 30)
  refine ⟨s, h, h1, h2, ?_, ?_⟩ <;> rw [h3]
  · exact Int.le_of_eq (by norm_cast)
  · unfold FitsInt; constructor <;> norm_cast

/-- C92 is false for the logger whatever the interval, because nothing initialises `trials_completed`: the first trial may make it overflow. -/
theorem c92_logger_uninitialised_false : ¬ ∀ (tr : Int) (s : St Nat Nat Int Unit Unit) (h : List (Event Nat Nat Int)), FitsInt tr →
    Reachable Search.Toy.env (Search.Toy.mgr false false 1) Search.Toy.alg 1 4 0 0 [] (some ((newLogger 0 tr 0 none).setTrialsDelta 2)) s h →
    ∀ L, s.lg = some L → FitsInt L.trials := by
  intro hall
  obtain ⟨s, h, hr, hp⟩ := Toy.run ((newLogger 0 (2 ^ 31 - 1) 0 none).setTrialsDelta 2) (Toy.runs [[1]])
    (fun s _ => s.lg.any fun L => decide (¬ FitsInt L.trials)) (by decide +kernel)
  cases hl : s.lg with
  | none => rw [hl] at hp; simp at hp
  | some L =>
    rw [hl] at hp
    simp only [Option.any_some, decide_eq_true_eq] at hp
    exact hp (hall _ s h (by decide) hr L hl)

end Verif.Sys
