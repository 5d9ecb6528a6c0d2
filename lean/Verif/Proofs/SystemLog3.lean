import Verif.Proofs.SystemLog2
import Mathlib.Algebra.Order.Ring.Int

/-! # How often the logger logs, and what -/

namespace Verif.Sys

set_option linter.unusedSectionVars false

variable {S A R X Y : Type} [DecidableEq S] [DecidableEq A] [Add R] [Zero R]
variable {env : Search.Env S A R} {m : Search.Manager S R} {alg : Search.Alg S A R X Y}
variable {n : Nat} {s0 : S} {dp tm : Int} {tb : List ((Int × S) × Option Nat)}

theorem fin_thisRun_finishedIn (i : Nat) (l : List Log.Entry) (t : Nat) (h : List (Event S A R)) :
    finishedIn (thisRun ((Event.pool (.finished i) :: (l.map .logged ++ [.reported t])) ++ h)) = 1 + finishedIn (thisRun h) := by
  rw [fin_thisRun, fin_finishedIn]

theorem fin_thisRun_logged (i : Nat) (l : List Log.Entry) (t : Nat) (h : List (Event S A R)) :
    loggedPart (thisRun ((Event.pool (.finished i) :: (l.map .logged ++ [.reported t])) ++ h)) = l ++ loggedPart (thisRun h) := by
  rw [fin_thisRun, loggedPart_finish]

/-! ## By trials -/

theorem trial_log {L0 : Log.Logger} (hrd : L0.runtimeDelta = none) (hd : 1 ≤ L0.trialsDelta) {s : St S A R X Y} {h : List (Event S A R)}
    (hr : Reachable env m alg n s0 dp tm tb (some L0) s h) : numEntered h ≠ 0 → ∃ L, s.lg = some L ∧ L.threshold = none ∧
      ((loggedPart (thisRun h) = [] ∧ L.last = 0 ∧
        (finishedIn (thisRun h) : Int) < max 1 (L0.trialsDelta - (L0.trials + finishedIn (earlier h)))) ∨
       ∃ q : Nat, (loggedPart (thisRun h)).length = q + 1 ∧
        L.last = L0.trials + finishedIn (earlier h) + max 1 (L0.trialsDelta - (L0.trials + finishedIn (earlier h))) + q * L0.trialsDelta ∧
        L.last ≤ L0.trials + finishedIn h ∧ L0.trials + finishedIn h < L.last + L0.trialsDelta) := by
  refine log_induct (P := fun s h => numEntered h ≠ 0 → ∃ L, s.lg = some L ∧ L.threshold = none ∧
      ((loggedPart (thisRun h) = [] ∧ L.last = 0 ∧
        (finishedIn (thisRun h) : Int) < max 1 (L0.trialsDelta - (L0.trials + finishedIn (earlier h)))) ∨
       ∃ q : Nat, (loggedPart (thisRun h)).length = q + 1 ∧
        L.last = L0.trials + finishedIn (earlier h) + max 1 (L0.trialsDelta - (L0.trials + finishedIn (earlier h))) + q * L0.trialsDelta ∧
        L.last ≤ L0.trials + finishedIn h ∧ L0.trials + finishedIn h < L.last + L0.trialsDelta)) ?_ ?_ ?_ ?_ ?_ hr
  · intro h0; exact absurd rfl h0
  · intro s h es s' hr ih hp h1 _ _ _ _ _
    rw [plain_numEntered hp, plain_thisRun hp, plain_earlier hp, plain_finishedIn hp, plain_finishedIn hp, plain_logged hp, h1]
    exact ih
  · intro s h k lim p hr ih hprep hnow _
    have e1 : finishedIn (.pool (.called k lim) :: h : List (Event S A R)) = finishedIn h := by rw [finishedIn_cons]; simp
    have e2 : finishedIn (.pool (.called k lim) :: thisRun h : List (Event S A R)) = finishedIn (thisRun h) := by rw [finishedIn_cons]; simp
    rw [e1, earlier_cons, thisRun_cons, if_neg (by simp [Event.isEntered]), if_neg (by simp [Event.isEntered]), e2]
    exact ih
  · intro s h hr ih hprep _
    obtain ⟨L, I⟩ := linv L0 hr
    refine ⟨L.beginRun s.pool.now, by simp [I.lg], ?_, .inl ⟨?_, rfl, ?_⟩⟩
    · show (if _ then _ else _ : Log.Logger).runtimeDelta = none
      rw [← hrd, ← I.delta.2]
      split <;> rfl
    · rw [thisRun_cons, if_pos (by simp [Event.isEntered])]; rfl
    · rw [thisRun_cons, if_pos (by simp [Event.isEntered])]
      simp only [finishedIn, poolPart, Pool.numFinished, List.filterMap_nil, List.countP_nil]
      omega
  · intro s h i p hr ih hnow hst
    obtain ⟨L, I⟩ := linv L0 hr
    have hne := entered_of_finish I hr hst
    obtain ⟨L', hL', hth, hcase⟩ := ih hne
    obtain rfl : L = L' := Option.some.inj (I.lg.symm.trans hL')
    intro _
    have hlg : ({ s with pool := p } : St S A R X Y).lg = some L := I.lg
    rw [tryLog_some hlg, newEntry_some I.lg, fin_thisRun_finishedIn, fin_thisRun_logged, fin_earlier, fin_finishedIn]
    have htime : ∀ x, L.timeHit x = false := by intro x; simp [Log.Logger.timeHit, hth]
    refine ⟨_, rfl, ?_, ?_⟩
    · rw [Log.tryLog_eq]; simp [hth]
    rw [Log.tryLog_eq, htime, Bool.or_false]
    simp only
    have hparts := finishedIn_parts h
    have htr := I.trials
    have hdl := I.delta.1
    by_cases hhit : L.trialHit = true
    · simp only [hhit, if_true]
      simp only [Log.Logger.trialHit, decide_eq_true_eq, hdl, htr] at hhit
      right
      rcases hcase with ⟨c1, c2, c3⟩ | ⟨q, c1, c2, c3, c4⟩
      · refine ⟨0, by simp [c1], ?_, ?_, ?_⟩
        · rw [htr]; push_cast; omega
        · rw [htr]; push_cast; omega
        · rw [htr]; push_cast; omega
      · refine ⟨q + 1, by simp [c1], ?_, ?_, ?_⟩
        · rw [htr]
          push_cast
          rw [Int.add_mul]
          omega
        · rw [htr]; push_cast; omega
        · rw [htr]; push_cast; omega
    · simp only [hhit, if_false]
      simp only [Log.Logger.trialHit, decide_eq_true_eq, hdl, htr] at hhit
      rcases hcase with ⟨c1, c2, c3⟩ | ⟨q, c1, c2, c3, c4⟩
      · refine .inl ⟨by simp [c1], by simpa using c2, ?_⟩
        push_cast; omega
      · refine .inr ⟨q, by simp [c1], by simpa using c2, ?_, ?_⟩
        · push_cast; omega
        · push_cast; omega

/-! ## The first run -/

theorem first_budget {L0 L : Log.Logger} {s : St S A R X Y} {h : List (Event S A R)} (I : LInv L0 s h L)
    {lg : Option Log.Logger} (hr : Reachable env m alg n s0 dp tm tb lg s h) (h1 : numEntered h ≤ 1) :
    (Pool.numStarted (poolPart h) : Int) ≤ max (Pool.budget (poolPart h)) 0 := by
  obtain ⟨⟨ls, hx⟩, _⟩ := reach_project hr
  refine Pool.started_le_budget hx ?_
  have := I.cnt
  unfold numCalls at this
  omega

theorem first_prior {L0 : Log.Logger} {s : St S A R X Y} {h : List (Event S A R)}
    (hr : Reachable env m alg n s0 dp tm tb (some L0) s h) : numEntered h ≤ 1 → ∃ L, s.lg = some L ∧
      if 0 < finishedIn h ∧ (finishedIn h : Int) = Pool.budget (poolPart h) then
        ∃ t e : Nat, runStart h = some t ∧ lastEnd h = some e ∧ L.prior = L0.prior + (e - t)
      else L.prior = L0.prior := by
  refine log_induct (P := fun s h => numEntered h ≤ 1 → ∃ L, s.lg = some L ∧
      if 0 < finishedIn h ∧ (finishedIn h : Int) = Pool.budget (poolPart h) then
        ∃ t e : Nat, runStart h = some t ∧ lastEnd h = some e ∧ L.prior = L0.prior + (e - t)
      else L.prior = L0.prior) ?_ ?_ ?_ ?_ ?_ hr
  · intro _
    refine ⟨L0, rfl, ?_⟩
    rw [if_neg (by simp [finishedIn, poolPart, Pool.numFinished])]
  · intro s h es s' hr ih hp h1 _ _ _ _ _
    rw [plain_numEntered hp, plain_finishedIn hp, plain_budget hp, plain_runStart hp, plain_lastEnd hp, h1]
    exact ih
  · intro s h k lim p hr ih hprep hnow _ hle
    obtain ⟨L, I⟩ := linv L0 hr
    obtain ⟨L', hL', hcase⟩ := ih hle
    have e1 : finishedIn (.pool (.called k lim) :: h : List (Event S A R)) = finishedIn h := by rw [finishedIn_cons]; simp
    refine ⟨L', hL', ?_⟩
    have hcnt := I.cnt
    simp only [hprep, if_true] at hcnt
    have hle : numEntered h ≤ 1 := hle
    have hc0 : (poolPart h).countP Pool.Event.isCall = 0 := by unfold numCalls at hcnt; omega
    obtain ⟨⟨ls, hx⟩, _⟩ := reach_project hr
    have hb := Pool.started_le_budget hx (by omega)
    rw [Pool.budget_no_calls hc0] at hb
    have hbal := (Pool.inv_exec hx).bal
    have : finishedIn h = 0 := by unfold finishedIn; omega
    rw [this] at hcase e1
    rw [e1, if_neg (by simp)]
    rwa [if_neg (by simp)] at hcase
  · intro s h hr ih hprep hle
    obtain ⟨L, I⟩ := linv L0 hr
    have e1 : finishedIn (.entered s.pool.now :: h : List (Event S A R)) = finishedIn h := by rw [finishedIn_cons]; simp
    have e2 : numEntered (.entered s.pool.now :: h : List (Event S A R)) = numEntered h + 1 := by
      simp [numEntered, List.countP_cons, Event.isEntered]
    rw [e2] at hle
    obtain ⟨rfl, h0, _⟩ := I.pre (by omega)
    refine ⟨_, by simp only [I.lg, Option.map_some]; rfl, ?_⟩
    rw [e1, h0, if_neg (by simp)]
    unfold Log.Logger.beginRun Log.Logger.resetStart Log.Logger.addOrigin
    split <;> rfl
  · intro s h i p hr ih hnow hst hle
    obtain ⟨L, I⟩ := linv L0 hr
    have hne := entered_of_finish I hr hst
    rw [fin_numEntered] at hle
    obtain ⟨L', hL', hcase⟩ := ih hle
    obtain rfl : L = L' := Option.some.inj (I.lg.symm.trans hL')
    have hlg : ({ s with pool := p } : St S A R X Y).lg = some L := I.lg
    have hb := first_budget I hr hle
    rw [if_neg (by omega)] at hcase
    rw [tryLog_some hlg, fin_finishedIn, poolPart_finish, fin_runStart, fin_lastEnd]
    refine ⟨_, rfl, ?_⟩
    rw [Log.tryLog_eq]
    show if 0 < 1 + finishedIn h ∧ ((1 + finishedIn h : Nat) : Int) = Pool.budget (poolPart h) then _ else _
    have hiff : (s.completed + 1 = s.numTrials) ↔ ((1 + finishedIn h : Nat) : Int) = Pool.budget (poolPart h) := by
      rw [I.comp, I.num]; push_cast; omega
    by_cases hc : s.completed + 1 = s.numTrials
    · rw [if_pos ⟨by omega, hiff.1 hc⟩]
      obtain ⟨t, ht, hs⟩ := I.start hne
      refine ⟨t, s.pool.now, ht, rfl, ?_⟩
      show (if decide (s.completed + 1 = s.numTrials) then L.prior + ((p.now : Int) - L.start) else L.prior) = _
      rw [if_pos (by simpa using hc), hcase, hs, hnow]
    · rw [if_neg (fun hh => hc (hiff.2 hh.2))]
      show (if decide (s.completed + 1 = s.numTrials) then L.prior + ((p.now : Int) - L.start) else L.prior) = _
      rw [if_neg (by simpa using hc), hcase]

/-- While the first run lasts, the prior runtime is the initial one. -/
theorem first_prior_at_finish {L0 L : Log.Logger} {s : St S A R X Y} {h : List (Event S A R)} (I : LInv L0 s h L)
    (hr : Reachable env m alg n s0 dp tm tb (some L0) s h) (hle : numEntered h ≤ 1)
    (hst : finishedIn h + 1 ≤ Pool.numStarted (poolPart h)) : L.prior = L0.prior := by
  obtain ⟨L', hL', hcase⟩ := first_prior hr hle
  obtain rfl : L = L' := Option.some.inj (I.lg.symm.trans hL')
  have hb := first_budget I hr hle
  rwa [if_neg (by omega)] at hcase

/-- Logged runtimes in the first run, newest first, and none is larger than the time since the beginning of the run. -/
theorem first_sorted {L0 : Log.Logger} {s : St S A R X Y} {h : List (Event S A R)}
    (hr : Reachable env m alg n s0 dp tm tb (some L0) s h) : numEntered h ≤ 1 →
      (loggedPart h).Pairwise (fun e f => f.runtime ≤ e.runtime) ∧
      ∀ e ∈ loggedPart h, ∃ t : Nat, runStart h = some t ∧ L0.prior ≤ e.runtime ∧ e.runtime ≤ L0.prior + (s.pool.now - t) := by
  refine log_induct (P := fun s h => numEntered h ≤ 1 →
      (loggedPart h).Pairwise (fun e f => f.runtime ≤ e.runtime) ∧
      ∀ e ∈ loggedPart h, ∃ t : Nat, runStart h = some t ∧ L0.prior ≤ e.runtime ∧ e.runtime ≤ L0.prior + (s.pool.now - t)) ?_ ?_ ?_ ?_ ?_ hr
  · intro _; exact ⟨List.Pairwise.nil, by simp [loggedPart]⟩
  · intro s h es s' hr ih hp h1 _ _ _ h5 _
    rw [plain_numEntered hp, plain_logged hp, plain_runStart hp]
    intro hle
    obtain ⟨c1, c2⟩ := ih hle
    refine ⟨c1, fun e he => ?_⟩
    obtain ⟨t, ht, hb, hc⟩ := c2 e he
    exact ⟨t, ht, hb, by omega⟩
  · intro s h k lim p hr ih hprep hnow _ hle
    obtain ⟨c1, c2⟩ := ih hle
    refine ⟨c1, fun e he => ?_⟩
    obtain ⟨t, ht, hb, hc⟩ := c2 e he
    exact ⟨t, ht, hb, by show _ ≤ _ + ((p.now : Int) - t); omega⟩
  · intro s h hr ih hprep hle
    obtain ⟨L, I⟩ := linv L0 hr
    have e2 : numEntered (.entered s.pool.now :: h : List (Event S A R)) = numEntered h + 1 := by
      simp [numEntered, List.countP_cons, Event.isEntered]
    rw [e2] at hle
    obtain ⟨_, _, h0⟩ := I.pre (by omega)
    have : loggedPart (.entered s.pool.now :: h : List (Event S A R)) = [] := h0
    rw [this]
    exact ⟨List.Pairwise.nil, by simp⟩
  · intro s h i p hr ih hnow hst hle
    obtain ⟨L, I⟩ := linv L0 hr
    have hne := entered_of_finish I hr hst
    rw [fin_numEntered] at hle
    obtain ⟨c1, c2⟩ := ih hle
    have hpr := first_prior_at_finish I hr hle hst
    obtain ⟨t, ht, hs⟩ := I.start hne
    have hck := I.clock.1 t ht
    rw [loggedPart_finish, fin_runStart, tryLog_pool, newEntry_some I.lg]
    have hold : ∀ e ∈ loggedPart h, ∃ t : Nat, runStart h = some t ∧ L0.prior ≤ e.runtime ∧ e.runtime ≤ L0.prior + ((p.now : Int) - t) := by
      rw [hnow]; exact c2
    show List.Pairwise _ _ ∧ ∀ e : Log.Entry, e ∈ _ → ∃ t : Nat, runStart h = some t ∧ L0.prior ≤ e.runtime ∧ e.runtime ≤ L0.prior + ((p.now : Int) - t)
    split
    · refine ⟨?_, ?_⟩
      · rw [List.singleton_append, List.pairwise_cons]
        refine ⟨fun e he => ?_, c1⟩
        obtain ⟨t', ht', _, hb⟩ := c2 e he
        obtain rfl : t = t' := Option.some.inj (ht.symm.trans ht')
        show _ ≤ L.prior + ((s.pool.now : Int) - L.start)
        rw [hpr, hs]
        exact hb
      · intro e he
        rw [List.singleton_append, List.mem_cons] at he
        rcases he with rfl | he
        · refine ⟨t, ht, ?_, ?_⟩
          · show _ ≤ L.prior + ((s.pool.now : Int) - L.start)
            rw [hpr, hs]; omega
          · show L.prior + ((s.pool.now : Int) - L.start) ≤ _
            rw [hpr, hs, hnow]
        · exact hold e he
    · exact ⟨by simpa using c1, by simpa using hold⟩

/-- Logging by runtime in the first run. -/
theorem first_time_log {L0 : Log.Logger} {δ : Int} (hrd : L0.runtimeDelta = some δ) (hδ : 0 < δ) (hd : 1 ≤ L0.trialsDelta) (ht0 : L0.trials = 0)
    (hp0 : L0.prior = 0) {s : St S A R X Y} {h : List (Event S A R)}
    (hr : Reachable env m alg n s0 dp tm tb (some L0) s h) : numEntered h = 1 → ∃ (L : Log.Logger) (m1 m2 t : Nat), s.lg = some L ∧
      (loggedPart h).length ≤ m1 + m2 ∧ m1 * L0.trialsDelta ≤ L.last ∧ L.last ≤ finishedIn h ∧ L.threshold = some (δ + m2 * δ) ∧
      runStart h = some t ∧ m2 * δ ≤ s.pool.now - t := by
  refine log_induct (P := fun s h => numEntered h = 1 → ∃ (L : Log.Logger) (m1 m2 t : Nat), s.lg = some L ∧
      (loggedPart h).length ≤ m1 + m2 ∧ m1 * L0.trialsDelta ≤ L.last ∧ L.last ≤ finishedIn h ∧ L.threshold = some (δ + m2 * δ) ∧
      runStart h = some t ∧ m2 * δ ≤ s.pool.now - t) ?_ ?_ ?_ ?_ ?_ hr
  · intro h0; exact absurd h0 (by simp [numEntered])
  · intro s h es s' hr ih hp h1 _ _ _ h5 _
    rw [plain_numEntered hp, plain_logged hp, plain_runStart hp, plain_finishedIn hp, h1]
    intro hle
    obtain ⟨L, m1, m2, t, c1, c2, c3, c4, c5, c6, c7⟩ := ih hle
    exact ⟨L, m1, m2, t, c1, c2, c3, c4, c5, c6, by omega⟩
  · intro s h k lim p hr ih hprep hnow _ hle
    obtain ⟨L, m1, m2, t, c1, c2, c3, c4, c5, c6, c7⟩ := ih hle
    have e1 : finishedIn (.pool (.called k lim) :: h : List (Event S A R)) = finishedIn h := by rw [finishedIn_cons]; simp
    rw [e1]
    exact ⟨L, m1, m2, t, c1, c2, c3, c4, c5, c6, by show _ ≤ (p.now : Int) - t; omega⟩
  · intro s h hr ih hprep hle
    obtain ⟨L, I⟩ := linv L0 hr
    have e2 : numEntered (.entered s.pool.now :: h : List (Event S A R)) = numEntered h + 1 := by
      simp [numEntered, List.countP_cons, Event.isEntered]
    rw [e2] at hle
    obtain ⟨rfl, h0, h1⟩ := I.pre (by omega)
    have e3 : loggedPart (.entered s.pool.now :: h : List (Event S A R)) = [] := h1
    have e1 : finishedIn (.entered s.pool.now :: h : List (Event S A R)) = finishedIn h := by rw [finishedIn_cons]; simp
    rw [e3, e1]
    refine ⟨_, 0, 0, s.pool.now, by simp only [I.lg, Option.map_some]; rfl, by simp, ?_, ?_, ?_, rfl, ?_⟩
    · show _ ≤ (0 : Int); simp
    · show (0 : Int) ≤ _; omega
    · show (if _ then _ else _ : Log.Logger).runtimeDelta = _
      split <;> simp [Log.Logger.addOrigin, hrd]
    · simp
  · intro s h i p hr ih hnow hst hle
    obtain ⟨L, I⟩ := linv L0 hr
    have hne := entered_of_finish I hr hst
    rw [fin_numEntered] at hle
    obtain ⟨L', m1, m2, t, c1, c2, c3, c4, c5, c6, c7⟩ := ih hle
    obtain rfl : L = L' := Option.some.inj (I.lg.symm.trans c1)
    have hpr := first_prior_at_finish I hr (by omega) hst
    obtain ⟨t', ht', hs⟩ := I.start hne
    obtain rfl : t = t' := Option.some.inj (c6.symm.trans ht')
    have hlg : ({ s with pool := p } : St S A R X Y).lg = some L := I.lg
    have htr := I.trials
    have hdl := I.delta.1
    rw [loggedPart_finish, fin_runStart, fin_finishedIn, newEntry_some I.lg, tryLog_some hlg]
    have htot : L.total s.pool.now = s.pool.now - t := by unfold Log.Logger.total; rw [hpr, hs, hp0]; omega
    refine ⟨_, if L.trialHit then m1 + 1 else m1, if L.timeHit s.pool.now then m2 + 1 else m2, t, rfl, ?_, ?_, ?_, ?_, c6, ?_⟩
    · by_cases q1 : L.trialHit = true <;> by_cases q2 : L.timeHit s.pool.now = true <;> simp [q1, q2] <;> omega
    · rw [Log.tryLog_eq]
      simp only
      by_cases q1 : L.trialHit = true
      · simp only [q1, if_true]
        simp only [Log.Logger.trialHit, decide_eq_true_eq, hdl] at q1
        push_cast
        rw [Int.add_mul]
        omega
      · simpa [q1] using c3
    · rw [Log.tryLog_eq]
      simp only
      by_cases q1 : L.trialHit = true
      · simp only [q1, if_true]
        rw [htr, ht0]; push_cast; omega
      · simp only [q1]
        simp
        omega
    · rw [Log.tryLog_eq]
      show (if L.timeHit (p.now : Int) then _ else _) = _
      rw [hnow]
      by_cases q2 : L.timeHit s.pool.now = true
      · simp only [q2, if_true, c5, I.delta.2, hrd, Option.bind_some, Option.map_some]
        push_cast
        rw [Int.add_mul]
        congr 1; omega
      · simp only [q2]
        simpa using c5
    · show _ ≤ ((p.now : Int)) - t
      rw [hnow]
      by_cases q2 : L.timeHit s.pool.now = true
      · simp only [q2, if_true]
        simp only [Log.Logger.timeHit, c5, Option.any_some, decide_eq_true_eq, htot] at q2
        push_cast
        rw [Int.add_mul]
        omega
      · simp only [q2]
        simpa using c7

end Verif.Sys
