import Verif.Proofs.SystemMore
import Verif.Spec.SystemToy

/-! # C50, C51, C61–C65: runs of the whole system and what the logger records -/

set_option linter.unusedSectionVars false

namespace Verif.Sys

open Verif Log

variable {S A R X Y : Type} [DecidableEq S] [DecidableEq A] [AddMonoid R]
variable {env : Search.Env S A R} {m : Search.Manager S R} {alg : Search.Alg S A R X Y}
variable {n : Nat} {s0 : S} {dp tm : Int} {tb : List ((Int × S) × Option Nat)} {lg : Option Log.Logger}
variable {s : St S A R X Y} {h : List (Event S A R)}

/-! ## C50 -/

/-- C50.  The logger's entries are the origin entry followed by the entries logged, whatever the schedule and the number of runs. -/
theorem c50_entries {start tr la : Int} {th rd : Option Int} {d : Int}
    (hr : Reachable env m alg n s0 dp tm tb
      (some { newLogger start tr la th with trialsDelta := d, runtimeDelta := rd }) s h) (he : numEntered h ≠ 0) :
    ∃ L, s.lg = some L ∧ L.entries = ⟨0, 0⟩ :: (loggedPart h).reverse := by
  obtain ⟨L, I⟩ := linv _ hr
  exact ⟨L, I.lg, by rw [I.entries he]; rfl⟩

/-- C50, what happens.  In a run that begins when the logger's `trials_completed` is `b`, the first entry is logged after
`max 1 (d - b)` trials and from then on every `d` trials; at every moment, whatever the interleaving. -/
theorem c50_entries_of_run {L0 : Logger} (hrd : L0.runtimeDelta = none) (hd : 1 ≤ L0.trialsDelta)
    (hr : Reachable env m alg n s0 dp tm tb (some L0) s h) (he : numEntered h ≠ 0) (b first : Int) (hb : b = L0.trials + finishedIn (earlier h))
    (hf : first = max 1 (L0.trialsDelta - b)) :
    ((loggedPart (thisRun h)).length : Int) =
      if (finishedIn (thisRun h) : Int) < first then 0 else (finishedIn (thisRun h) - first) / L0.trialsDelta + 1 := by
  obtain ⟨L, hL, _, hc⟩ := trial_log hrd hd hr he
  rw [← hb, ← hf] at hc
  have hp := finishedIn_parts h
  rcases hc with ⟨c1, c2, c3⟩ | ⟨q, c1, c2, c3, c4⟩
  · rw [if_pos c3, c1]; rfl
  · rw [c2] at c3 c4
    have hq : (0 : Int) ≤ q * L0.trialsDelta := Int.mul_nonneg (by omega) (by omega)
    rw [if_neg (by omega), c1]
    have : ((finishedIn (thisRun h) : Int) - first) / L0.trialsDelta = q := by
      rw [Int.ediv_eq_iff_of_pos (by omega)]
      constructor
      · omega
      · omega
    rw [this]; push_cast; rfl

/-- C50, partial: in the first run of a logger whose uninitialised `trials_completed` happens to be zero, an entry is logged exactly after
every `d`-th trial: at every moment the number of entries is the number of trials finished divided by `d`. -/
theorem c50_first_run_partial {start la : Int} {th : Option Int} {d : Int} (hd : 1 ≤ d)
    (hr : Reachable env m alg n s0 dp tm tb (some ((newLogger start 0 la th).setTrialsDelta d)) s h) (h1 : numEntered h = 1) :
    ((loggedPart h).length : Int) = finishedIn h / d := by
  obtain ⟨L, I⟩ := linv _ hr
  obtain ⟨f1, f2⟩ := I.first (by omega)
  have hp := finishedIn_parts h
  have hl : loggedPart (thisRun h) = loggedPart h := by
    have : loggedPart (thisRun h ++ earlier h) = loggedPart h := by unfold thisRun earlier; rw [List.takeWhile_append_dropWhile]
    rw [← this, loggedPart_append, f2, List.append_nil]
  have := c50_entries_of_run (L0 := (newLogger start 0 la th).setTrialsDelta d) rfl hd hr (by omega) 0 d
    (by rw [f1]; rfl) (by show d = max 1 (d - 0); omega)
  rw [hl] at this
  rw [this]
  have e : finishedIn (thisRun h) = finishedIn h := by omega
  rw [e]
  show (if (finishedIn h : Int) < d then 0 else (finishedIn h - d) / d + 1) = _
  split
  · rw [Int.ediv_eq_zero_of_lt (by omega) (by omega)]
  · rw [Int.sub_ediv_of_dvd _ (Int.dvd_refl d), Int.ediv_self (by omega)]
    omega

example : ∃ s h, Reachable Search.Toy.env (Search.Toy.mgr false false 1) Search.Toy.alg 1 4 0 0 []
    (some ((newLogger 7 0 3 (some 1)).setTrialsDelta 2)) s h ∧ numEntered h = 1 ∧ finishedIn h = 5 ∧ (loggedPart h).length = 2 := by
  obtain ⟨s, h, hr, hp⟩ := Toy.run ((newLogger 7 0 3 (some 1)).setTrialsDelta 2) (Toy.runs [[1, 0, 2, 0, 0]]) (fun _ h => decide (numEntered h = 1 ∧ finishedIn h = 5 ∧
    (loggedPart h).length = 2)) (by decide +kernel)
  exact ⟨s, h, hr, by simpa using hp⟩

/-- C50 fails from the second run on: with `d = 2`, a run of two trials and a run of one trial, both finished, an entry is logged after the
first trial of the second run (which is the third trial overall). -/
theorem c50_every_dth_false : ¬ ∀ (s : St Nat Nat Int Unit Unit) (h : List (Event Nat Nat Int)),
    Reachable Search.Toy.env (Search.Toy.mgr false false 1) Search.Toy.alg 1 4 0 0 [] (some ((newLogger 0 0 0 none).setTrialsDelta 2)) s h →
    (loggedPart (thisRun h)).length = finishedIn (thisRun h) / 2 ∨ (loggedPart h).length = finishedIn h / 2 := by
  intro hall
  obtain ⟨s, h, hr, hp⟩ := Toy.run ((newLogger 0 0 0 none).setTrialsDelta 2) (Toy.runs [[1, 2], [3]])
    (fun _ h => decide (¬ ((loggedPart (thisRun h)).length = finishedIn (thisRun h) / 2 ∨ (loggedPart h).length = finishedIn h / 2)))
    (by decide +kernel)
  exact (of_decide_eq_true hp) (hall s h hr)

/-- C50 fails in the first run if `trials_completed` happens not to be zero: nothing in the program initialises it. -/
theorem c50_uninitialised_false : ¬ ∀ (tr : Int) (s : St Nat Nat Int Unit Unit) (h : List (Event Nat Nat Int)),
    Reachable Search.Toy.env (Search.Toy.mgr false false 1) Search.Toy.alg 1 4 0 0 [] (some ((newLogger 0 tr 0 none).setTrialsDelta 2)) s h →
    numEntered h = 1 → (loggedPart h).length = finishedIn h / 2 := by
  intro hall
  obtain ⟨s, h, hr, hp⟩ := Toy.run ((newLogger 0 1 0 none).setTrialsDelta 2) (Toy.runs [[1]])
    (fun _ h => decide (numEntered h = 1 ∧ ¬ (loggedPart h).length = finishedIn h / 2)) (by decide +kernel)
  obtain ⟨h1, h2⟩ := of_decide_eq_true hp
  exact h2 (hall 1 s h hr h1)

/-! ## C51 -/

theorem durations_first {hh : List (Event S A R)} : ∀ (last : Option Nat), numEntered hh = 0 → durationsFrom last hh = 0 := by
  induction hh with
  | nil => intro _ _; rfl
  | cons e hh ih =>
    intro last h0
    unfold numEntered at h0 ih
    rw [List.countP_cons] at h0
    have h1 : hh.countP Event.isEntered = 0 := by omega
    cases e <;> simp [Event.isEntered] at h0 <;> exact ih _ h1

theorem durations_one {hh : List (Event S A R)} : numEntered hh = 1 → ∀ t e, runStart hh = some t → lastEnd hh = some e →
    durations hh = (e : Int) - t := by
  have some_case : ∀ (l : List (Event S A R)), numEntered l = 1 → ∀ t e, runStart l = some t → durationsFrom (some e) l = (e : Int) - t := by
    intro l
    induction l with
    | nil => intro h; simp [numEntered] at h
    | cons x l ih =>
      intro h1 t e ht
      unfold numEntered at h1 ih
      rw [List.countP_cons] at h1
      cases x with
      | entered t' =>
        simp only [Event.isEntered, if_true] at h1
        simp only [runStart, Option.some.injEq] at ht
        subst ht
        simp only [durationsFrom, Option.getD_some]
        rw [durations_first none (by unfold numEntered; omega)]; omega
      | reported t' => simp [Event.isEntered] at h1; simp only [durationsFrom, Option.getD_some]; exact ih h1 t e ht
      | pool _ => simp [Event.isEntered] at h1; exact ih h1 t e ht
      | search _ => simp [Event.isEntered] at h1; exact ih h1 t e ht
      | logged _ => simp [Event.isEntered] at h1; exact ih h1 t e ht
  unfold durations
  induction hh with
  | nil => intro h; simp [numEntered] at h
  | cons x l ih =>
    intro h1 t e ht he
    have h1' := h1
    unfold numEntered at h1
    rw [List.countP_cons] at h1
    cases x with
    | entered t' => simp [lastEnd] at he
    | reported t' =>
      simp [Event.isEntered] at h1
      simp only [lastEnd, Option.some.injEq] at he
      subst he
      exact some_case l h1 t _ ht
    | pool _ => simp [Event.isEntered] at h1; exact ih h1 t e ht he
    | search _ => simp [Event.isEntered] at h1; exact ih h1 t e ht he
    | logged _ => simp [Event.isEntered] at h1; exact ih h1 t e ht he

/-- C51, partial: after the first run, if it had no time limit and at least one trial, the prior runtime is the duration of that run (from
entering `run_trials` until the last trial ends). -/
theorem c51_first_run_partial {L0 : Logger} (h0 : L0.prior = 0) (hr : Reachable env m alg n s0 dp tm tb (some L0) s h)
    (h1 : numEntered h = 1) (hs : Pool.settled (poolPart h) = true) (hl : s.pool.limit = none) (hb : 0 < Pool.budget (poolPart h)) :
    ∃ L, s.lg = some L ∧ L.prior = durations h := by
  obtain ⟨L, hL, hc⟩ := first_prior hr (by omega)
  obtain ⟨L', I⟩ := linv _ hr
  refine ⟨L, hL, ?_⟩
  obtain ⟨⟨ls, hx⟩, _⟩ := reach_project hr
  have P := Pool.inv_exec hx
  have hcalls : (poolPart h).countP Pool.Event.isCall ≤ 1 := by
    have := I.cnt
    unfold numCalls at this
    omega
  have hst := Pool.started_one_call (fun a i b hab => ((Pool.startInv_exec hx).starts a i b hab).1) hcalls
  have hw := (P.sett hs).1
  have hrem : s.pool.remaining ≤ 0 := by
    by_contra hr
    simp [Pool.St.workLeft, Pool.St.expired, hl, hr] at hw
  have h3 := P.rem
  have h4 := P.rem0
  have h5 := (settled_done hr hs).2.2
  have hfin : (finishedIn h : Int) = Pool.budget (poolPart h) := by unfold finishedIn; omega
  rw [if_pos ⟨by omega, hfin⟩] at hc
  obtain ⟨t, e, ht, he, hp⟩ := hc
  rw [hp, h0, durations_one h1 t e ht he]
  omega

example : ∃ s h L, Reachable Search.Toy.env (Search.Toy.mgr false false 1) Search.Toy.alg 1 4 0 0 []
    (some (newLogger 7 9 3 (some 1))) s h ∧ numEntered h = 1 ∧ Pool.settled (poolPart h) = true ∧ s.pool.limit = none ∧
    0 < Pool.budget (poolPart h) ∧ s.lg = some L ∧ L.prior = 6 ∧ durations h = 6 := by
  obtain ⟨s, h, hr, hp⟩ := Toy.run (newLogger 7 9 3 (some 1)) (Toy.runs [[1, 0, 5]]) (fun s h => decide (numEntered h = 1 ∧
    Pool.settled (poolPart h) = true ∧ s.pool.limit = none ∧ 0 < Pool.budget (poolPart h) ∧
    s.lg.any (fun L => decide (L.prior = 6)) = true ∧ durations h = 6)) (by decide +kernel)
  obtain ⟨h1, h2, h3, h4, h5, h6⟩ := of_decide_eq_true hp
  rw [Option.any_eq_true] at h5
  obtain ⟨L, hL, h5⟩ := h5
  exact ⟨s, h, L, hr, h1, h2, h3, h4, hL, of_decide_eq_true h5, h6⟩

/-- C51 fails: after two runs of one trial each, without time limit and both joined, the prior runtime is that of the first run only. -/
theorem c51_accumulates_false : ¬ ∀ (s : St Nat Nat Int Unit Unit) (h : List (Event Nat Nat Int)) (L : Logger),
    Reachable Search.Toy.env (Search.Toy.mgr false false 1) Search.Toy.alg 1 4 0 0 [] (some (newLogger 0 0 0 none)) s h →
    oneRunAtATime (poolPart h) = true → Pool.settled (poolPart h) = true → s.lg = some L → L.prior = durations h := by
  intro hall
  obtain ⟨s, h, hr, hp⟩ := Toy.run (newLogger 0 0 0 none) (Toy.runs [[10], [5]])
    (fun s h => decide (oneRunAtATime (poolPart h) = true ∧ Pool.settled (poolPart h) = true ∧
      s.lg.any (fun L => decide (L.prior = 10)) = true ∧ durations h = 15)) (by decide +kernel)
  obtain ⟨h1, h2, h3, h4⟩ := of_decide_eq_true hp
  rw [Option.any_eq_true] at h3
  obtain ⟨L, hL, h3⟩ := h3
  have := hall s h L hr h1 h2 hL
  rw [of_decide_eq_true h3, h4] at this
  simp at this

/-- C51 fails in the other direction too: when the count of all trials passes the size of the current run in the middle of that run, its
duration so far is added although the run goes on.  After runs of 1 and 3 trials lasting 25 ticks altogether, the last entry says 35. -/
theorem c51_overcounts_false : ¬ ∀ (s : St Nat Nat Int Unit Unit) (h : List (Event Nat Nat Int)),
    Reachable Search.Toy.env (Search.Toy.mgr false false 1) Search.Toy.alg 1 4 0 0 [] (some ((newLogger 0 0 0 none).setTrialsDelta 1)) s h →
    oneRunAtATime (poolPart h) = true → Pool.settled (poolPart h) = true → ∀ e ∈ loggedPart h, e.runtime ≤ durations h := by
  intro hall
  obtain ⟨s, h, hr, hp⟩ := Toy.run ((newLogger 0 0 0 none).setTrialsDelta 1) (Toy.runs [[10], [5, 5, 5]])
    (fun _ h => decide (oneRunAtATime (poolPart h) = true ∧ Pool.settled (poolPart h) = true ∧ ¬ ∀ e ∈ loggedPart h, e.runtime ≤ durations h))
    (by decide +kernel)
  obtain ⟨h1, h2, h3⟩ := of_decide_eq_true hp
  exact h3 (hall s h hr h1 h2)

/-! ## C61 -/

/-- C61, partial: in the first run at most one entry per `δ` of elapsed time is logged, in addition to at most one per `D` trials; at every
moment. -/
theorem c61_first_run_partial {start la : Int} {th : Option Int} {D δ : Int} (hD : 1 ≤ D) (hδ : 0 < δ)
    (hr : Reachable env m alg n s0 dp tm tb (some (((newLogger start 0 la th).setTrialsDelta D).setRuntimeDelta δ)) s h)
    (h1 : numEntered h = 1) : ∃ t : Nat, runStart h = some t ∧
      ((loggedPart h).length : Int) ≤ finishedIn h / D + (s.pool.now - t) / δ := by
  obtain ⟨L, m1, m2, t, _, c2, c3, c4, _, c6, c7⟩ :=
    first_time_log (L0 := ((newLogger start 0 la th).setTrialsDelta D).setRuntimeDelta δ) rfl hδ hD rfl rfl hr h1
  refine ⟨t, c6, ?_⟩
  have c3 : (m1 : Int) * D ≤ L.last := c3
  have q1 : (m1 : Int) ≤ finishedIn h / D := by
    rw [Int.le_ediv_iff_mul_le (by omega)]; omega
  have q2 : (m2 : Int) ≤ (s.pool.now - t) / δ := by
    rw [Int.le_ediv_iff_mul_le (by omega)]; omega
  omega

example : ∃ s h, Reachable Search.Toy.env (Search.Toy.mgr false false 1) Search.Toy.alg 1 4 0 0 []
    (some (((newLogger 7 0 3 (some 1)).setTrialsDelta 100).setRuntimeDelta 4)) s h ∧ numEntered h = 1 ∧ runStart h = some 0 ∧
    s.pool.now = 9 ∧ (loggedPart h).length = 2 := by
  obtain ⟨s, h, hr, hp⟩ := Toy.run (((newLogger 7 0 3 (some 1)).setTrialsDelta 100).setRuntimeDelta 4) (Toy.runs [[1, 3, 0, 5]]) (fun s h => decide (numEntered h = 1 ∧ runStart h = some 0 ∧ s.pool.now = 9 ∧
    (loggedPart h).length = 2)) (by decide +kernel)
  exact ⟨s, h, hr, of_decide_eq_true hp⟩

/-- C61 fails from the second run on: the threshold starts again at `δ` while the runtime it is compared with includes the earlier runs.
With `δ = 5`, after a run of 10 ticks and a run of 0 ticks, there are 3 entries. -/
theorem c61_per_delta_false : ¬ ∀ (s : St Nat Nat Int Unit Unit) (h : List (Event Nat Nat Int)),
    Reachable Search.Toy.env (Search.Toy.mgr false false 1) Search.Toy.alg 1 4 0 0 [] (some ((newLogger 0 0 0 none).setRuntimeDelta 5)) s h →
    ((loggedPart h).length : Int) ≤ durations h / 5 := by
  intro hall
  obtain ⟨s, h, hr, hp⟩ := Toy.run ((newLogger 0 0 0 none).setRuntimeDelta 5) (Toy.runs [[10], [0, 0]])
    (fun _ h => decide (¬ ((loggedPart h).length : Int) ≤ durations h / 5)) (by decide +kernel)
  exact (of_decide_eq_true hp) (hall s h hr)

/-! ## C62 -/

/-- C62, partial: in the first run the logged runtimes never decrease (`loggedPart` is newest first), and they are times since the beginning
of the run. -/
theorem c62_first_run_partial {L0 : Logger} (h0 : L0.prior = 0) (hr : Reachable env m alg n s0 dp tm tb (some L0) s h)
    (h1 : numEntered h = 1) : (loggedPart h).Pairwise (fun later e => e.runtime ≤ later.runtime) ∧
      ∀ e ∈ loggedPart h, ∃ t : Nat, runStart h = some t ∧ 0 ≤ e.runtime ∧ e.runtime ≤ s.pool.now - t := by
  obtain ⟨c1, c2⟩ := first_sorted hr (by omega)
  refine ⟨c1, fun e he => ?_⟩
  obtain ⟨t, ht, q1, q2⟩ := c2 e he
  exact ⟨t, ht, by omega, by omega⟩

example : ∃ s h, Reachable Search.Toy.env (Search.Toy.mgr false false 1) Search.Toy.alg 1 4 0 0 []
    (some ((newLogger 7 0 3 (some 1)).setTrialsDelta 1)) s h ∧ numEntered h = 1 ∧ (loggedPart h).map Entry.runtime = [9, 4, 4, 1] := by
  obtain ⟨s, h, hr, hp⟩ := Toy.run ((newLogger 7 0 3 (some 1)).setTrialsDelta 1) (Toy.runs [[1, 3, 0, 5]]) (fun _ h => decide (numEntered h = 1 ∧
    (loggedPart h).map Entry.runtime = [9, 4, 4, 1])) (by decide +kernel)
  exact ⟨s, h, hr, of_decide_eq_true hp⟩

/-- C62 fails over several runs: three runs of one trial lasting 10, 5 and 1 ticks are logged as 10, 15, 11. -/
theorem c62_monotone_false : ¬ ∀ (s : St Nat Nat Int Unit Unit) (h : List (Event Nat Nat Int)),
    Reachable Search.Toy.env (Search.Toy.mgr false false 1) Search.Toy.alg 1 4 0 0 [] (some ((newLogger 0 0 0 none).setTrialsDelta 1)) s h →
    oneRunAtATime (poolPart h) = true → (loggedPart h).Pairwise (fun later e => e.runtime ≤ later.runtime) := by
  intro hall
  obtain ⟨s, h, hr, hp⟩ := Toy.run ((newLogger 0 0 0 none).setTrialsDelta 1) (Toy.runs [[10], [5], [1]])
    (fun _ h => decide (oneRunAtATime (poolPart h) = true ∧ (loggedPart h).map Entry.runtime = [11, 15, 10])) (by decide +kernel)
  obtain ⟨h1, h2⟩ := of_decide_eq_true hp
  have h3 := hall s h hr h1
  rw [← List.pairwise_map (f := Entry.runtime) (R := fun a b => b ≤ a), h2] at h3
  simp at h3

/-! ## C63 -/

/-- The table a user of a UCT, MENTS or DB-MENTS logger is promised. -/
def promised {R : Type} (names : List String) (es : List (FullEntry R)) : List (List (Cell R)) :=
  if es.length = 0 then [] else fullHeader names :: es.map fullRow

/-- Log a list of entries. -/
def logAll {R : Type} (L : Logger) (es : List (FullEntry R)) : Logger := { L with entries := L.entries ++ es.map FullEntry.slice }

/-- C63 fails always: the output of such a logger never has the promised header, nor the promised rows. -/
theorem c63_columns_false {R : Type} (names : List String) (L : Logger) (h0 : L.entries = []) (es : List (FullEntry R)) (hne : es ≠ []) :
    (logAll L es).write ≠ promised names es ∧ (∀ row ∈ (logAll L es).write (R := R), row.length = 2) := by
  obtain ⟨e, es, rfl⟩ := List.exists_cons_of_ne_nil hne
  constructor
  · intro hc
    simp only [Logger.write, logAll, h0, promised, entryHeader, fullHeader, List.nil_append, List.map_cons, List.length_cons] at hc
    rw [if_neg (by omega), if_neg (by omega)] at hc
    simp at hc
  · intro row hrow
    have hl : (logAll L (e :: es)).entries.length ≠ 0 := by simp [logAll]
    unfold Logger.write at hrow
    rw [if_neg hl, List.mem_cons, List.mem_map] at hrow
    rcases hrow with rfl | ⟨x, _, rfl⟩ <;> rfl

/-- C63 fails always: two searches whose root values and numbers of backups differ arbitrarily give the same output. -/
theorem c63_values_lost {R : Type} (L : Logger) (es es' : List (FullEntry R)) (hsame : es.map FullEntry.slice = es'.map FullEntry.slice) :
    (logAll L es).write (R := R) = (logAll L es').write := by
  simp [Logger.write, logAll, hsame]

/-- `logAll` is what repeated `log` calls do. -/
theorem logFull_logAll {R : Type} (L : Logger) (now visits backups : Int) (values : List R) :
    L.logFull now visits backups values = logAll L [⟨L.total now, visits, backups, values⟩] := rfl

example : ([⟨1, 1, 1, [(5 : Int)]⟩] : List (FullEntry Int)) ≠ [⟨1, 1, 1, [6]⟩] ∧
    ([⟨1, 1, 1, [(5 : Int)]⟩] : List (FullEntry Int)).map FullEntry.slice = [⟨1, 1, 1, [6]⟩].map FullEntry.slice := by decide

/-- C63, partial: the runtimes and visits of all entries are written, in the order of logging. -/
theorem c63_two_columns_partial {R : Type} (L : Logger) (hne : L.entries ≠ []) :
    L.write (R := R) = [.text "runtime", .text "num_visits"] :: L.entries.map fun e => [.int e.runtime, .int e.visits] := by
  have : L.entries.length ≠ 0 := by simpa using hne
  simp only [Logger.write, if_neg this, entryHeader]
  rfl

/-! ## C64 -/

/-- C64.  When `run_trials` has been used one call at a time without time limits and the last call has returned (or `join` has), every trial
asked for has been run, exactly once: the root has been visited that many times (plus its initial pseudo visits), the search has
completed as many trials, and no trial is in progress. -/
theorem c64_runs_what_was_asked (hv : alg.Valid) (htb : Search.Leftover tb) (hr : Reachable env m alg n s0 dp tm tb lg s h)
    (hone : oneRunAtATime (poolPart h) = true) (hs : Pool.settled (poolPart h) = true) :
    Search.visitsD s.search s.search.root = alg.initVisits + requested (poolPart h) ∧
    Search.trialsCompleted (searchPart h) = requested (poolPart h) ∧ Search.Quiescent s.search := by
  obtain ⟨q1, q2, q3⟩ := settled_done hr hs
  obtain ⟨⟨ls, hx⟩, hsr⟩ := reach_project hr
  have P := Pool.inv_exec hx
  obtain ⟨p1, p2⟩ := Pool.started_requested hx hone
  have hw := (P.sett hs).1
  have hrem : s.pool.remaining ≤ 0 := by
    by_contra hr
    rcases p2 with p2 | p2
    · simp [Pool.St.workLeft, Pool.St.expired, p2, hr] at hw
    · exact hr p2
  have e : (searchPart h).countP Search.Event.isCompleted = Search.trialsCompleted (searchPart h) :=
    Search.countP_congr' _ (fun e => by cases e <;> rfl)
  have hc := Search.c13_root_visits hv htb hsr q1
  refine ⟨?_, ?_, q1⟩
  · rw [hc.1]; omega
  · omega

/-- C64.  With time limits and overlapping calls too: when the last `run_trials` or `join` has returned, the root has been visited once per
trial that was started, all of them have been completed and backed up, and none is in progress. -/
theorem c64_all_trials_completed (hv : alg.Valid) (htb : Search.Leftover tb) (hr : Reachable env m alg n s0 dp tm tb lg s h)
    (hs : Pool.settled (poolPart h) = true) :
    Search.visitsD s.search s.search.root = alg.initVisits + Pool.numStarted (poolPart h) ∧
    Search.trialsCompleted (searchPart h) = Pool.numStarted (poolPart h) ∧ Search.Quiescent s.search := by
  obtain ⟨q1, q2, _⟩ := settled_done hr hs
  have e : (searchPart h).countP Search.Event.isCompleted = Search.trialsCompleted (searchPart h) :=
    Search.countP_congr' _ (fun e => by cases e <;> rfl)
  have hc := Search.c13_root_visits hv htb (reach_project hr).2 q1
  exact ⟨by rw [hc.1]; omega, by omega, q1⟩

/-- Each trial the pool starts is one trial of the search: at every moment. -/
theorem c64_trial_correspondence (hr : Reachable env m alg n s0 dp tm tb lg s h) :
    Search.trialsBegun (searchPart h) ≤ Pool.numStarted (poolPart h) ∧
    Pool.numFinished (poolPart h) ≤ Search.trialsCompleted (searchPart h) := by
  have I := sinv hr
  have e1 : (searchPart h).countP Search.Event.isBegan = Search.trialsBegun (searchPart h) :=
    Search.countP_congr' _ (fun e => by cases e <;> rfl)
  have e2 : (searchPart h).countP Search.Event.isCompleted = Search.trialsCompleted (searchPart h) :=
    Search.countP_congr' _ (fun e => by cases e <;> rfl)
  refine ⟨by have := I.begun; omega, ?_⟩
  obtain ⟨⟨ls, hx⟩, _⟩ := reach_project hr
  have P := Pool.inv_exec hx
  have hb := P.bal
  have h1 := I.begun
  have h2 := I.comp
  have h3 : s.stages.countP (fun g => g.isReady || g.isRunning) ≤ s.pool.ws.countP Pool.WPc.isTrial := by
    refine countP_le_of _ _ _ _ (by rw [I.len, P.len]) ?_
    intro j g w hg hwj hp
    by_contra hne
    have hj : j < n := by rw [← I.len]; exact (List.getElem?_eq_some_iff.1 hg).1
    have := I.out j hj (by rw [hwj]; intro hc; apply hne; rw [Option.some.inj hc]; rfl)
    rw [hg] at this
    rw [Option.some.inj this] at hp
    simp [Stage.isReady, Stage.isRunning] at hp
  have h4 : s.stages.countP (fun g => g.isReady || g.isRunning) = s.stages.countP Stage.isReady + s.stages.countP Stage.isRunning := by
    clear h1 h2 h3 I
    induction s.stages with
    | nil => rfl
    | cons g l ih =>
      rw [List.countP_cons, List.countP_cons, List.countP_cons, ih]
      cases g <;> simp [Stage.isReady, Stage.isRunning] <;> omega
  omega

/-- Two workers, `run_trials(2)`: both trials run concurrently through a tree of depth 3 and the call returns. -/
def bothSched : List (Label Nat Nat) :=
  let w (i k : Nat) : List (Label Nat Nat) := List.replicate k (.pool (.worker i))
  w 0 4 ++ w 1 4 ++ [.prep, .pool (.call 2 none true), .pool .client] ++ w 0 3 ++ w 1 3 ++
  Search.Toy.sched.map (fun p => .search p.1 p.2) ++ w 0 5 ++ w 1 5 ++ [.pool .client, .pool .client]

theorem bothSched_runs : ∃ s h, Reachable Search.Toy.env (Search.Toy.mgr false false 1) Search.Toy.alg 2 0 0 0 []
    (some ((newLogger 7 0 3 (some 1)).setTrialsDelta 1)) s h ∧ oneRunAtATime (poolPart h) = true ∧ Pool.settled (poolPart h) = true ∧
    requested (poolPart h) = 2 ∧ s.search.dn.length = 7 ∧ (loggedPart h).map Entry.visits = [2, 2] := by
  have hs : ((execFrom Search.Toy.env (Search.Toy.mgr false false 1) Search.Toy.alg (init Search.Toy.env (Search.Toy.mgr false false 1)
      Search.Toy.alg 2 0 0 0 [] (some ((newLogger 7 0 3 (some 1)).setTrialsDelta 1))) [] bothSched).any fun x =>
      decide (oneRunAtATime (poolPart x.2) = true ∧ Pool.settled (poolPart x.2) = true ∧
    requested (poolPart x.2) = 2 ∧ x.1.search.dn.length = 7 ∧ (loggedPart x.2).map Entry.visits = [2, 2])) = true := by decide +kernel
  rw [Option.any_eq_true] at hs
  obtain ⟨x, hx, hp⟩ := hs
  exact ⟨x.1, x.2, ⟨_, hx⟩, of_decide_eq_true hp⟩

/-! ## C65 -/

/-- C65.  The number of visits logged lies between the number of trials finished (with the trial that reports) and the number of trials
started at that moment (plus the initial pseudo visits); events are newest first. -/
theorem c65_logged_visits (hv : alg.Valid) (htb : Search.Leftover tb) (hr : Reachable env m alg n s0 dp tm tb lg s h)
    {after before : List (Event S A R)} {e : Entry} (he : h = after ++ .logged e :: before) :
    (alg.initVisits : Int) + finishedIn before + 1 ≤ e.visits ∧ e.visits ≤ (alg.initVisits : Int) + Pool.numStarted (poolPart before) :=
  (logged_visits hv htb hr).2.2 _ _ _ he

/-- C65.  Logged visits never decrease, over all runs (`loggedPart` is newest first), and never exceed the current visits of the root. -/
theorem c65_visits_monotone (hv : alg.Valid) (htb : Search.Leftover tb) (hr : Reachable env m alg n s0 dp tm tb lg s h) :
    (loggedPart h).Pairwise (fun later e => e.visits ≤ later.visits) ∧
    ∀ e ∈ loggedPart h, e.visits ≤ Search.visitsD s.search s.search.root :=
  ⟨(logged_visits hv htb hr).1, (logged_visits hv htb hr).2.1⟩

/-- The visits logged are in general not the number of trials finished: the other trials in progress count too. -/
theorem c65_not_exact : ∃ (s : St Nat Nat Int Unit Unit) (h after before : List (Event Nat Nat Int)) (e : Entry),
    Reachable Search.Toy.env (Search.Toy.mgr false false 1) Search.Toy.alg 2 0 0 0 [] (some ((newLogger 7 0 3 (some 1)).setTrialsDelta 1)) s h ∧
    h = after ++ .logged e :: before ∧ e.visits = 2 ∧ finishedIn before = 0 := by
  have hs : ((execFrom Search.Toy.env (Search.Toy.mgr false false 1) Search.Toy.alg (init Search.Toy.env (Search.Toy.mgr false false 1)
      Search.Toy.alg 2 0 0 0 [] (some ((newLogger 7 0 3 (some 1)).setTrialsDelta 1))) [] (bothSched.take 48)).any fun x =>
      match x.2 with
      | _ :: .logged e :: before => decide (e.visits = 2 ∧ finishedIn before = 0)
      | _ => false) = true := by decide +kernel
  rw [Option.any_eq_true] at hs
  obtain ⟨⟨s, h⟩, hx, hp⟩ := hs
  simp only at hp
  split at hp
  · next y e before => exact ⟨s, _, [y], before, e, ⟨_, hx⟩, rfl, of_decide_eq_true hp⟩
  · simp at hp

end Verif.Sys
