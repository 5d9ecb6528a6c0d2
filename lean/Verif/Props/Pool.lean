import Verif.Proofs.PoolLive

/-!
# Properties C01-C07: the thread pool

`exec n ls = some (s, h)`: the schedule `ls` (any interleaving of workers, client calls, clock ticks and spurious wake-ups)
runs on a freshly constructed pool with `n` workers, reaches `s`, and the events so far are `h`, newest first.
-/

namespace Verif.Pool

/-- A schedule used in the non-vacuity examples: 2 workers, a blocking `run_trials(3)`, all three trials are run
(two of them concurrently) and the call returns. -/
def demo : List Label :=
  let w (i k : Nat) : List Label := List.replicate k (.worker i)
  w 0 4 ++                       -- worker 0 starts up and goes to sleep
  [.call 3 none true, .client] ++ -- run_trials(3) publishes and notifies
  w 0 3 ++                       -- worker 0 takes trial 1
  [.client, .client] ++          -- the client checks and sleeps in join
  w 1 4 ++                       -- worker 1 starts up, takes trial 2 (concurrently)
  [.look 0, .look 1] ++
  w 1 1 ++ w 1 4 ++              -- worker 1 finishes and takes trial 3
  w 0 1 ++ w 0 4 ++              -- worker 0 finishes, notifies, sleeps
  [.client, .client] ++          -- the client wakes up, still working, sleeps again
  w 1 1 ++ w 1 4 ++              -- worker 1 finishes, notifies, sleeps
  [.client, .client]             -- the client wakes up and returns

/-! ## C01 -/

/-- **C01.** At every moment the number of trials started since the last `run_trials` call is at most the budget
given by that call (none if the budget is not positive, or if `run_trials` has never been called). -/
theorem c01_budget_never_exceeded (n : Nat) (ls : List Label) (s : St) (h : List Event)
    (hx : exec n ls = some (s, h)) :
    (numStarted (sinceCall h) : Int) ≤ max (budget h) 0 := by
  have H := inv_exec hx
  have h1 := H.rem
  rcases H.rem0 with h2 | h2 <;> omega

example : ∃ s h, exec 2 demo = some (s, h) ∧ budget h = 3 ∧ numStarted (sinceCall h) = 3 := by
  refine ⟨_, _, rfl, ?_⟩; decide

/-! ## C02 -/

/-- **C02.** When `join()` (in particular a blocking `run_trials`) has just returned and the time limit has not been
reached, exactly the requested number of trials has been started since the last `run_trials` call, and every trial
ever started has been finished. -/
theorem c02_exact_number_of_trials (n : Nat) (ls : List Label) (s : St) (h : List Event)
    (hx : exec n ls = some (s, .joined :: h)) (hlim : s.expired = false) :
    (numStarted (sinceCall h) : Int) = max (budget h) 0 ∧ numStarted h = numFinished h
      ∧ ∀ i, inTrial i h = false := by
  have H := inv_exec hx
  have h1 := H.rem
  have hb : budget (.joined :: h) = budget h := rfl
  have hs : numStarted (sinceCall (.joined :: h)) = numStarted (sinceCall h) := by
    rw [since_cons]; simp [Event.isCall, Event.isStart]
  have hset := H.sett rfl
  have hw := hset.1
  simp only [St.workLeft, hlim] at hw
  have hr : s.remaining ≤ 0 := by
    by_cases hr : s.remaining ≤ 0
    · exact hr
    · simp [hr] at hw
  have h2 := H.rem0
  rw [hs, hb] at h1
  rw [hs] at h2
  have hbal := H.bal
  have ht : s.ws.countP WPc.isTrial = 0 := by
    rw [List.countP_eq_zero]
    intro a ha
    obtain ⟨i, hi, rfl⟩ := List.mem_iff_getElem.1 ha
    have := hset.2 i
    rw [List.getElem?_eq_getElem hi] at this
    cases hq : s.ws[i] <;> simp [WPc.isTrial, hq] at this ⊢
  refine ⟨by rcases h2 with h2 | h2 <;> omega, ?_, ?_⟩
  · simp [ns_cons, nf_cons, Event.isStart, Event.isFinish] at hbal; omega
  · intro i
    have := mt (H.trial i).2 (hset.2 i)
    simpa [inTrial] using this

example : ∃ s h, exec 2 demo = some (s, .joined :: h) ∧ s.expired = false ∧ budget h = 3 := by
  refine ⟨_, _, rfl, ?_⟩; decide

/-! ## C03 -/

/-- **C03.** Once `join()` has returned (and until the next `run_trials`) no trial is in progress, and no trial ever
starts in such a period: every start in every history happens while the pool is not settled. Time limits included. -/
theorem c03_join_quiescent (n : Nat) (ls : List Label) (s : St) (h : List Event)
    (hx : exec n ls = some (s, h)) :
    (settled h = true → ∀ i, inTrial i h = false) ∧
    (∀ after i before, h = after ++ .started i :: before → settled before = false) := by
  have H := inv_exec hx
  refine ⟨?_, fun a i b hab => ((startInv_exec hx).starts a i b hab).1⟩
  intro hs i
  have := mt (H.trial i).2 ((H.sett hs).2 i)
  simpa using this

example : ∃ s h, exec 2 demo = some (s, h) ∧ settled h = true ∧
    ∃ after before, h = after ++ .started 1 :: before := by
  refine ⟨_, _, rfl, by decide, ?_⟩
  exact ⟨[.joined, .finished 1, .finished 0], [.finished 1, .observed 1 0, .observed 0 0, .started 1, .started 0,
    .called 3 none], by decide⟩

/-! ## C04 -/

/-- **C04 (first half).** While the client is inside `run_trials`/`join` and the time limit has not been reached, the
program is never stuck: some worker or the client can take a step.  (At least one worker.) -/
theorem c04_never_stuck (n : Nat) (hn : 0 < n) (ls : List Label) (s : St) (h : List Event)
    (hx : exec n ls = some (s, h)) (hb : s.cl.busy = true) (hlim : s.expired = false) :
    ∃ l r, l.isProgress = true ∧ step s l = some r :=
  not_stuck_busy (inv_exec hx) hn hb hlim

/-- **C04 (second half).** From every reachable state there is a bound `B` such that every continuation that contains
more than `B` program steps (plus three for each spurious wake-up) lets the client return from its call.
With `c04_never_stuck` this says: a run without time limit in which enabled threads keep being scheduled returns. -/
theorem c04_bounded_wait (n : Nat) (ls : List Label) (s : St) (h : List Event) (_hx : exec n ls = some (s, h)) :
    ∃ B, ∀ ls' s' h', execFrom s h ls' = some (s', h') →
      B + 3 * ls'.countP Label.isSpurious < ls'.countP Label.isProgress →
      ∃ l1 l2 s1 h1, ls' = l1 ++ l2 ∧ execFrom s h l1 = some (s1, h1) ∧ s1.cl = .idle := by
  refine ⟨mu s, fun ls' s' h' hr hlt => ?_⟩
  apply Classical.byContradiction
  intro hno
  have := mu_run hr (by
    intro l1 l2 s1 h1 he hx1 hi
    exact hno ⟨l1, l2, s1, h1, he, hx1, hi⟩)
  omega

/-- In a call without time limit the deadline is never reached, so `c04_never_stuck` applies for ever. -/
theorem c04_unlimited_not_expired (s : St) (hl : s.limit = none) : s.expired = false := by
  simp [St.expired, hl]

/-- **C04, without time limit: every fair infinite run returns.**  Let `st`/`lab` be an infinite run from a reachable
state in which the client is inside a call with no time limit, and let there be at least one worker.  If spurious wake-ups
stop at some point and the scheduler is fair (it does not ignore enabled program steps for ever), the client returns. -/
theorem c04_unlimited_run_returns (n : Nat) (hn : 0 < n) (ls : List Label) (s : St) (h : List Event)
    (hx : exec n ls = some (s, h)) (hb : s.cl.busy = true) (hlim : s.limit = none)
    (st : Nat → St) (lab : Nat → Label) (h0 : st 0 = s)
    (hstep : ∀ k, ∃ e, step (st k) (lab k) = some (st (k + 1), e))
    (hspur : ∃ N, ∀ k, N ≤ k → (lab k).isSpurious = false)
    (hfair : ∀ N, (∀ k, N ≤ k → ∃ l r, l.isProgress = true ∧ step (st k) l = some r) →
      ∃ k, N ≤ k ∧ (lab k).isProgress = true) :
    ∃ k, (st k).cl = .idle := by
  apply Classical.byContradiction
  intro hno
  have hne : ∀ k, (st k).cl ≠ .idle := fun k hk => hno ⟨k, hk⟩
  have hinv : ∀ k, (∃ g, Inv n (st k) g) ∧ (st k).cl.busy = true ∧ (st k).limit = none := by
    intro k
    induction k with
    | zero => rw [h0]; exact ⟨⟨h, inv_exec hx⟩, hb, hlim⟩
    | succ k ih =>
      obtain ⟨⟨g, hg⟩, hbk, hlk⟩ := ih
      obtain ⟨e, he⟩ := hstep k
      have := busy_step hbk he
      refine ⟨⟨_, inv_step hg he⟩, ?_, by rw [this.2, hlk]⟩
      rcases this.1 with h1 | h1
      · exact h1
      · exact absurd h1 (hne (k + 1))
  have hfair' : ∀ N, ∃ k, N ≤ k ∧ (lab k).isProgress = true := by
    intro N
    refine hfair N (fun k _ => ?_)
    obtain ⟨⟨g, hg⟩, hbk, hlk⟩ := hinv k
    exact not_stuck_busy hg hn hbk (c04_unlimited_not_expired _ hlk)
  obtain ⟨N, hN⟩ := hspur
  -- from N on the measure never increases, and it decreases at every program step
  have hmono : ∀ k, N ≤ k → mu (st (k + 1)) ≤ mu (st k) ∧
      ((lab k).isProgress = true → mu (st (k + 1)) < mu (st k)) := by
    intro k hk
    obtain ⟨e, he⟩ := hstep k
    cases hp : (lab k).isProgress
    · have := mu_other hp (hne k) he
      simp [hN k hk] at this
      exact ⟨this, by simp⟩
    · have := mu_progress hp he
      exact ⟨by omega, fun _ => this⟩
  have hle : ∀ d k, N ≤ k → mu (st (k + d)) ≤ mu (st k) := by
    intro d
    induction d with
    | zero => intro k _; exact Nat.le_refl _
    | succ d ih =>
      intro k hk
      have h1 := (hmono (k + d) (by omega)).1
      have h2 := ih k hk
      have : k + (d + 1) = k + d + 1 := by omega
      rw [this]; omega
  have : ∀ m k, N ≤ k → mu (st k) ≤ m → False := by
    intro m
    induction m with
    | zero =>
      intro k hk hm
      obtain ⟨j, hj, hp⟩ := hfair' k
      have h1 := (hmono j (by omega)).2 hp
      have h2 := hle (j - k) k hk
      have : k + (j - k) = j := by omega
      rw [this] at h2; omega
    | succ m ih =>
      intro k hk hm
      obtain ⟨j, hj, hp⟩ := hfair' k
      have h1 := (hmono j (by omega)).2 hp
      have h2 := hle (j - k) k hk
      have : k + (j - k) = j := by omega
      rw [this] at h2
      exact ih (j + 1) (by omega) (by omega)
  exact this _ N (Nat.le_refl _) (Nat.le_refl _)

/-- non-vacuity of `c04_unlimited_run_returns`: an infinite fair run from inside a blocking `run_trials(0)`
(the call returns, the worker goes back to sleep, then only the clock runs). -/
example : ∃ (ls : List Label) (s : St) (h : List Event) (st : Nat → St) (lab : Nat → Label),
    exec 1 ls = some (s, h) ∧ s.cl.busy = true ∧ s.limit = none ∧ st 0 = s ∧
    (∀ k, ∃ e, step (st k) (lab k) = some (st (k + 1), e)) ∧
    (∃ N, ∀ k, N ≤ k → (lab k).isSpurious = false) ∧
    (∀ N, (∀ k, N ≤ k → ∃ l r, l.isProgress = true ∧ step (st k) l = some r) →
      ∃ k, N ≤ k ∧ (lab k).isProgress = true) := by
  let s0 : St := { ws := [.waiting], cl := .publish true, lock := none, alive := true, working := 0,
                   remaining := 0, now := 0, start := 0, limit := none, env := 0 }
  let s1 : St := { s0 with ws := [.woken], cl := .joinWant }
  let s2 : St := { s1 with cl := .joinChk, lock := some .client }
  let s3 : St := { s1 with cl := .idle }
  let s4 : St := { s3 with ws := [.afterWait], lock := some (.worker 0) }
  let s5 : St := { s4 with ws := [.chk2] }
  let st : Nat → St := fun k => match k with
    | 0 => s0 | 1 => s1 | 2 => s2 | 3 => s3 | 4 => s4 | 5 => s5
    | k + 6 => { s3 with ws := [.waiting], now := k }
  let lab : Nat → Label := fun k => match k with
    | 0 | 1 | 2 => .client
    | 3 | 4 | 5 => .worker 0
    | _ => .tick
  refine ⟨List.replicate 4 (.worker 0) ++ [.call 0 none true], s0, [.called 0 none], st, lab, by decide, rfl, rfl,
    rfl, ?_, ⟨0, ?_⟩, ?_⟩
  · intro k
    rcases k with _ | _ | _ | _ | _ | _ | k
    · exact ⟨none, by decide⟩
    · exact ⟨none, by decide⟩
    · exact ⟨some .joined, by decide⟩
    · exact ⟨none, by decide⟩
    · exact ⟨none, by decide⟩
    · exact ⟨none, by decide⟩
    · exact ⟨none, rfl⟩
  · intro k _
    rcases k with _ | _ | _ | _ | _ | _ | k <;> rfl
  · intro N hN
    by_cases h5 : N ≤ 5
    · exact ⟨5, h5, rfl⟩
    · exfalso
      obtain ⟨l, r, hl, hr⟩ := hN (N - 6 + 6) (by omega)
      cases l <;> simp [Label.isProgress] at hl
      · rename_i i
        rcases i with _ | i <;> simp [st, step, stepWorker] at hr
      · simp [st, s3, step, stepClient] at hr

/-- The schedule of the lost wake-up: one worker, `run_trials(1, 1s)`; the deadline passes after the client went to
sleep in `join` and before the worker re-evaluates `work_left`. -/
def lostWakeup : List Label :=
  List.replicate 4 (.worker 0) ++ [.call 1 (some 1) true, .client, .client, .client, .tick] ++
    List.replicate 3 (.worker 0)

/-- **C04 is false of the code with a time limit.**  There is a reachable state inside a blocking `run_trials` from
which the call never returns, whatever happens, unless a spurious wake-up occurs: no program step is enabled. -/
theorem c04_time_limit_false :
    ∃ s h, exec 1 lostWakeup = some (s, h) ∧ s.cl.busy = true ∧ s.limit = some 1 ∧
      ∀ ls' s' h', ls'.countP Label.isSpurious = 0 → execFrom s h ls' = some (s', h') →
        s'.cl = .joinWait ∧ (∀ l, l.isProgress = true → step s' l = none) := by
  refine ⟨_, _, rfl, rfl, rfl, ?_⟩
  have key : ∀ (ls' : List Label) (s s' : St) (h h' : List Event), s.cl = .joinWait → s.ws = [.waiting] →
      ls'.countP Label.isSpurious = 0 → execFrom s h ls' = some (s', h') →
      s'.cl = .joinWait ∧ s'.ws = [.waiting] := by
    intro ls'
    induction ls' with
    | nil =>
      intro s s' h h' hc hw _ hx
      simp [execFrom] at hx; obtain ⟨rfl, rfl⟩ := hx; exact ⟨hc, hw⟩
    | cons l ls' ih =>
      intro s s' h h' hc hw hsp hx
      simp only [List.countP_cons] at hsp
      have hsp2 : l.isSpurious = false := by cases hl : l.isSpurious <;> simp [hl] at hsp ⊢
      simp only [execFrom] at hx
      split at hx
      · rename_i s1 e hst
        have : s1.cl = .joinWait ∧ s1.ws = [.waiting] := by
          cases l <;> simp only [Label.isSpurious] at hsp2 <;> simp only [step] at hst
          case tick => simp at hst; obtain ⟨rfl, rfl⟩ := hst; exact ⟨hc, hw⟩
          case worker i => rw [hw] at hst; rcases i with _ | i <;> simp [stepWorker] at hst
          case look i => rw [hw] at hst; rcases i with _ | i <;> simp at hst
          case client => simp [stepClient, hc] at hst
          all_goals first
            | (simp [hc] at hst; done)
            | (simp at hsp2; done)
        exact ih s1 s' _ h' this.1 this.2 (by omega) hx
      · simp at hx
  intro ls' s' h' hsp hx
  have hk := key ls' _ s' _ h' rfl rfl hsp hx
  refine ⟨hk.1, ?_⟩
  intro l hl
  cases l <;> simp [Label.isProgress] at hl
  · rename_i i
    simp only [step, hk.2]; rcases i with _ | i <;> simp [stepWorker]
  · simp [step, stepClient, hk.1]

/-- non-vacuity: a reachable state inside a blocking call, with the deadline not reached. -/
example : ∃ s h, exec 2 (demo.take 11) = some (s, h) ∧ s.cl.busy = true ∧ s.expired = false := by
  refine ⟨_, _, rfl, ?_⟩; decide

/-! ## C05 -/

/-- **C05.** Destroying the pool from any reachable state terminates: (1) it is never stuck; (2) after boundedly many
program steps (plus three per spurious wake-up) it has returned; (3) once it has returned all workers have exited and no
trial is in progress; (4) no trial starts after the destructor began. -/
theorem c05_destructor_terminates (n : Nat) (ls : List Label) (s : St) (h : List Event)
    (hx : exec n ls = some (s, h)) :
    (s.cl = .dtorJoin → ∃ l r, l.isProgress = true ∧ step s l = some r) ∧
    (s.cl = .dtorJoin → ∃ B, ∀ ls' s' h', execFrom s h ls' = some (s', h') →
      B + 3 * ls'.countP Label.isSpurious < ls'.countP Label.isProgress → s'.cl = .dead) ∧
    (.destroyed ∈ h → (∀ w ∈ s.ws, w = .exited) ∧ ∀ i, inTrial i h = false) ∧
    (∀ after i before, h = after ++ .started i :: before → .dtorBegan ∉ before) := by
  have H := inv_exec hx
  have S := startInv_exec hx
  refine ⟨fun hd => not_stuck_dtor H hd, fun hd => ⟨mu s + 1, fun ls' s' h' hr hlt => ?_⟩, ?_,
    fun a i b hab => (S.starts a i b hab).2⟩
  · have hm := mu_run hr (by
      intro l1 l2 s1 h1 he hx1 hi
      rcases cl_dtor_run (.inl hd) hx1 with h2 | h2 <;> simp [h2] at hi)
    omega
  · intro hd
    refine ⟨S.destroyed hd, fun i => ?_⟩
    have hne : s.ws[i]? ≠ some .trial := by
      intro hi
      have := S.destroyed hd _ (List.mem_of_getElem? hi)
      simp at this
    have := mt (H.trial i).2 hne
    simpa using this

example : ∃ s h, exec 2 (demo.take 15 ++ [.look 1]) = some (s, h) ∧ numStarted h = 2 ∧ inTrial 0 h = true := by
  refine ⟨_, _, rfl, ?_⟩; decide

/-- The destructor of a pool in the middle of a (non-blocking) search: both workers exit, then it returns. -/
example : ∃ s h, exec 2 (List.replicate 4 (.worker 0) ++ [.call 5 none false, .client] ++
    List.replicate 3 (.worker 0) ++ [.dtor] ++ List.replicate 3 (.worker 0) ++ List.replicate 2 (.worker 1) ++ [.client])
    = some (s, h) ∧ .destroyed ∈ h ∧ .dtorBegan ∈ h ∧ .started 0 ∈ h := by
  refine ⟨_, _, rfl, ?_⟩; decide

/-! ## C06 -/

/-- **C06 is false of the code.**  `set_new_env` can succeed while a trial is in progress: with one worker and a
non-blocking `run_trials(1)`, the trial sees environment 0 and then environment 7. -/
theorem c06_set_new_env_false :
    ∃ s h, exec 1 (List.replicate 4 (.worker 0) ++ [.call 1 none false, .client] ++ List.replicate 3 (.worker 0) ++
        [.look 0, .swap 7, .look 0]) = some (s, h) ∧
      inTrial 0 h = true ∧ seenBy 0 h = [7, 0] := by
  refine ⟨_, _, rfl, ?_⟩; decide

/-- **C06 (partial).** If `set_new_env` is only called when `join()` has returned since the last `run_trials` call
(or before the first one), no trial ever observes two different environments.
Missing: the code does not enforce that discipline (see `c06_set_new_env_false`). -/
theorem c06_single_root_partial (n : Nat) (ls : List Label) (s : St) (h : List Event)
    (hx : exec n ls = some (s, h)) (hd : swapsOnlyWhenSettled h = true) (i : Nat) (hi : inTrial i h = true) :
    ∀ e ∈ seenBy i h, ∀ e' ∈ seenBy i h, e = e' := by
  intro e he e' he'
  have H := inv_exec hx
  rw [H.env hd i e hi he, H.env hd i e' hi he']

example : ∃ s h, exec 1 ([.swap 3] ++ List.replicate 4 (.worker 0) ++ [.call 1 none false, .client] ++
      List.replicate 3 (.worker 0) ++ [.look 0, .look 0]) = some (s, h) ∧
    swapsOnlyWhenSettled h = true ∧ inTrial 0 h = true ∧ seenBy 0 h = [3, 3] := by
  refine ⟨_, _, rfl, ?_⟩; decide

/-- While work is left, `set_new_env` always throws and changes nothing. -/
theorem c06_refused_while_work_left (s : St) (e : Nat) (hc : s.cl = .idle) (hw : s.workLeft = true) :
    step s (.swap e) = some (s, some .swapRefused) := by
  simp [step, hc, hw]

/-! ## C07 -/

/-- **C07.** At every moment at most `n` trials are in progress, and while the pool is alive the busy counter is the
number of workers between picking up a trial (or thread start-up) and reporting back. -/
theorem c07_at_most_num_threads (n : Nat) (ls : List Label) (s : St) (h : List Event)
    (hx : exec n ls = some (s, h)) :
    numFinished h ≤ numStarted h ∧ numStarted h ≤ numFinished h + n ∧
    (∀ i, inTrial i h = true → i < n) ∧
    (s.alive = true →
      s.working = ((s.ws.filter (fun w => w == .wantLock || w == .head || w == .trial)).length : Nat)) := by
  have H := inv_exec hx
  have hb := H.bal
  have hl : s.ws.countP WPc.isTrial ≤ s.ws.length := List.countP_le_length
  have := H.len
  refine ⟨by omega, by omega, ?_, ?_⟩
  · intro i hi
    have h1 := (H.trial i).2 hi
    have := (List.getElem?_eq_some_iff.1 h1).1
    omega
  · intro ha
    rw [H.work ha, ← List.countP_eq_length_filter]
    have : WPc.counted = (fun w => w == .wantLock || w == .head || w == .trial) := by
      funext w; cases w <;> rfl
    rw [this]

example : ∃ s h, exec 2 (demo.take 15) = some (s, h) ∧ numStarted h = 2 ∧ numFinished h = 0 ∧ s.working = 2 := by
  refine ⟨_, _, rfl, ?_⟩; decide

end Verif.Pool
