import Verif.Model.PoolClock
import Verif.Props.Pool

/-!
# Property C117: time limits and the wall clock

`cexec n` runs a schedule on a pool with `n` threads in which the clock may also be set (`Verif.Model.PoolClock`); `real` is the time that has
passed, `realStart` its value at the last call of `run_trials`.  Histories have the newest event first.
-/

namespace Verif.Pool

/-- In this run the clock is never set backwards. -/
def Forward (c : CSt) : List CLabel → Prop
  | [] => True
  | l :: ls => (match l with
      | .adjust t => c.st.now ≤ t
      | .run _ => True) ∧
    match cstep c l with
      | some (c', _) => Forward c' ls
      | none => True

/-- The label is no `run_trials` with a time limit. -/
def CLabel.unlimited : CLabel → Bool
  | .run (.call _ (some _) _) => false
  | _ => true

/-! ## Effects of a step -/

/-- Effect on the budget and the time limit. -/
theorem step_effect {s s' : St} {l : Label} {e : Option Event} (hs : step s l = some (s', e)) :
    (∃ n lim b, l = .call n lim b ∧ e = some (.called n lim) ∧ s'.remaining = n ∧ s'.limit = lim ∧ s'.start = s.now ∧ s'.now = s.now) ∨
    ((∀ n lim b, l ≠ .call n lim b) ∧ s'.limit = s.limit ∧ s'.start = s.start ∧ s'.now = (if l = .tick then s.now + 1 else s.now) ∧
      ((∃ i, e = some (.started i) ∧ s.workLeft = true ∧ s'.remaining = s.remaining - 1) ∨
        ((∀ i, e ≠ some (.started i)) ∧ (∀ n lim, e ≠ some (.called n lim)) ∧ s'.remaining = s.remaining))) := by
  cases l with
  | call n lim b =>
    simp only [step] at hs
    split at hs
    · simp at hs; obtain ⟨rfl, rfl⟩ := hs; exact .inl ⟨n, lim, b, rfl, rfl, rfl, rfl, rfl, rfl⟩
    · simp at hs
  | tick => right; simp [step] at hs; obtain ⟨rfl, rfl⟩ := hs; simp
  | worker i =>
    right
    simp only [step] at hs
    split at hs
    · next p _ =>
      cases p <;> simp only [stepWorker] at hs <;> (try split at hs) <;> simp at hs <;> obtain ⟨rfl, rfl⟩ := hs <;>
        simp_all [St.setW, St.notifyAll]
    · simp at hs
  | client =>
    right
    simp only [step, stepClient] at hs
    split at hs <;> (try split at hs) <;> simp at hs <;> obtain ⟨rfl, rfl⟩ := hs <;> simp [St.notifyAll]
  | look i =>
    right
    simp only [step] at hs
    split at hs <;> simp at hs; obtain ⟨rfl, rfl⟩ := hs; simp
  | spuriousW i =>
    right
    simp only [step] at hs
    split at hs <;> simp at hs; obtain ⟨rfl, rfl⟩ := hs; simp [St.setW]
  | spuriousC =>
    right
    simp only [step] at hs
    split at hs <;> simp at hs; obtain ⟨rfl, rfl⟩ := hs; simp
  | join =>
    right
    simp only [step] at hs
    split at hs <;> simp at hs; obtain ⟨rfl, rfl⟩ := hs; simp
  | swap e =>
    right
    simp only [step] at hs
    split at hs
    · split at hs <;> simp at hs <;> obtain ⟨rfl, rfl⟩ := hs <;> simp
    · simp at hs
  | dtor =>
    right
    simp only [step] at hs
    split at hs <;> simp at hs; obtain ⟨rfl, rfl⟩ := hs; simp [St.notifyAll]

theorem cexec_induct {P : CSt → List Event → Prop} {c : CSt} {h : List Event} {ls : List CLabel} {c' : CSt} {h' : List Event}
    (hx : cexecFrom c h ls = some (c', h')) (h0 : P c h)
    (hstep : ∀ c h l c1 e, l ∈ ls → P c h → cstep c l = some (c1, e) → P c1 (e.toList ++ h)) : P c' h' := by
  induction ls generalizing c h with
  | nil => simp [cexecFrom] at hx; obtain ⟨rfl, rfl⟩ := hx; exact h0
  | cons l ls ih =>
    simp only [cexecFrom] at hx
    split at hx
    · next c1 e hc =>
      exact ih hx (hstep _ _ _ _ _ (by simp) h0 hc) (fun c h l c1 e hl => hstep c h l c1 e (by simp [hl]))
    · simp at hx

/-! ## What holds however the clock is set -/

/-- C117.  However the clock is set, at most as many trials as asked for are started since the last call. -/
theorem c117_budget (n : Nat) (ls : List CLabel) (c : CSt) (h : List Event) (hx : cexec n ls = some (c, h)) :
    (numStarted (sinceCall h) : Int) ≤ max (budget h) 0 := by
  have key : c.st.remaining = budget h - numStarted (sinceCall h) ∧ (numStarted (sinceCall h) : Int) ≤ max (budget h) 0 := by
    refine cexec_induct (P := fun c h => c.st.remaining = budget h - numStarted (sinceCall h) ∧ (numStarted (sinceCall h) : Int) ≤ max (budget h) 0)
      hx (by simp [init, budget, sinceCall, numStarted]) (fun c h l c1 e _ ih hs => ?_)
    cases l with
    | adjust t => simp [cstep] at hs; obtain ⟨rfl, rfl⟩ := hs; simpa using ih
    | run l =>
      simp only [cstep] at hs
      split at hs
      · simp at hs
      · next s' e' hst =>
        simp at hs
        obtain ⟨rfl, rfl⟩ := hs
        rcases step_effect hst with ⟨n, lim, b, _, rfl, hr, _⟩ | ⟨_, _, _, _, ⟨i, rfl, hw, hr⟩ | ⟨hn1, hn2, hr⟩⟩
        · simp [budget, sinceCall, numStarted, Event.isCall, hr]; omega
        · have hpos : 0 < c.st.remaining := by
            unfold St.workLeft at hw
            split at hw
            · simp at hw
            · omega
          simp only [Option.toList, List.singleton_append, since_cons, budget, Event.isCall, Event.isStart, hr]
          simp
          omega
        · cases e' with
          | none => simpa [hr] using ih
          | some e' =>
            have : budget (e' :: h) = budget h := by
              cases e' <;> first | rfl | exact absurd rfl (hn2 _ _)
            have h2 : numStarted (sinceCall (e' :: h)) = numStarted (sinceCall h) := by
              rw [since_cons]
              cases e' <;> first | exact absurd rfl (hn2 _ _) | exact absurd rfl (hn1 _) | simp [Event.isCall, Event.isStart]
            simp only [Option.toList, List.singleton_append, this, h2, hr]
            exact ih
  exact key.2

/-- The state with another time. -/
def St.retime (x y : Nat) (s : St) : St := { s with now := x, start := y }

/-- The time does not matter. -/
def Timeless (s : St) : Prop := s.limit = none ∨ s.remaining ≤ 0

theorem retime_workLeft {s : St} (ht : Timeless s) (x y : Nat) : (s.retime x y).workLeft = s.workLeft := by
  rcases ht with h | h <;> simp [St.retime, St.workLeft, St.expired, h]

theorem timeless_step {s s' : St} {l : Label} {e : Option Event} (ht : Timeless s) (hl : (CLabel.run l).unlimited = true)
    (hs : step s l = some (s', e)) : Timeless s' := by
  rcases step_effect hs with ⟨n, lim, b, rfl, _, _, hlim, _⟩ | ⟨_, hlim, _, _, ⟨i, _, hw, hr⟩ | ⟨_, _, hr⟩⟩
  · cases lim with
    | none => exact .inl hlim
    | some L => simp [CLabel.unlimited] at hl
  · rcases ht with h | h
    · exact .inl (by rw [hlim, h])
    · exact .inr (by omega)
  · rcases ht with h | h
    · exact .inl (by rw [hlim, h])
    · exact .inr (by omega)

theorem retime_step {s s' : St} {l : Label} {e : Option Event} (ht : Timeless s) (hs : step s l = some (s', e)) (x y : Nat) :
    ∃ x' y', step (s.retime x y) l = some (s'.retime x' y', e) := by
  have hw := retime_workLeft ht x y
  cases l with
  | call n lim b =>
    simp only [step] at hs
    split at hs
    · next hc => simp at hs; obtain ⟨rfl, rfl⟩ := hs; exact ⟨x, x, by simp [step, St.retime, hc]⟩
    · simp at hs
  | tick => simp [step] at hs; obtain ⟨rfl, rfl⟩ := hs; exact ⟨x + 1, y, by simp [step, St.retime]⟩
  | worker i =>
    refine ⟨x, y, ?_⟩
    simp only [step] at hs ⊢
    have hws : (s.retime x y).ws = s.ws := rfl
    rw [hws]
    split at hs
    · next p hp =>
      cases p <;> simp only [stepWorker, hw] at hs ⊢ <;> (try split at hs) <;> simp at hs <;> obtain ⟨rfl, rfl⟩ := hs <;>
        simp_all [St.setW, St.notifyAll, St.retime]
    · simp at hs
  | client =>
    refine ⟨x, y, ?_⟩
    simp only [step, stepClient] at hs ⊢
    have hcl : (s.retime x y).cl = s.cl := rfl
    rw [hcl, hw]
    split at hs <;> (try split at hs) <;> simp at hs <;> obtain ⟨rfl, rfl⟩ := hs <;> simp_all [St.notifyAll, St.retime] <;> assumption
  | look i =>
    refine ⟨x, y, ?_⟩
    simp only [step] at hs ⊢
    split at hs <;> simp at hs; obtain ⟨rfl, rfl⟩ := hs; simp_all [St.retime]
  | spuriousW i =>
    refine ⟨x, y, ?_⟩
    simp only [step] at hs ⊢
    split at hs <;> simp at hs; obtain ⟨rfl, rfl⟩ := hs; simp_all [St.setW, St.retime]
  | spuriousC =>
    refine ⟨x, y, ?_⟩
    simp only [step] at hs ⊢
    split at hs <;> simp at hs; obtain ⟨rfl, rfl⟩ := hs; simp_all [St.retime]
  | join =>
    refine ⟨x, y, ?_⟩
    simp only [step] at hs ⊢
    split at hs <;> simp at hs; obtain ⟨rfl, rfl⟩ := hs; simp_all [St.retime]
  | swap e =>
    refine ⟨x, y, ?_⟩
    simp only [step] at hs ⊢
    split at hs
    · split at hs <;> simp at hs <;> obtain ⟨rfl, rfl⟩ := hs <;> simp_all [St.retime]
    · simp at hs
  | dtor =>
    refine ⟨x, y, ?_⟩
    simp only [step] at hs ⊢
    split at hs <;> simp at hs; obtain ⟨rfl, rfl⟩ := hs; simp_all [St.notifyAll, St.retime]

/-- C117.  Without time limits setting the clock has no effect: what can be observed is what can be observed in some run in which it is not set,
so that C01 to C07 hold. -/
theorem c117_no_limit (n : Nat) (ls : List CLabel) (hu : ∀ l ∈ ls, l.unlimited = true) (c : CSt) (h : List Event)
    (hx : cexec n ls = some (c, h)) : ∃ ls' s', exec n ls' = some (s', h) ∧ s'.ws = c.st.ws ∧ s'.cl = c.st.cl ∧ s'.remaining = c.st.remaining := by
  have key : Timeless c.st ∧ ∃ ls' x y, exec n ls' = some (c.st.retime x y, h) := by
    refine cexec_induct (P := fun c h => Timeless c.st ∧ ∃ ls' x y, exec n ls' = some (c.st.retime x y, h)) hx
      ⟨.inr (by simp [init]), [], 0, 0, rfl⟩ (fun c h l c1 e hl ih hs => ?_)
    obtain ⟨ht, ls', x, y, hr⟩ := ih
    cases l with
    | adjust t =>
      simp [cstep] at hs
      obtain ⟨rfl, rfl⟩ := hs
      exact ⟨ht, ls', x, y, by simpa [St.retime] using hr⟩
    | run l =>
      simp only [cstep] at hs
      split at hs
      · simp at hs
      · next s' e' hst =>
        simp at hs
        obtain ⟨rfl, rfl⟩ := hs
        obtain ⟨x', y', h2⟩ := retime_step ht hst x y
        refine ⟨timeless_step ht (hu _ hl) hst, ls' ++ [l], x', y', ?_⟩
        unfold exec at hr ⊢
        rw [execFrom_append, hr]
        simp [execFrom, h2]
  obtain ⟨_, ls', x, y, hr⟩ := key
  exact ⟨ls', _, hr, rfl, rfl, rfl⟩

/-! ## What holds if the clock is not set backwards -/

theorem exec_ticks (s : St) (h : List Event) (k : Nat) : execFrom s h (List.replicate k .tick) = some ({ s with now := s.now + k }, h) := by
  induction k generalizing s with
  | zero => rfl
  | succ k ih =>
    simp only [List.replicate_succ, execFrom, step]
    rw [Option.toList_none, List.nil_append, ih]
    simp [Nat.add_assoc, Nat.add_comm 1 k]

theorem forward_run {c : CSt} {h : List Event} {ls : List CLabel} {c' : CSt} {h' : List Event} (hf : Forward c ls)
    (hx : cexecFrom c h ls = some (c', h')) (hi : c.real + c.st.start ≤ c.st.now + c.realStart) :
    (∃ ls', execFrom c.st h ls' = some (c'.st, h')) ∧ c'.real + c'.st.start ≤ c'.st.now + c'.realStart := by
  induction ls generalizing c h with
  | nil => simp [cexecFrom] at hx; obtain ⟨rfl, rfl⟩ := hx; exact ⟨⟨[], rfl⟩, hi⟩
  | cons l ls ih =>
    simp only [cexecFrom] at hx
    split at hx
    · next c1 e hc =>
      simp only [Forward, hc] at hf
      cases l with
      | adjust t =>
        simp [cstep] at hc
        obtain ⟨rfl, rfl⟩ := hc
        have hle : c.st.now ≤ t := hf.1
        obtain ⟨⟨ls', h1⟩, h2⟩ := ih hf.2 hx (by simp only; omega)
        refine ⟨⟨List.replicate (t - c.st.now) .tick ++ ls', ?_⟩, h2⟩
        rw [execFrom_append, exec_ticks]
        have : c.st.now + (t - c.st.now) = t := by omega
        simpa [this] using h1
      | run l =>
        simp only [cstep] at hc
        split at hc
        · simp at hc
        · next s' e' hst =>
          simp at hc
          obtain ⟨rfl, rfl⟩ := hc
          obtain ⟨⟨ls', h1⟩, h2⟩ := ih hf.2 hx (by
            rcases step_effect hst with ⟨n, lim, b, rfl, _, _, _, hs, hn⟩ | ⟨hne, _, hs, hn, _⟩
            · simp [hs, hn]; omega
            · cases l <;> simp_all <;> omega)
          exact ⟨⟨l :: ls', by simp only [execFrom, hst]; exact h1⟩, h2⟩
    · simp at hx

/-- C117.  If the clock is never set backwards, a trial starts only while less time than the limit has passed since the call, and what happens
is what can happen in a run in which the clock is not set at all, so that C01 to C07 hold. -/
theorem c117_forward_partial (n : Nat) (ls : List CLabel) (hf : Forward { st := init n, real := 0, realStart := 0 } ls) (c : CSt) (h : List Event)
    (hx : cexec n ls = some (c, h)) :
    (∃ ls', exec n ls' = some (c.st, h)) ∧
    ∀ l c' i L, cstep c l = some (c', some (.started i)) → c.st.limit = some L → c.real < c.realStart + L := by
  obtain ⟨h1, h2⟩ := forward_run hf hx (by simp [init])
  refine ⟨h1, fun l c' i L hs hL => ?_⟩
  cases l with
  | adjust t => simp [cstep] at hs
  | run l =>
    simp only [cstep] at hs
    split at hs
    · simp at hs
    · next s' e' hst =>
      simp at hs
      obtain ⟨_, rfl⟩ := hs
      rcases step_effect hst with ⟨n, lim, b, _, he, _⟩ | ⟨_, _, _, _, ⟨i, _, hw, _⟩ | ⟨hn, _, _⟩⟩
      · simp at he
      · unfold St.workLeft at hw
        split at hw
        · simp at hw
        · split at hw
          · simp at hw
          · next he => simp [St.expired, hL] at he; omega
      · exact absurd rfl (hn i)

/-! ## What goes wrong if the clock is set -/

theorem cexec_ticks (c : CSt) (h : List Event) (k : Nat) (ls : List CLabel) :
    cexecFrom c h (List.replicate k (.run .tick) ++ ls) = cexecFrom { c with st := { c.st with now := c.st.now + k }, real := c.real + k } h ls := by
  induction k generalizing c with
  | zero => rfl
  | succ k ih =>
    simp only [List.replicate_succ, List.cons_append, cexecFrom, cstep, step]
    rw [Option.toList_none, List.nil_append, ih]
    simp [Nat.add_assoc, Nat.add_comm 1 k]

/-- The worker has gone to sleep, then `run_trials(1, 1, blocking)` wakes it. -/
def wakeUp : List CLabel := List.replicate 4 (.run (.worker 0)) ++ [.run (.call 1 (some 1) true), .run .client]

/-- The state then. -/
def woken : CSt where
  st := ⟨[.woken], .joinWant, none, true, 0, 1, 0, 0, some 1, 0⟩
  real := 0
  realStart := 0

/-- C117 is false.  With a limit of 1 a trial can start after any time `T`, if the clock is set back once. -/
theorem c117_late_false (T : Nat) :
    ∃ c h c', cexec 1 (wakeUp ++ (List.replicate T (.run .tick) ++ [.adjust 0, .run (.worker 0), .run (.worker 0)])) = some (c, h) ∧
      c.st.limit = some 1 ∧ c.real = c.realStart + T ∧ cstep c (.run (.worker 0)) = some (c', some (.started 0)) := by
  have e : ∀ ls, cexec 1 (wakeUp ++ ls) = cexecFrom woken [.called 1 (some 1)] ls := fun _ => rfl
  rw [e, cexec_ticks]
  refine ⟨_, _, _, rfl, rfl, ?_, rfl⟩
  simp [woken]

/-- C117 is false.  If the clock is set back after a blocking `run_trials` has returned at its deadline, trials can start although the call has
returned and no other has been made; no spurious wake-up is needed. -/
theorem c117_after_return_false : ∃ c h, cexec 2 (List.replicate 4 (.run (.worker 0)) ++ List.replicate 4 (.run (.worker 1)) ++
      [.run (.call 5 (some 1) true), .run .tick, .run .client, .run .client, .run .client, .adjust 0] ++
      List.replicate 3 (.run (.worker 0))) = some (c, h) ∧ h = [.started 0, .joined, .called 5 (some 1)] := by
  refine ⟨_, _, rfl, ?_⟩
  decide

/-- C117 is false.  If the clock is set forwards right after the call, it returns without a single trial although no time has passed. -/
theorem c117_early_false : ∃ c h, cexec 1 (List.replicate 4 (.run (.worker 0)) ++
      [.run (.call 5 (some 3600) true), .adjust 3600, .run .client, .run .client, .run .client]) = some (c, h) ∧
      h = [.joined, .called 5 (some 3600)] ∧ c.real = c.realStart := by
  refine ⟨_, _, rfl, ?_⟩
  decide

/-- A run without limit in which the clock is set back and a trial is made. -/
example : ∃ ls' s', exec 1 ls' = some (s', [.started 0, .called 1 none]) := by
  obtain ⟨ls', s', h1, _⟩ := c117_no_limit 1 (List.replicate 4 (.run (.worker 0)) ++ [.run .tick, .run (.call 1 none true), .run .client, .adjust 0] ++
    List.replicate 3 (.run (.worker 0))) (by decide) _ [.started 0, .called 1 none] rfl
  exact ⟨ls', s', h1⟩

/-- A run in which the clock is set forwards and a trial is made within the limit. -/
example : Forward { st := init 1, real := 0, realStart := 0 } (List.replicate 4 (.run (.worker 0)) ++
    [.run (.call 1 (some 10) true), .run .client, .adjust 5] ++ List.replicate 3 (.run (.worker 0))) := by
  simp [Forward, cstep, step, stepWorker, stepClient, init, St.setW, St.notifyAll, St.workLeft, St.expired, WPc.notify, CPc.notify, List.replicate]

end Verif.Pool
