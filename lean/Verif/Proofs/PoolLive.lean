import Verif.Proofs.Pool

/-! # Progress: a measure that every step of the program decreases, and absence of stuck states -/

namespace Verif.Pool

set_option linter.unusedSimpArgs false

/-- Weight of a worker position; `K` pays for the wake-ups caused by one `notify_all`. -/
def WPc.wt (K : Nat) : WPc → Nat
  | .waiting => 0
  | .exited => 0
  | .chk2 => 1
  | .afterWait => 2
  | .woken => 3
  | .chk1 => 2 + K
  | .head => 3 + K
  | .wantLock => 4 + K
  | .trial => 5 + K

def CPc.wt (K : Nat) : CPc → Nat
  | .idle => 0
  | .dead => 0
  | .joinWait => 0
  | .joinChk => 1
  | .dtorJoin => 1
  | .joinWant => 2
  | .joinWoken => 2
  | .publish _ => 3 + K

def kOf (s : St) : Nat := 3 * s.ws.length + 2

/-- The progress measure. -/
def mu (s : St) : Nat :=
  (s.ws.map (WPc.wt (kOf s))).sum + s.cl.wt (kOf s) + (6 + kOf s) * s.remaining.toNat

theorem sum_notify (K : Nat) (l : List WPc) :
    ((l.map WPc.notify).map (WPc.wt K)).sum ≤ (l.map (WPc.wt K)).sum + 3 * l.length := by
  induction l with
  | nil => simp
  | cons a l ih =>
    simp only [List.map_cons, List.sum_cons, List.length_cons]
    have : (WPc.notify a).wt K ≤ a.wt K + 3 := by cases a <;> simp [WPc.notify, WPc.wt]
    omega

theorem wt_notify_client (K : Nat) (c : CPc) : c.notify.wt K ≤ c.wt K + 2 := by
  cases c <;> simp [CPc.notify, CPc.wt]

theorem mu_setW (s : St) (i : Nat) (p q : WPc) (hp : s.ws[i]? = some p) :
    mu (s.setW i q) + p.wt (kOf s) = mu s + q.wt (kOf s) := by
  have := sum_map_set (WPc.wt (kOf s)) s.ws i p q hp
  have hk : kOf (s.setW i q) = kOf s := by simp [kOf, St.setW]
  have h1 : (s.setW i q).ws = s.ws.set i q := rfl
  have h2 : (s.setW i q).cl = s.cl := rfl
  have h3 : (s.setW i q).remaining = s.remaining := rfl
  simp only [mu, hk, h1, h2, h3]
  omega

theorem mu_notify (s : St) : mu s.notifyAll ≤ mu s + kOf s := by
  have h1 := sum_notify (kOf s) s.ws
  have h2 := wt_notify_client (kOf s) s.cl
  have hk : kOf s.notifyAll = kOf s := by simp [kOf, St.notifyAll]
  simp only [mu, hk]
  simp only [St.notifyAll, kOf] at *
  omega

theorem mu_worker {s i p s' e} (hp : s.ws[i]? = some p) (hs : stepWorker s i p = some (s', e)) : mu s' < mu s := by
  have hw := fun q => mu_setW s i p q hp
  have hlock : ∀ (t : St) o, mu { t with lock := o } = mu t := fun _ _ => rfl
  have hwork : ∀ (t : St) o, mu { t with working := o } = mu t := fun _ _ => rfl
  cases p <;> simp only [stepWorker] at hs
  case wantLock =>
    split at hs
    · simp only [Option.some.injEq, Prod.mk.injEq] at hs
      obtain ⟨rfl, rfl⟩ := hs
      have := hw .head; simp only [WPc.wt] at this
      rw [hlock]; omega
    · simp at hs
  case head =>
    split at hs
    · simp only [Option.some.injEq, Prod.mk.injEq] at hs
      obtain ⟨rfl, rfl⟩ := hs
      have := hw .chk1; simp only [WPc.wt] at this
      rw [hwork]; omega
    · simp only [Option.some.injEq, Prod.mk.injEq] at hs
      obtain ⟨rfl, rfl⟩ := hs
      have := hw .exited; simp only [WPc.wt] at this
      rw [hlock]; omega
  case chk1 =>
    split at hs
    · simp only [Option.some.injEq, Prod.mk.injEq] at hs
      obtain ⟨rfl, rfl⟩ := hs
      have := hw .chk2; simp only [WPc.wt] at this
      omega
    · simp only [Option.some.injEq, Prod.mk.injEq] at hs
      obtain ⟨rfl, rfl⟩ := hs
      have h1 : s.notifyAll.ws[i]? = some .chk1 := by simp [St.notifyAll, hp, WPc.notify]
      have h2 := mu_setW s.notifyAll i _ .chk2 h1
      have h3 := mu_notify s
      have hk : kOf s.notifyAll = kOf s := by simp [kOf, St.notifyAll]
      simp only [WPc.wt, hk] at h2
      omega
  case chk2 =>
    split at hs
    · simp only [Option.some.injEq, Prod.mk.injEq] at hs
      obtain ⟨rfl, rfl⟩ := hs
      rename_i hwl
      have hr : 0 < s.remaining := by
        simp only [St.workLeft] at hwl; split at hwl <;> simp_all
      have := sum_map_set (WPc.wt (kOf s)) s.ws i _ .trial hp
      simp only [mu, kOf, St.setW, List.length_set] at *
      simp only [WPc.wt] at this
      obtain ⟨r, hr'⟩ : ∃ r : Nat, s.remaining = r + 1 := ⟨(s.remaining - 1).toNat, by omega⟩
      have e1 : s.remaining.toNat = r + 1 := by omega
      have e2 : (s.remaining - 1).toNat = r := by omega
      rw [e1, e2, Nat.mul_add]
      omega
    · simp only [Option.some.injEq, Prod.mk.injEq] at hs
      obtain ⟨rfl, rfl⟩ := hs
      have := hw .waiting; simp only [WPc.wt] at this
      rw [hlock]; omega
  case waiting => simp at hs
  case woken =>
    split at hs
    · simp only [Option.some.injEq, Prod.mk.injEq] at hs
      obtain ⟨rfl, rfl⟩ := hs
      have := hw .afterWait; simp only [WPc.wt] at this
      rw [hlock]; omega
    · simp at hs
  case afterWait =>
    split at hs
    · simp only [Option.some.injEq, Prod.mk.injEq] at hs
      obtain ⟨rfl, rfl⟩ := hs
      have := hw .chk2; simp only [WPc.wt] at this
      omega
    · simp only [Option.some.injEq, Prod.mk.injEq] at hs
      obtain ⟨rfl, rfl⟩ := hs
      have := hw .exited; simp only [WPc.wt] at this
      rw [hlock]; omega
  case trial =>
    simp only [Option.some.injEq, Prod.mk.injEq] at hs
    obtain ⟨rfl, rfl⟩ := hs
    have := hw .wantLock; simp only [WPc.wt] at this
    omega
  case exited => simp at hs

theorem mu_client {s s' e} (hs : stepClient s = some (s', e)) : mu s' < mu s := by
  unfold stepClient at hs
  split at hs
  · simp at hs
  · rename_i b hcl
    simp only [Option.some.injEq, Prod.mk.injEq] at hs
    obtain ⟨rfl, rfl⟩ := hs
    have h1 := sum_notify (kOf s) s.ws
    simp only [mu, kOf, St.notifyAll, List.length_map, hcl] at *
    cases b <;> simp only [CPc.wt, if_true, if_false, Bool.false_eq_true] <;> omega
  all_goals
    try split at hs
    all_goals first
      | (simp only [Option.some.injEq, Prod.mk.injEq] at hs
         obtain ⟨rfl, rfl⟩ := hs
         simp only [mu, kOf, *, CPc.wt]; omega)
      | (simp at hs; done)

/-- Every step of the program itself decreases the measure. -/
theorem mu_progress {s l s' e} (hl : l.isProgress = true) (hs : step s l = some (s', e)) : mu s' < mu s := by
  cases l <;> simp [Label.isProgress] at hl
  · simp only [step] at hs
    split at hs
    · exact mu_worker ‹_› hs
    · simp at hs
  · exact mu_client hs

/-- Other steps, as long as the client is inside a call, increase it only for spurious wake-ups, by at most 3. -/
theorem mu_other {s l s' e} (hl : l.isProgress = false) (hc : s.cl ≠ .idle) (hs : step s l = some (s', e)) :
    mu s' ≤ mu s + 3 * l.isSpurious.toNat := by
  cases l <;> simp [Label.isProgress] at hl <;> simp only [step] at hs
  · simp only [Option.some.injEq, Prod.mk.injEq] at hs
    obtain ⟨rfl, rfl⟩ := hs; exact Nat.le_add_right _ _
  · split at hs
    · simp only [Option.some.injEq, Prod.mk.injEq] at hs
      obtain ⟨rfl, rfl⟩ := hs; exact Nat.le_add_right _ _
    · simp at hs
  · split at hs
    · rename_i hp
      simp only [Option.some.injEq, Prod.mk.injEq] at hs
      obtain ⟨rfl, rfl⟩ := hs
      have := mu_setW s _ _ .woken hp
      simp only [WPc.wt] at this
      simp [Label.isSpurious]; omega
    · simp at hs
  · split at hs
    · rename_i hcl
      simp only [Option.some.injEq, Prod.mk.injEq] at hs
      obtain ⟨rfl, rfl⟩ := hs
      simp only [mu, kOf, hcl, CPc.wt, Label.isSpurious, Bool.toNat_true]; omega
    · simp at hs
  all_goals simp [hc] at hs

/-- A call in progress is never stuck unless the time limit has expired: some thread can take a step. -/
theorem not_stuck_busy {n s h} (H : Inv n s h) (hn : 0 < n) (hb : s.cl.busy = true) (he : s.expired = false) :
    ∃ l r, l.isProgress = true ∧ step s l = some r := by
  obtain ⟨len, lockW, lockB, lockC, aliveC, work, clock, rem, rem0, trial, bal, sett, exAlive, deadPc, sleepW, sleepC, env⟩ := H
  have hal : s.alive = true := by rw [aliveC]; cases hcl : s.cl <;> simp_all [CPc.busy]
  rcases hlock : s.lock with _ | (i | _)
  · -- lock free
    by_cases hall : ∀ i, i < n → s.ws[i]? = some WPc.waiting
    · -- every worker sleeps
      rcases hcl : s.cl with _ | b | _ | _ | _ | _ | _ | _ <;> simp [hcl, CPc.busy] at hb
      · exact ⟨.client, _, rfl, by simp [step, stepClient, hcl]; rfl⟩
      · exact ⟨.client, _, rfl, by simp [step, stepClient, hcl, hlock]; rfl⟩
      · simp [hcl, hlock] at lockC
      · exfalso
        have hw := sleepW 0 (hall 0 hn)
        simp [hcl] at hw
        have hz : s.ws.countP WPc.counted = 0 := by
          rw [List.countP_eq_zero]
          intro a ha
          obtain ⟨i, hi, rfl⟩ := List.mem_iff_getElem.1 ha
          have := hall i (len ▸ hi)
          rw [List.getElem?_eq_getElem hi] at this
          simp only [Option.some.injEq] at this
          simp [this, WPc.counted]
        have := work hal
        rcases sleepC hcl with h1 | h1 | ⟨i, h1⟩ | h1
        · simp [h1] at hw
        · omega
        · have : i < n := by rw [← len]; exact (List.getElem?_eq_some_iff.1 h1).1
          simp [hall i this] at h1
        · simp [h1] at he
      · exact ⟨.client, _, rfl, by simp [step, stepClient, hcl, hlock]; rfl⟩
    · -- some worker is not asleep
      obtain ⟨i, hi⟩ := Classical.not_forall.1 hall
      obtain ⟨hi, hw⟩ := Classical.not_imp.1 hi
      have hlt : i < s.ws.length := len ▸ hi
      have hp := List.getElem?_eq_getElem hlt
      have hx := exAlive i
      have hL := lockW i _ hp
      rcases hq : s.ws[i] <;> simp [hq, hlock, WPc.holds] at hp hL hw
      · exact ⟨.worker i, _, rfl, by simp only [step, hp, stepWorker, hlock]; rfl⟩
      · simp_all
      · exact ⟨.worker i, _, rfl, by simp only [step, hp, stepWorker, hlock]; rfl⟩
      · exact ⟨.worker i, _, rfl, by simp only [step, hp, stepWorker]; rfl⟩
      · simp_all
  · -- a worker holds the lock
    have hlt : i < s.ws.length := len ▸ lockB i hlock
    have hp := List.getElem?_eq_getElem hlt
    have hL := (lockW i _ hp).2 hlock
    rcases hq : s.ws[i] <;> simp [hq, WPc.holds] at hp hL
    · refine ⟨.worker i, ?_⟩
      cases ha : s.alive <;> simp [step, hp, stepWorker, ha, Label.isProgress]
    · refine ⟨.worker i, ?_⟩
      cases ha : s.workLeft <;> simp [step, hp, stepWorker, ha, Label.isProgress]
    · refine ⟨.worker i, ?_⟩
      cases ha : s.workLeft <;> simp [step, hp, stepWorker, ha, Label.isProgress]
    · refine ⟨.worker i, ?_⟩
      cases ha : s.alive <;> simp [step, hp, stepWorker, ha, Label.isProgress]
  · -- the client holds the lock
    have hcl := lockC.2 hlock
    refine ⟨.client, ?_⟩
    simp only [step, stepClient, hcl, Label.isProgress]
    split <;> simp

/-- A destructor in progress is never stuck. -/
theorem not_stuck_dtor {n s h} (H : Inv n s h) (hb : s.cl = .dtorJoin) :
    ∃ l r, l.isProgress = true ∧ step s l = some r := by
  obtain ⟨len, lockW, lockB, lockC, aliveC, work, clock, rem, rem0, trial, bal, sett, exAlive, deadPc, sleepW, sleepC, env⟩ := H
  have hal : s.alive = false := by
    cases ha : s.alive
    · rfl
    · exact absurd hb (aliveC.1 ha).1
  rcases hlock : s.lock with _ | (i | _)
  · by_cases hall : ∀ i, i < n → s.ws[i]? = some WPc.exited
    · refine ⟨.client, ?_⟩
      have : s.ws.all (· == .exited) = true := by
        rw [List.all_eq_true]
        intro a ha
        obtain ⟨i, hi, rfl⟩ := List.mem_iff_getElem.1 ha
        have := hall i (len ▸ hi)
        rw [List.getElem?_eq_getElem hi] at this
        simpa using this
      simp only [step, stepClient, hb, this, Label.isProgress]
      simp
    · obtain ⟨i, hi⟩ := Classical.not_forall.1 hall
      obtain ⟨hi, hw⟩ := Classical.not_imp.1 hi
      have hlt : i < s.ws.length := len ▸ hi
      have hp := List.getElem?_eq_getElem hlt
      have hL := lockW i _ hp
      have hd := deadPc hal i
      rcases hq : s.ws[i] <;> simp [hq, hlock, WPc.holds] at hp hL hw
      · exact ⟨.worker i, _, rfl, by simp only [step, hp, stepWorker, hlock]; rfl⟩
      · simp_all
      · exact ⟨.worker i, _, rfl, by simp only [step, hp, stepWorker, hlock]; rfl⟩
      · exact ⟨.worker i, _, rfl, by simp only [step, hp, stepWorker]; rfl⟩
      · simp_all
  · have hlt : i < s.ws.length := len ▸ lockB i hlock
    have hp := List.getElem?_eq_getElem hlt
    have hL := (lockW i _ hp).2 hlock
    have hd := deadPc hal i
    rcases hq : s.ws[i] <;> simp [hq, WPc.holds] at hp hL
    · refine ⟨.worker i, ?_⟩
      simp [step, hp, stepWorker, hal, Label.isProgress]
    · simp_all
    · simp_all
    · refine ⟨.worker i, ?_⟩
      simp [step, hp, stepWorker, hal, Label.isProgress]
  · have hcl := lockC.2 hlock
    simp [hb] at hcl

/-- Accounting along a schedule during which the client stays inside a call. -/
theorem mu_run {s h ls s' h'} (hx : execFrom s h ls = some (s', h'))
    (hin : ∀ ls1 ls2 s1 h1, ls = ls1 ++ ls2 → execFrom s h ls1 = some (s1, h1) → s1.cl ≠ .idle) :
    mu s' + ls.countP Label.isProgress ≤ mu s + 3 * ls.countP Label.isSpurious := by
  induction ls generalizing s h with
  | nil => simp [execFrom] at hx; obtain ⟨rfl, rfl⟩ := hx; simp
  | cons l ls ih =>
    have h0 : s.cl ≠ .idle := hin [] (l :: ls) s h rfl rfl
    simp only [execFrom] at hx
    split at hx
    · rename_i s1 e hst
      have := ih hx (by
        intro ls1 ls2 t g hls hg
        exact hin (l :: ls1) ls2 t g (by simp [hls]) (by simp [execFrom, hst, hg]))
      cases hp : l.isProgress
      · have h1 := mu_other hp h0 hst
        cases hq : l.isSpurious <;> simp [List.countP_cons, hp, hq] at * <;> omega
      · have h1 := mu_progress hp hst
        have hq : l.isSpurious = false := by cases l <;> simp_all [Label.isProgress, Label.isSpurious]
        simp [List.countP_cons, hp, hq] at *
        omega
    · simp at hx

/-- While the destructor runs, the client never becomes idle again. -/
theorem cl_dtor_step {s l s' e} (hc : s.cl = .dtorJoin ∨ s.cl = .dead) (hs : step s l = some (s', e)) :
    s'.cl = .dtorJoin ∨ s'.cl = .dead := by
  cases l <;> simp only [step] at hs
  case tick => simp at hs; obtain ⟨rfl, rfl⟩ := hs; exact hc
  case worker i =>
    split at hs
    · rename_i p hp
      have hN : s.notifyAll.cl = s.cl := by simp [St.notifyAll]; rcases hc with hc | hc <;> simp [hc, CPc.notify]
      cases p <;> simp only [stepWorker] at hs <;> (try split at hs) <;>
        first
        | (simp only [Option.some.injEq, Prod.mk.injEq] at hs; obtain ⟨rfl, rfl⟩ := hs
           first
           | exact hc
           | (simp only [St.setW]; rw [hN]; exact hc))
        | (simp at hs; done)
    · simp at hs
  case look i => split at hs <;> simp at hs; obtain ⟨rfl, rfl⟩ := hs; exact hc
  case spuriousW i => split at hs <;> simp at hs; obtain ⟨rfl, rfl⟩ := hs; exact hc
  case spuriousC => rcases hc with hc | hc <;> simp [hc] at hs
  case client =>
    rcases hc with hc | hc <;> simp [stepClient, hc] at hs
    obtain ⟨_, rfl, rfl⟩ := hs; simp
  all_goals rcases hc with hc | hc <;> simp [hc] at hs

theorem cl_dtor_run {s h ls s' h'} (hc : s.cl = .dtorJoin ∨ s.cl = .dead)
    (hx : execFrom s h ls = some (s', h')) : s'.cl = .dtorJoin ∨ s'.cl = .dead := by
  induction ls generalizing s h with
  | nil => simp [execFrom] at hx; obtain ⟨rfl, rfl⟩ := hx; exact hc
  | cons l ls ih =>
    simp only [execFrom] at hx
    split at hx
    · exact ih (cl_dtor_step hc ‹_›) hx
    · simp at hx

/-- Facts about the moments at which trials start. -/
structure StartInv (s : St) (h : List Event) : Prop where
  dead : Event.dtorBegan ∈ h → s.alive = false
  starts : ∀ a i b, h = a ++ .started i :: b → settled b = false ∧ Event.dtorBegan ∉ b
  destroyed : Event.destroyed ∈ h → ∀ w ∈ s.ws, w = .exited

theorem step_facts {s l s' e} (hs : step s l = some (s', e)) :
    (∀ i, e = some (.started i) → s.workLeft = true ∧ s.ws[i]? = some .chk2) ∧
    (e = some .dtorBegan → s'.alive = false) ∧
    (s.alive = false → s'.alive = false) ∧
    (e = some .destroyed → (∀ w ∈ s.ws, w = .exited)) ∧
    ((∀ w ∈ s.ws, w = .exited) → ∀ w ∈ s'.ws, w = .exited) := by
  cases l <;> simp only [step] at hs
  case tick => simp at hs; obtain ⟨rfl, rfl⟩ := hs; simp
  case worker i =>
    split at hs
    · rename_i p hp
      have hmem := List.mem_of_getElem? hp
      cases p <;> simp only [stepWorker] at hs <;> (try split at hs) <;>
        first
        | (simp only [Option.some.injEq, Prod.mk.injEq] at hs; obtain ⟨rfl, rfl⟩ := hs
           simp_all [St.setW, St.notifyAll]
           try (intro hall; have := hall _ hmem; simp at this))
        | (simp at hs; done)
    · simp at hs
  case look i => split at hs <;> simp at hs; obtain ⟨rfl, rfl⟩ := hs; simp
  case spuriousW i =>
    split at hs <;> simp at hs; obtain ⟨rfl, rfl⟩ := hs
    rename_i hp
    have hmem := List.mem_of_getElem? hp
    simp [St.setW]
    intro hall; have := hall _ hmem; simp at this
  case spuriousC => split at hs <;> simp at hs; obtain ⟨rfl, rfl⟩ := hs; simp
  case client =>
    unfold stepClient at hs
    split at hs <;> (try split at hs) <;>
      first
      | (simp only [Option.some.injEq, Prod.mk.injEq] at hs; obtain ⟨rfl, rfl⟩ := hs
         simp_all [St.notifyAll, WPc.notify]
         done)
      | (simp only [Option.some.injEq, Prod.mk.injEq] at hs; obtain ⟨rfl, rfl⟩ := hs
         simp [St.notifyAll]
         intro hall w hw; rw [hall w hw]; rfl)
      | (rename_i hall
         simp only [Option.some.injEq, Prod.mk.injEq] at hs; obtain ⟨rfl, rfl⟩ := hs
         simp only [List.all_eq_true, beq_iff_eq] at hall
         exact ⟨by simp, by simp, by simp, fun _ => hall, fun _ => hall⟩)
      | (simp at hs; done)
  case call => split at hs <;> simp at hs; obtain ⟨rfl, rfl⟩ := hs; simp
  case join => split at hs <;> simp at hs; obtain ⟨rfl, rfl⟩ := hs; simp
  case swap =>
    split at hs
    · split at hs <;> simp at hs <;> obtain ⟨rfl, rfl⟩ := hs <;> simp
    · simp at hs
  case dtor =>
    split at hs <;> simp at hs; obtain ⟨rfl, rfl⟩ := hs
    simp [St.notifyAll]
    intro hall w hw; rw [hall w hw]; rfl

theorem startInv_step {n s h l s' e} (H : Inv n s h) (S : StartInv s h) (hs : step s l = some (s', e)) :
    StartInv s' (e.toList ++ h) := by
  obtain ⟨f1, f2, f3, f4, f5⟩ := step_facts hs
  obtain ⟨d, st, de⟩ := S
  cases e with
  | none =>
    simp only [Option.toList, List.nil_append]
    exact ⟨fun x => f3 (d x), st, fun x => f5 (de x)⟩
  | some e =>
    simp only [Option.toList, List.cons_append, List.nil_append]
    refine ⟨?_, ?_, ?_⟩
    · intro x
      rcases List.mem_cons.1 x with x | x
      · exact f2 (by rw [x])
      · exact f3 (d x)
    · intro a i b hab
      cases a with
      | nil =>
        simp at hab
        obtain ⟨rfl, rfl⟩ := hab
        have hw := f1 i rfl
        refine ⟨?_, ?_⟩
        · cases hse : settled h
          · rfl
          · have := (H.sett hse).1; simp [hw.1] at this
        · intro hd
          exact (H.deadPc (d hd) i).2.2 hw.2
      | cons a0 a =>
        simp at hab
        exact st a i b hab.2
    · intro x
      rcases List.mem_cons.1 x with x | x
      · exact f5 (f4 (by rw [x]))
      · exact f5 (de x)

theorem startInv_exec {n ls s h} (hs : exec n ls = some (s, h)) : StartInv s h := by
  have : ∀ ls t g, Inv n t g → StartInv t g → execFrom t g ls = some (s, h) → StartInv s h := by
    intro ls
    induction ls with
    | nil => intro t g _ hS hx; simp [execFrom] at hx; obtain ⟨rfl, rfl⟩ := hx; exact hS
    | cons l ls ih =>
      intro t g hI hS hx
      simp only [execFrom] at hx
      split at hx
      · exact ih _ _ (inv_step hI ‹_›) (startInv_step hI hS ‹_›) hx
      · simp at hx
  exact this ls (init n) [] (inv_init n) ⟨by simp, by simp, by simp⟩ hs

theorem execFrom_append {s h l1 l2} :
    execFrom s h (l1 ++ l2) = (execFrom s h l1).bind (fun r => execFrom r.1 r.2 l2) := by
  induction l1 generalizing s h with
  | nil => simp [execFrom]
  | cons a l1 ih =>
    simp only [List.cons_append, execFrom]
    split
    · exact ih
    · rfl

theorem busy_step {s l s' e} (hb : s.cl.busy = true) (hs : step s l = some (s', e)) :
    (s'.cl.busy = true ∨ s'.cl = .idle) ∧ s'.limit = s.limit := by
  have hne : s.cl ≠ .idle := by intro h; simp [h, CPc.busy] at hb
  have hN : s.cl.notify.busy = true := by cases hc : s.cl <;> simp [hc, CPc.notify, CPc.busy] at hb ⊢
  cases l <;> simp only [step] at hs
  case tick => simp at hs; obtain ⟨rfl, rfl⟩ := hs; simp [hb]
  case worker i =>
    split at hs
    · rename_i p hp
      cases p <;> simp only [stepWorker] at hs <;> (try split at hs) <;>
        first
        | (simp only [Option.some.injEq, Prod.mk.injEq] at hs; obtain ⟨rfl, rfl⟩ := hs
           simp [St.setW, St.notifyAll, hb, hN])
        | (simp at hs; done)
    · simp at hs
  case look i => split at hs <;> simp at hs; obtain ⟨rfl, rfl⟩ := hs; simp [hb]
  case spuriousW i => split at hs <;> simp at hs; obtain ⟨rfl, rfl⟩ := hs; simp [St.setW, hb]
  case spuriousC => split at hs <;> simp at hs; obtain ⟨rfl, rfl⟩ := hs; simp [CPc.busy]
  case client =>
    unfold stepClient at hs
    split at hs
    case h_2 b hcl =>
      simp only [Option.some.injEq, Prod.mk.injEq] at hs; obtain ⟨rfl, rfl⟩ := hs
      cases b <;> simp [CPc.busy, St.notifyAll]
    case h_7 hcl => simp [hcl, CPc.busy] at hb
    all_goals
      try split at hs
      all_goals first
        | (simp only [Option.some.injEq, Prod.mk.injEq] at hs; obtain ⟨rfl, rfl⟩ := hs
           simp [CPc.busy])
        | (simp at hs; done)
  all_goals simp [hne] at hs

end Verif.Pool
