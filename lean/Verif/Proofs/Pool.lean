import Verif.Spec.Pool

/-! # Helper lemmas and the inductive invariant of the pool -/

namespace Verif.Pool

set_option linter.unusedSimpArgs false

theorem sum_map_set {α} (f : α → Nat) (l : List α) (i : Nat) (p q : α) (h : l[i]? = some p) :
    ((l.set i q).map f).sum + f p = (l.map f).sum + f q := by
  induction l generalizing i with
  | nil => simp at h
  | cons a l ih =>
    cases i with
    | zero => simp at h; subst h; simp; omega
    | succ i => simp at h; have := ih i h; simp only [List.set_cons_succ, List.map_cons, List.sum_cons]; omega

theorem countP_set' {α} (f : α → Bool) (l : List α) (i : Nat) (p q : α) (h : l[i]? = some p) :
    (l.set i q).countP f + (f p).toNat = l.countP f + (f q).toNat := by
  induction l generalizing i with
  | nil => simp at h
  | cons a l ih =>
    cases i with
    | zero =>
      simp at h; subst h; simp only [List.set_cons_zero, List.countP_cons]
      cases f a <;> cases f q <;> simp <;> omega
    | succ i =>
      simp at h; have := ih i h
      simp only [List.set_cons_succ, List.countP_cons]; omega

/-- Positions counted by `num_threads_working`. -/
def WPc.counted : WPc → Bool
  | .wantLock | .head | .trial => true
  | _ => false

def WPc.isTrial : WPc → Bool
  | .trial => true
  | _ => false

theorem countP_map_notify (f : WPc → Bool) (hf : f .woken = f .waiting) (l : List WPc) :
    (l.map WPc.notify).countP f = l.countP f := by
  rw [List.countP_map]
  congr 1
  funext p
  cases p <;> simp [WPc.notify, hf]

theorem getElem?_map_notify (l : List WPc) (i : Nat) : (l.map WPc.notify)[i]? = (l[i]?).map WPc.notify := by
  simp

theorem notify_get (l : List WPc) (j : Nat) :
    ((l.map WPc.notify)[j]? = none ↔ l[j]? = none) ∧
    ((l.map WPc.notify)[j]? ≠ some .waiting) ∧
    ((l.map WPc.notify)[j]? = some .woken ↔ l[j]? = some .waiting ∨ l[j]? = some .woken) ∧
    (∀ p, p ≠ .woken → p ≠ .waiting → ((l.map WPc.notify)[j]? = some p ↔ l[j]? = some p)) := by
  rw [getElem?_map_notify]
  rcases l[j]? with _ | q
  · simp
  · cases q <;> simp [WPc.notify]
    all_goals grind

@[grind =] theorem since_cons (e : Event) (h) :
    numStarted (sinceCall (e :: h)) = if e.isCall then 0 else numStarted (sinceCall h) + e.isStart.toNat := by
  cases e <;> simp [numStarted, sinceCall, Event.isCall, Event.isStart, List.countP_cons]

@[grind =] theorem ns_cons (e : Event) (h) : numStarted (e :: h) = numStarted h + e.isStart.toNat := by
  cases e <;> simp [numStarted, Event.isStart, List.countP_cons]

@[grind =] theorem nf_cons (e : Event) (h) : numFinished (e :: h) = numFinished h + e.isFinish.toNat := by
  cases e <;> simp [numFinished, Event.isFinish, List.countP_cons]

@[grind =] theorem budget_cons (e : Event) (h) :
    budget (e :: h) = match e with | .called n _ => n | _ => budget h := by cases e <;> rfl

@[grind =] theorem inTrial_cons (i) (e : Event) (h) :
    inTrial i (e :: h) = match e with
      | .started j => if j = i then true else inTrial i h
      | .finished j => if j = i then false else inTrial i h
      | _ => inTrial i h := by cases e <;> rfl

@[grind =] theorem seenBy_cons (i) (e : Event) (h) :
    seenBy i (e :: h) = match e with
      | .started j => if j = i then [] else seenBy i h
      | .observed j e => if j = i then e :: seenBy i h else seenBy i h
      | _ => seenBy i h := by cases e <;> rfl

@[grind =] theorem settled_cons (e : Event) (h) :
    settled (e :: h) = match e with | .called _ _ => false | .joined => true | _ => settled h := by cases e <;> rfl

@[grind =] theorem swaps_cons (e : Event) (h) :
    swapsOnlyWhenSettled (e :: h) = match e with
      | .swapped _ => settled h && swapsOnlyWhenSettled h
      | _ => swapsOnlyWhenSettled h := by cases e <;> rfl

/-- The invariant relating the pool state to the history of events. -/
structure Inv (n : Nat) (s : St) (h : List Event) : Prop where
  len : s.ws.length = n
  lockW : ∀ (i : Nat) p, s.ws[i]? = some p → (p.holds = true ↔ s.lock = some (.worker i))
  lockB : ∀ i : Nat, s.lock = some (.worker i) → i < n
  lockC : s.cl = .joinChk ↔ s.lock = some .client
  aliveC : s.alive = true ↔ (s.cl ≠ .dtorJoin ∧ s.cl ≠ .dead)
  work : s.alive = true → s.working = s.ws.countP WPc.counted
  clock : s.start ≤ s.now
  rem : s.remaining + numStarted (sinceCall h) = budget h
  rem0 : numStarted (sinceCall h) = 0 ∨ 0 ≤ s.remaining
  trial : ∀ i : Nat, s.ws[i]? = some WPc.trial ↔ inTrial i h = true
  bal : numStarted h = numFinished h + s.ws.countP WPc.isTrial
  sett : settled h = true → s.workLeft = false ∧ ∀ i : Nat, s.ws[i]? ≠ some WPc.trial
  exAlive : ∀ i : Nat, s.ws[i]? = some WPc.exited → s.alive = false
  deadPc : s.alive = false → ∀ i : Nat, s.ws[i]? ≠ some WPc.waiting ∧ s.ws[i]? ≠ some WPc.chk1 ∧ s.ws[i]? ≠ some WPc.chk2
  sleepW : ∀ i : Nat, s.ws[i]? = some WPc.waiting → s.workLeft = false ∨ ∃ b, s.cl = .publish b
  sleepC : s.cl = .joinWait → s.workLeft = true ∨ 0 < s.working ∨ (∃ i : Nat, s.ws[i]? = some WPc.chk1) ∨ s.expired = true
  env : swapsOnlyWhenSettled h = true → ∀ (i e : Nat), inTrial i h = true → e ∈ seenBy i h → e = s.env


theorem inv_init (n : Nat) : Inv n (init n) [] := by
  constructor <;> simp_all [init, WPc.holds, numStarted, numFinished, sinceCall, budget, inTrial, settled,
    St.workLeft, List.getElem?_replicate, swapsOnlyWhenSettled, WPc.counted, WPc.isTrial, List.countP_replicate]
  all_goals grind [WPc.holds]

theorem inv_tick {n s h} (H : Inv n s h) : Inv n { s with now := s.now + 1 } h := by
  obtain ⟨len, lockW, lockB, lockC, aliveC, work, clock, rem, rem0, trial, bal, sett, exAlive, deadPc, sleepW, sleepC, env⟩ := H
  constructor <;> simp only [] <;> try assumption
  · omega
  · grind [St.workLeft, St.expired]
  · grind [St.workLeft, St.expired]
  · grind [St.workLeft, St.expired]

theorem inv_notify {n s h} (H : Inv n s h) : Inv n s.notifyAll h := by
  obtain ⟨len, lockW, lockB, lockC, aliveC, work, clock, rem, rem0, trial, bal, sett, exAlive, deadPc, sleepW, sleepC, env⟩ := H
  have hn := notify_get s.ws
  have hc : s.cl.notify ≠ .joinWait := by cases s.cl <;> simp [CPc.notify]
  have hc' : ∀ c, c ≠ .joinWait → c ≠ .joinWoken → (s.cl.notify = c ↔ s.cl = c) := by
    intro c; cases c <;> cases s.cl <;> simp [CPc.notify]
  have hwl : s.notifyAll.workLeft = s.workLeft := rfl
  constructor <;> simp only [St.notifyAll, countP_map_notify _ (show WPc.counted .woken = WPc.counted .waiting from rfl),
    countP_map_notify _ (show WPc.isTrial .woken = WPc.isTrial .waiting from rfl)] <;> try assumption
  · simpa using len
  · intro i p hp
    have hni := hn i
    cases p <;> grind [WPc.holds]
  · rw [hc' _ (by simp) (by simp)]; exact lockC
  · rw [aliveC, ne_eq, ne_eq, ne_eq, ne_eq, hc' _ (by simp) (by simp), hc' _ (by simp) (by simp)]
  · grind
  · exact fun hh => ⟨(sett hh).1, by grind⟩
  · grind
  · grind
  · grind
  · grind

theorem inv_wantLock {n s h i s' e} (H : Inv n s h) (hp : s.ws[i]? = some .wantLock)
    (hs : stepWorker s i .wantLock = some (s', e)) : Inv n s' (e.toList ++ h) := by
  obtain ⟨len, lockW, lockB, lockC, aliveC, work, clock, rem, rem0, trial, bal, sett, exAlive, deadPc, sleepW, sleepC, env⟩ := H
  simp only [stepWorker] at hs
  split at hs
  · skip
    simp only [Option.some.injEq, Prod.mk.injEq] at hs
    obtain ⟨rfl, rfl⟩ := hs
    have h1 := countP_set' WPc.counted s.ws i _ .head hp
    have hself : ∀ q, (s.ws.set i q)[i]? = some q := fun q => by
      have := (List.getElem?_eq_some_iff.1 hp).1; simp [this]
    have h2 := countP_set' WPc.isTrial s.ws i _ .head hp
    constructor <;> simp only [St.setW, Option.toList, List.nil_append, List.cons_append] <;> try assumption
    all_goals grind [WPc.holds, WPc.counted, WPc.isTrial, WPc.notify, CPc.notify, St.workLeft, St.expired, Event.isStart, Event.isFinish, Event.isCall]
  · skip
    simp at hs

theorem inv_head {n s h i s' e} (H : Inv n s h) (hp : s.ws[i]? = some .head)
    (hs : stepWorker s i .head = some (s', e)) : Inv n s' (e.toList ++ h) := by
  obtain ⟨len, lockW, lockB, lockC, aliveC, work, clock, rem, rem0, trial, bal, sett, exAlive, deadPc, sleepW, sleepC, env⟩ := H
  simp only [stepWorker] at hs
  split at hs
  · skip
    simp only [Option.some.injEq, Prod.mk.injEq] at hs
    obtain ⟨rfl, rfl⟩ := hs
    have h1 := countP_set' WPc.counted s.ws i _ .chk1 hp
    have hself : ∀ q, (s.ws.set i q)[i]? = some q := fun q => by
      have := (List.getElem?_eq_some_iff.1 hp).1; simp [this]
    have h2 := countP_set' WPc.isTrial s.ws i _ .chk1 hp
    constructor <;> simp only [St.setW, Option.toList, List.nil_append, List.cons_append] <;> try assumption
    all_goals grind [WPc.holds, WPc.counted, WPc.isTrial, WPc.notify, CPc.notify, St.workLeft, St.expired, Event.isStart, Event.isFinish, Event.isCall]
  · skip
    simp only [Option.some.injEq, Prod.mk.injEq] at hs
    obtain ⟨rfl, rfl⟩ := hs
    have h1 := countP_set' WPc.counted s.ws i _ .exited hp
    have hself : ∀ q, (s.ws.set i q)[i]? = some q := fun q => by
      have := (List.getElem?_eq_some_iff.1 hp).1; simp [this]
    have h2 := countP_set' WPc.isTrial s.ws i _ .exited hp
    constructor <;> simp only [St.setW, Option.toList, List.nil_append, List.cons_append] <;> try assumption
    all_goals grind [WPc.holds, WPc.counted, WPc.isTrial, WPc.notify, CPc.notify, St.workLeft, St.expired, Event.isStart, Event.isFinish, Event.isCall]

theorem inv_chk1_set {n s h i} (H : Inv n s h) (hp : s.ws[i]? = some .chk1)
    (hw : s.workLeft = true ∨ s.cl ≠ .joinWait) : Inv n (s.setW i .chk2) h := by
  obtain ⟨len, lockW, lockB, lockC, aliveC, work, clock, rem, rem0, trial, bal, sett, exAlive, deadPc, sleepW, sleepC, env⟩ := H
  have h1 := countP_set' WPc.counted s.ws i _ .chk2 hp
  have hself : ∀ q, (s.ws.set i q)[i]? = some q := fun q => by
    have := (List.getElem?_eq_some_iff.1 hp).1; simp [this]
  have h2 := countP_set' WPc.isTrial s.ws i _ .chk2 hp
  constructor <;> simp only [St.setW] <;> try assumption
  all_goals grind [WPc.holds, WPc.counted, WPc.isTrial, WPc.notify, CPc.notify, St.workLeft, St.expired, Event.isStart, Event.isFinish, Event.isCall]

theorem inv_chk1 {n s h i s' e} (H : Inv n s h) (hp : s.ws[i]? = some .chk1)
    (hs : stepWorker s i .chk1 = some (s', e)) : Inv n s' (e.toList ++ h) := by
  simp only [stepWorker] at hs
  split at hs
  · simp only [Option.some.injEq, Prod.mk.injEq] at hs
    obtain ⟨rfl, rfl⟩ := hs
    exact inv_chk1_set H hp (.inl ‹_›)
  · simp only [Option.some.injEq, Prod.mk.injEq] at hs
    obtain ⟨rfl, rfl⟩ := hs
    refine inv_chk1_set (inv_notify H) (by simp [St.notifyAll, hp, WPc.notify]) (.inr ?_)
    simp only [St.notifyAll]; cases s.cl <;> simp [CPc.notify]

theorem inv_chk2 {n s h i s' e} (H : Inv n s h) (hp : s.ws[i]? = some .chk2)
    (hs : stepWorker s i .chk2 = some (s', e)) : Inv n s' (e.toList ++ h) := by
  obtain ⟨len, lockW, lockB, lockC, aliveC, work, clock, rem, rem0, trial, bal, sett, exAlive, deadPc, sleepW, sleepC, env⟩ := H
  simp only [stepWorker] at hs
  split at hs
  · skip
    simp only [Option.some.injEq, Prod.mk.injEq] at hs
    obtain ⟨rfl, rfl⟩ := hs
    have h1 := countP_set' WPc.counted s.ws i _ .trial hp
    have hself : ∀ q, (s.ws.set i q)[i]? = some q := fun q => by
      have := (List.getElem?_eq_some_iff.1 hp).1; simp [this]
    have h2 := countP_set' WPc.isTrial s.ws i _ .trial hp
    constructor <;> simp only [St.setW, Option.toList, List.nil_append, List.cons_append] <;> try assumption
    all_goals grind [WPc.holds, WPc.counted, WPc.isTrial, WPc.notify, CPc.notify, St.workLeft, St.expired, Event.isStart, Event.isFinish, Event.isCall]
  · skip
    simp only [Option.some.injEq, Prod.mk.injEq] at hs
    obtain ⟨rfl, rfl⟩ := hs
    have h1 := countP_set' WPc.counted s.ws i _ .waiting hp
    have hself : ∀ q, (s.ws.set i q)[i]? = some q := fun q => by
      have := (List.getElem?_eq_some_iff.1 hp).1; simp [this]
    have h2 := countP_set' WPc.isTrial s.ws i _ .waiting hp
    constructor <;> simp only [St.setW, Option.toList, List.nil_append, List.cons_append] <;> try assumption
    all_goals grind [WPc.holds, WPc.counted, WPc.isTrial, WPc.notify, CPc.notify, St.workLeft, St.expired, Event.isStart, Event.isFinish, Event.isCall]

theorem inv_woken {n s h i s' e} (H : Inv n s h) (hp : s.ws[i]? = some .woken)
    (hs : stepWorker s i .woken = some (s', e)) : Inv n s' (e.toList ++ h) := by
  obtain ⟨len, lockW, lockB, lockC, aliveC, work, clock, rem, rem0, trial, bal, sett, exAlive, deadPc, sleepW, sleepC, env⟩ := H
  simp only [stepWorker] at hs
  split at hs
  · skip
    simp only [Option.some.injEq, Prod.mk.injEq] at hs
    obtain ⟨rfl, rfl⟩ := hs
    have h1 := countP_set' WPc.counted s.ws i _ .afterWait hp
    have hself : ∀ q, (s.ws.set i q)[i]? = some q := fun q => by
      have := (List.getElem?_eq_some_iff.1 hp).1; simp [this]
    have h2 := countP_set' WPc.isTrial s.ws i _ .afterWait hp
    constructor <;> simp only [St.setW, Option.toList, List.nil_append, List.cons_append] <;> try assumption
    all_goals grind [WPc.holds, WPc.counted, WPc.isTrial, WPc.notify, CPc.notify, St.workLeft, St.expired, Event.isStart, Event.isFinish, Event.isCall]
  · skip
    simp at hs

theorem inv_afterWait {n s h i s' e} (H : Inv n s h) (hp : s.ws[i]? = some .afterWait)
    (hs : stepWorker s i .afterWait = some (s', e)) : Inv n s' (e.toList ++ h) := by
  obtain ⟨len, lockW, lockB, lockC, aliveC, work, clock, rem, rem0, trial, bal, sett, exAlive, deadPc, sleepW, sleepC, env⟩ := H
  simp only [stepWorker] at hs
  split at hs
  · skip
    simp only [Option.some.injEq, Prod.mk.injEq] at hs
    obtain ⟨rfl, rfl⟩ := hs
    have h1 := countP_set' WPc.counted s.ws i _ .chk2 hp
    have hself : ∀ q, (s.ws.set i q)[i]? = some q := fun q => by
      have := (List.getElem?_eq_some_iff.1 hp).1; simp [this]
    have h2 := countP_set' WPc.isTrial s.ws i _ .chk2 hp
    constructor <;> simp only [St.setW, Option.toList, List.nil_append, List.cons_append] <;> try assumption
    all_goals grind [WPc.holds, WPc.counted, WPc.isTrial, WPc.notify, CPc.notify, St.workLeft, St.expired, Event.isStart, Event.isFinish, Event.isCall]
  · skip
    simp only [Option.some.injEq, Prod.mk.injEq] at hs
    obtain ⟨rfl, rfl⟩ := hs
    have h1 := countP_set' WPc.counted s.ws i _ .exited hp
    have hself : ∀ q, (s.ws.set i q)[i]? = some q := fun q => by
      have := (List.getElem?_eq_some_iff.1 hp).1; simp [this]
    have h2 := countP_set' WPc.isTrial s.ws i _ .exited hp
    constructor <;> simp only [St.setW, Option.toList, List.nil_append, List.cons_append] <;> try assumption
    all_goals grind [WPc.holds, WPc.counted, WPc.isTrial, WPc.notify, CPc.notify, St.workLeft, St.expired, Event.isStart, Event.isFinish, Event.isCall]

theorem inv_trial {n s h i s' e} (H : Inv n s h) (hp : s.ws[i]? = some .trial)
    (hs : stepWorker s i .trial = some (s', e)) : Inv n s' (e.toList ++ h) := by
  obtain ⟨len, lockW, lockB, lockC, aliveC, work, clock, rem, rem0, trial, bal, sett, exAlive, deadPc, sleepW, sleepC, env⟩ := H
  simp only [stepWorker] at hs
  simp only [Option.some.injEq, Prod.mk.injEq] at hs
  obtain ⟨rfl, rfl⟩ := hs
  have h1 := countP_set' WPc.counted s.ws i _ .wantLock hp
  have hself : ∀ q, (s.ws.set i q)[i]? = some q := fun q => by
    have := (List.getElem?_eq_some_iff.1 hp).1; simp [this]
  have h2 := countP_set' WPc.isTrial s.ws i _ .wantLock hp
  constructor <;> simp only [St.setW, Option.toList, List.nil_append, List.cons_append] <;> try assumption
  all_goals grind [WPc.holds, WPc.counted, WPc.isTrial, WPc.notify, CPc.notify, St.workLeft, St.expired, Event.isStart, Event.isFinish, Event.isCall]



theorem inv_client {n s h s' e} (H : Inv n s h) (hs : stepClient s = some (s', e)) : Inv n s' (e.toList ++ h) := by
  unfold stepClient at hs
  split at hs
  case h_2 b hcl =>
    simp only [Option.some.injEq, Prod.mk.injEq] at hs
    obtain ⟨rfl, rfl⟩ := hs
    have hwl : ∀ c, ({s.notifyAll with cl := c} : St).workLeft = s.workLeft := fun _ => rfl
    have hN := (notify_get s.ws)
    have H2 := inv_notify H
    have hc2 : s.notifyAll.cl = .publish b := by simp [St.notifyAll, hcl, CPc.notify]
    have hw2 : ∀ i : Nat, s.notifyAll.ws[i]? ≠ some .waiting := fun i => (hN i).2.1
    generalize s.notifyAll = t at *
    obtain ⟨len, lockW, lockB, lockC, aliveC, work, clock, rem, rem0, trial, bal, sett, exAlive, deadPc, sleepW, sleepC, env⟩ := H2
    constructor <;> try simp only [Option.toList, List.nil_append] <;> try assumption
    all_goals grind [St.workLeft, St.expired]
  all_goals
    obtain ⟨len, lockW, lockB, lockC, aliveC, work, clock, rem, rem0, trial, bal, sett, exAlive, deadPc, sleepW, sleepC, env⟩ := H
    first
    | (simp only [Option.some.injEq, Prod.mk.injEq] at hs
       obtain ⟨rfl, rfl⟩ := hs)
    | (split at hs)
    | (simp at hs; done)
  all_goals first
    | (simp at hs; done)
    | skip
  all_goals
    simp only [Option.some.injEq, Prod.mk.injEq] at hs
    obtain ⟨rfl, rfl⟩ := hs
    have hcnt : s.ws.countP WPc.counted = 0 → ∀ i : Nat, s.ws[i]? ≠ some .trial := by
      intro h0 i hi
      have := List.countP_eq_zero.1 h0 _ (List.mem_of_getElem? hi)
      simp [WPc.counted] at this
    constructor <;> try simp only [Option.toList, List.nil_append, List.cons_append] <;> try assumption
    all_goals grind [WPc.holds, WPc.counted, WPc.isTrial, WPc.notify, CPc.notify, St.workLeft, St.expired, Event.isStart, Event.isFinish, Event.isCall]

theorem inv_step {n s h l s' e} (H : Inv n s h) (hs : step s l = some (s', e)) : Inv n s' (e.toList ++ h) := by
  cases l <;> simp only [step] at hs
  case tick =>
    simp only [Option.some.injEq, Prod.mk.injEq] at hs
    obtain ⟨rfl, rfl⟩ := hs
    exact inv_tick H
  case worker i =>
    split at hs
    · rename_i p hp
      cases p
      · exact inv_wantLock H hp hs
      · exact inv_head H hp hs
      · exact inv_chk1 H hp hs
      · exact inv_chk2 H hp hs
      · simp [stepWorker] at hs
      · exact inv_woken H hp hs
      · exact inv_afterWait H hp hs
      · exact inv_trial H hp hs
      · simp [stepWorker] at hs
    · simp at hs
  case look i =>
    split at hs
    · rename_i hp
      simp only [Option.some.injEq, Prod.mk.injEq] at hs
      obtain ⟨rfl, rfl⟩ := hs
      obtain ⟨len, lockW, lockB, lockC, aliveC, work, clock, rem, rem0, trial, bal, sett, exAlive, deadPc, sleepW, sleepC, env⟩ := H
      constructor <;> try simp only [Option.toList, List.nil_append, List.cons_append] <;> try assumption
      all_goals grind [WPc.holds, WPc.counted, WPc.isTrial, WPc.notify, CPc.notify, St.workLeft, St.expired, Event.isStart, Event.isFinish, Event.isCall]
    · simp at hs
  case spuriousW i =>
    split at hs
    · rename_i hp
      simp only [Option.some.injEq, Prod.mk.injEq] at hs
      obtain ⟨rfl, rfl⟩ := hs
      obtain ⟨len, lockW, lockB, lockC, aliveC, work, clock, rem, rem0, trial, bal, sett, exAlive, deadPc, sleepW, sleepC, env⟩ := H
      have h1 := countP_set' WPc.counted s.ws i _ .woken hp
      have hself : ∀ q, (s.ws.set i q)[i]? = some q := fun q => by
        have := (List.getElem?_eq_some_iff.1 hp).1; simp [this]
      have hset : ∀ j q, j ≠ i → (s.ws.set i q)[j]? = s.ws[j]? := fun j q hj => by simp [hj.symm]
      have hchk : (∃ j : Nat, s.ws[j]? = some .chk1) → ∃ j : Nat, (s.ws.set i .woken)[j]? = some .chk1 :=
        fun ⟨j, hj⟩ => ⟨j, by rw [hset j _ (by rintro rfl; simp [hp] at hj), hj]⟩
      have h2 := countP_set' WPc.isTrial s.ws i _ .woken hp
      constructor <;> simp only [St.setW, Option.toList, List.nil_append, List.cons_append] <;> try assumption
      all_goals grind [WPc.holds, WPc.counted, WPc.isTrial, WPc.notify, CPc.notify, St.workLeft, St.expired, Event.isStart, Event.isFinish, Event.isCall]
    · simp at hs
  case spuriousC =>
    split at hs
    · simp only [Option.some.injEq, Prod.mk.injEq] at hs
      obtain ⟨rfl, rfl⟩ := hs
      obtain ⟨len, lockW, lockB, lockC, aliveC, work, clock, rem, rem0, trial, bal, sett, exAlive, deadPc, sleepW, sleepC, env⟩ := H
      constructor <;> try simp only [Option.toList, List.nil_append, List.cons_append] <;> try assumption
      all_goals grind [WPc.holds, WPc.counted, WPc.isTrial, WPc.notify, CPc.notify, St.workLeft, St.expired, Event.isStart, Event.isFinish, Event.isCall]
    · simp at hs
  case client => exact inv_client H hs
  case call m lim b =>
    split at hs
    · simp only [Option.some.injEq, Prod.mk.injEq] at hs
      obtain ⟨rfl, rfl⟩ := hs
      obtain ⟨len, lockW, lockB, lockC, aliveC, work, clock, rem, rem0, trial, bal, sett, exAlive, deadPc, sleepW, sleepC, env⟩ := H
      constructor <;> try simp only [Option.toList, List.nil_append, List.cons_append] <;> try assumption
      all_goals grind [WPc.holds, WPc.counted, WPc.isTrial, WPc.notify, CPc.notify, St.workLeft, St.expired, Event.isStart, Event.isFinish, Event.isCall]
    · simp at hs
  case join =>
    split at hs
    · simp only [Option.some.injEq, Prod.mk.injEq] at hs
      obtain ⟨rfl, rfl⟩ := hs
      obtain ⟨len, lockW, lockB, lockC, aliveC, work, clock, rem, rem0, trial, bal, sett, exAlive, deadPc, sleepW, sleepC, env⟩ := H
      constructor <;> try simp only [Option.toList, List.nil_append, List.cons_append] <;> try assumption
      all_goals grind [WPc.holds, WPc.counted, WPc.isTrial, WPc.notify, CPc.notify, St.workLeft, St.expired, Event.isStart, Event.isFinish, Event.isCall]
    · simp at hs
  case swap e' =>
    split at hs
    · split at hs
      all_goals
        simp only [Option.some.injEq, Prod.mk.injEq] at hs
        obtain ⟨rfl, rfl⟩ := hs
        obtain ⟨len, lockW, lockB, lockC, aliveC, work, clock, rem, rem0, trial, bal, sett, exAlive, deadPc, sleepW, sleepC, env⟩ := H
        constructor <;> try simp only [Option.toList, List.nil_append, List.cons_append] <;> try assumption
        all_goals grind [WPc.holds, WPc.counted, WPc.isTrial, WPc.notify, CPc.notify, St.workLeft, St.expired, Event.isStart, Event.isFinish, Event.isCall]
    · simp at hs
  case dtor =>
    split at hs
    · rename_i hcl
      simp only [Option.some.injEq, Prod.mk.injEq] at hs
      obtain ⟨rfl, rfl⟩ := hs
      have hN := (notify_get s.ws)
      have H2 := inv_notify H
      have hc2 : s.notifyAll.cl = .idle := by simp [St.notifyAll, hcl, CPc.notify]
      have hl2 : s.notifyAll.lock = none := by simp [St.notifyAll, hcl]
      have hw2 : ∀ i : Nat, s.notifyAll.ws[i]? ≠ some .waiting := fun i => (hN i).2.1
      generalize s.notifyAll = t at *
      obtain ⟨len, lockW, lockB, lockC, aliveC, work, clock, rem, rem0, trial, bal, sett, exAlive, deadPc, sleepW, sleepC, env⟩ := H2
      constructor <;> try simp only [Option.toList, List.nil_append, List.cons_append] <;> try assumption
      all_goals grind [WPc.holds, WPc.counted, WPc.isTrial, WPc.notify, CPc.notify, St.workLeft, St.expired, Event.isStart, Event.isFinish, Event.isCall]
    · simp at hs

theorem inv_execFrom {n s h ls s' h'} (H : Inv n s h) (hs : execFrom s h ls = some (s', h')) : Inv n s' h' := by
  induction ls generalizing s h with
  | nil => simp [execFrom] at hs; obtain ⟨rfl, rfl⟩ := hs; exact H
  | cons l ls ih =>
    simp only [execFrom] at hs
    split at hs
    · exact ih (inv_step H ‹_›) hs
    · simp at hs

theorem inv_exec {n ls s h} (hs : exec n ls = some (s, h)) : Inv n s h := inv_execFrom (inv_init n) hs

end Verif.Pool
