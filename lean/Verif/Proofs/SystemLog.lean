import Verif.Proofs.System

/-! # What the logger is told, and when -/

namespace Verif.Pool

/-- What a step does to the budget, the time limit and the clock. -/
theorem step_budget {s s' : St} {l : Label} {e : Option Event} (h : step s l = some (s', e)) :
    s.now ≤ s'.now ∧
    ((∃ n lim, e = some (.called n lim) ∧ s'.remaining = n ∧ s'.limit = lim) ∨
     (∃ i, e = some (.started i) ∧ s.workLeft = true ∧ s'.remaining = s.remaining - 1 ∧ s'.limit = s.limit) ∨
     ((∀ x, e = some x → x.isCall = false ∧ x.isStart = false) ∧ s'.remaining = s.remaining ∧ s'.limit = s.limit)) := by
  cases l with
  | tick =>
    simp only [step, Option.some.injEq, Prod.mk.injEq] at h
    obtain ⟨rfl, rfl⟩ := h
    exact ⟨Nat.le_succ _, .inr (.inr ⟨by simp, rfl, rfl⟩)⟩
  | worker i =>
    simp only [step] at h
    split at h
    · next p hp =>
      cases p <;> simp only [stepWorker] at h <;> (try split at h) <;> simp only [Option.some.injEq, Prod.mk.injEq, reduceCtorEq] at h
      all_goals obtain ⟨rfl, rfl⟩ := h
      all_goals refine ⟨by simp [St.setW, St.notifyAll], ?_⟩
      all_goals first
        | exact .inr (.inr ⟨by simp [Event.isCall, Event.isStart], rfl, rfl⟩)
        | exact .inr (.inl ⟨i, rfl, by assumption, rfl, rfl⟩)
    · simp at h
  | look i =>
    simp only [step] at h
    split at h
    · simp only [Option.some.injEq, Prod.mk.injEq] at h
      obtain ⟨rfl, rfl⟩ := h
      exact ⟨Nat.le_refl _, .inr (.inr ⟨by simp [Event.isCall, Event.isStart], rfl, rfl⟩)⟩
    · simp at h
  | spuriousW i =>
    simp only [step] at h
    split at h
    · simp only [Option.some.injEq, Prod.mk.injEq] at h
      obtain ⟨rfl, rfl⟩ := h
      exact ⟨Nat.le_refl _, .inr (.inr ⟨by simp, rfl, rfl⟩)⟩
    · simp at h
  | spuriousC =>
    simp only [step] at h
    split at h
    · simp only [Option.some.injEq, Prod.mk.injEq] at h
      obtain ⟨rfl, rfl⟩ := h
      exact ⟨Nat.le_refl _, .inr (.inr ⟨by simp, rfl, rfl⟩)⟩
    · simp at h
  | client =>
    simp only [step, stepClient] at h
    split at h <;> (try split at h) <;> simp only [Option.some.injEq, Prod.mk.injEq, reduceCtorEq] at h
    all_goals obtain ⟨rfl, rfl⟩ := h
    all_goals exact ⟨Nat.le_refl _, .inr (.inr ⟨by simp [Event.isCall, Event.isStart], rfl, rfl⟩)⟩
  | call n lim b =>
    simp only [step] at h
    split at h
    · simp only [Option.some.injEq, Prod.mk.injEq] at h
      obtain ⟨rfl, rfl⟩ := h
      exact ⟨Nat.le_refl _, .inl ⟨n, lim, rfl, rfl, rfl⟩⟩
    · simp at h
  | join =>
    simp only [step] at h
    split at h
    · simp only [Option.some.injEq, Prod.mk.injEq] at h
      obtain ⟨rfl, rfl⟩ := h
      exact ⟨Nat.le_refl _, .inr (.inr ⟨by simp, rfl, rfl⟩)⟩
    · simp at h
  | swap e =>
    simp only [step] at h
    split at h
    · split at h
      all_goals
        simp only [Option.some.injEq, Prod.mk.injEq] at h
        obtain ⟨rfl, rfl⟩ := h
        exact ⟨Nat.le_refl _, .inr (.inr ⟨by simp [Event.isCall, Event.isStart], rfl, rfl⟩)⟩
    · simp at h
  | dtor =>
    simp only [step] at h
    split at h
    · simp only [Option.some.injEq, Prod.mk.injEq] at h
      obtain ⟨rfl, rfl⟩ := h
      exact ⟨Nat.le_refl _, .inr (.inr ⟨by simp [Event.isCall, Event.isStart, St.notifyAll], rfl, rfl⟩)⟩
    · simp at h

end Verif.Pool

namespace Verif.Sys

set_option linter.unusedSectionVars false

variable {S A R X Y : Type}

/-- Events that the logger has nothing to do with. -/
def Event.plain : Event S A R → Bool
  | .pool e => !e.isCall && !e.isFinish
  | .search _ => true
  | _ => false

/-! ## Plain events are ignored -/

theorem poolPart_cons (e : Event S A R) (h : List (Event S A R)) :
    poolPart (e :: h) = match e with | .pool x => x :: poolPart h | _ => poolPart h := by
  cases e <;> rfl

theorem loggedPart_cons (e : Event S A R) (h : List (Event S A R)) :
    loggedPart (e :: h) = match e with | .logged x => x :: loggedPart h | _ => loggedPart h := by
  cases e <;> rfl

theorem finishedIn_cons (e : Event S A R) (h : List (Event S A R)) :
    finishedIn (e :: h) = (match e with | .pool (.finished _) => 1 | _ => 0) + finishedIn h := by
  unfold finishedIn
  rw [poolPart_cons]
  cases e with
  | pool x => cases x <;> simp [Pool.numFinished, List.countP_cons, Pool.Event.isFinish, Nat.add_comm]
  | _ => simp

theorem thisRun_cons (e : Event S A R) (h : List (Event S A R)) :
    thisRun (e :: h) = if e.isEntered then [] else e :: thisRun h := by
  unfold thisRun
  rw [List.takeWhile_cons]
  cases e.isEntered <;> rfl

theorem earlier_cons (e : Event S A R) (h : List (Event S A R)) :
    earlier (e :: h) = if e.isEntered then e :: h else earlier h := by
  unfold earlier
  rw [List.dropWhile_cons]
  cases e.isEntered <;> rfl

section plain
variable {es h : List (Event S A R)} (hp : ∀ e ∈ es, e.plain = true)
include hp

theorem plain_finishedIn : finishedIn (es ++ h) = finishedIn h := by
  induction es with
  | nil => rfl
  | cons e es ih =>
    rw [List.cons_append, finishedIn_cons, ih fun e he => hp e (List.mem_cons_of_mem _ he)]
    have := hp e List.mem_cons_self
    cases e with
    | pool x => cases x <;> simp [Event.plain, Pool.Event.isCall, Pool.Event.isFinish] at this ⊢
    | _ => simp

theorem plain_logged : loggedPart (es ++ h) = loggedPart h := by
  induction es with
  | nil => rfl
  | cons e es ih =>
    rw [List.cons_append, loggedPart_cons, ih fun e he => hp e (List.mem_cons_of_mem _ he)]
    have := hp e List.mem_cons_self
    cases e <;> simp [Event.plain] at this ⊢

theorem plain_thisRun : thisRun (es ++ h) = es ++ thisRun h := by
  induction es with
  | nil => rfl
  | cons e es ih =>
    rw [List.cons_append, thisRun_cons, ih fun e he => hp e (List.mem_cons_of_mem _ he)]
    have := hp e List.mem_cons_self
    cases e <;> simp [Event.plain, Event.isEntered] at this ⊢

theorem plain_earlier : earlier (es ++ h) = earlier h := by
  induction es with
  | nil => rfl
  | cons e es ih =>
    rw [List.cons_append, earlier_cons, ih fun e he => hp e (List.mem_cons_of_mem _ he)]
    have := hp e List.mem_cons_self
    cases e <;> simp [Event.plain, Event.isEntered] at this ⊢

theorem plain_numEntered : numEntered (es ++ h) = numEntered h := by
  unfold numEntered
  rw [List.countP_append]
  have : es.countP Event.isEntered = 0 := by
    rw [List.countP_eq_zero]
    intro e he
    have := hp e he
    cases e <;> simp [Event.plain, Event.isEntered] at this ⊢
  omega

theorem plain_numCalls : numCalls (poolPart (es ++ h)) = numCalls (poolPart h) := by
  induction es with
  | nil => rfl
  | cons e es ih =>
    rw [List.cons_append, poolPart_cons]
    have := hp e List.mem_cons_self
    cases e with
    | pool x =>
      cases x <;> simp [Event.plain, Pool.Event.isCall, Pool.Event.isFinish, numCalls] at this ⊢
      all_goals exact ih fun e he => hp e (List.mem_cons_of_mem _ he)
    | _ => simp; exact ih fun e he => hp e (List.mem_cons_of_mem _ he)

theorem plain_budget : Pool.budget (poolPart (es ++ h)) = Pool.budget (poolPart h) := by
  induction es with
  | nil => rfl
  | cons e es ih =>
    rw [List.cons_append, poolPart_cons]
    have := hp e List.mem_cons_self
    cases e with
    | pool x =>
      cases x <;> simp [Event.plain, Pool.Event.isCall, Pool.Event.isFinish, Pool.budget] at this ⊢
      all_goals exact ih fun e he => hp e (List.mem_cons_of_mem _ he)
    | _ => simp; exact ih fun e he => hp e (List.mem_cons_of_mem _ he)

theorem plain_runStart : runStart (es ++ h) = runStart h := by
  induction es with
  | nil => rfl
  | cons e es ih =>
    have := hp e List.mem_cons_self
    cases e <;> simp [Event.plain, runStart] at this ⊢ <;> exact ih fun e he => hp e (List.mem_cons_of_mem _ he)

theorem plain_lastEnd : lastEnd (es ++ h) = lastEnd h := by
  induction es with
  | nil => rfl
  | cons e es ih =>
    have := hp e List.mem_cons_self
    cases e <;> simp [Event.plain, lastEnd] at this ⊢ <;> exact ih fun e he => hp e (List.mem_cons_of_mem _ he)

theorem plain_durations (last : Option Nat) : durationsFrom last (es ++ h) = durationsFrom last h := by
  induction es with
  | nil => rfl
  | cons e es ih =>
    have := hp e List.mem_cons_self
    cases e <;> simp [Event.plain, durationsFrom] at this ⊢ <;> exact ih fun e he => hp e (List.mem_cons_of_mem _ he)

end plain

/-! ## The end of a trial -/

theorem logged_induct (l : List Log.Entry) (h : List (Event S A R)) {α : Type} (f : List (Event S A R) → α)
    (hf : ∀ e h, f (.logged e :: h) = f h) : f (l.map .logged ++ h) = f h := by
  induction l with
  | nil => rfl
  | cons e l ih => rw [List.map_cons, List.cons_append, hf, ih]

section finish
variable (i : Nat) (l : List Log.Entry) (t : Nat) (h : List (Event S A R))

theorem fin_finishedIn : finishedIn ((Event.pool (.finished i) :: (l.map .logged ++ [.reported t])) ++ h) = 1 + finishedIn h := by
  unfold finishedIn
  rw [poolPart_finish]
  simp [Pool.numFinished, List.countP_cons, Pool.Event.isFinish, Nat.add_comm]

theorem fin_thisRun : thisRun ((Event.pool (.finished i) :: (l.map .logged ++ [.reported t])) ++ h) =
    (Event.pool (.finished i) :: (l.map .logged ++ [.reported t])) ++ thisRun h := by
  rw [List.cons_append, thisRun_cons, if_neg (by simp [Event.isEntered]), List.append_assoc, List.cons_append]
  congr 1
  induction l with
  | nil => simp [thisRun_cons, Event.isEntered]
  | cons e l ih =>
    rw [List.map_cons, List.cons_append, thisRun_cons, if_neg (by simp [Event.isEntered]), ih]
    simp

theorem fin_earlier : earlier ((Event.pool (.finished i) :: (l.map .logged ++ [.reported t])) ++ h) = earlier h := by
  rw [List.cons_append, earlier_cons, if_neg (by simp [Event.isEntered]), List.append_assoc]
  rw [logged_induct l _ earlier fun e h => by rw [earlier_cons, if_neg (by simp [Event.isEntered])]]
  rw [List.singleton_append, earlier_cons, if_neg (by simp [Event.isEntered])]

theorem fin_numEntered : numEntered ((Event.pool (.finished i) :: (l.map .logged ++ [.reported t])) ++ h) = numEntered h := by
  rw [List.cons_append, List.append_assoc]
  show numEntered (_ ++ _) = _
  rw [logged_induct l _ numEntered fun e h => rfl]
  rfl

theorem fin_runStart : runStart ((Event.pool (.finished i) :: (l.map .logged ++ [.reported t])) ++ h) = runStart h := by
  rw [List.cons_append, List.append_assoc]
  show runStart (_ ++ _) = _
  rw [logged_induct l _ runStart fun e h => rfl]
  rfl

theorem fin_lastEnd : lastEnd ((Event.pool (.finished i) :: (l.map .logged ++ [.reported t])) ++ h) = some t := by
  rw [List.cons_append, List.append_assoc]
  show lastEnd (_ ++ _) = _
  rw [logged_induct l _ lastEnd fun e h => rfl]
  rfl

theorem fin_durations (last : Option Nat) :
    durationsFrom last ((Event.pool (.finished i) :: (l.map .logged ++ [.reported t])) ++ h) = durationsFrom (some (last.getD t)) h := by
  rw [List.cons_append, List.append_assoc]
  show durationsFrom last (_ ++ _) = _
  rw [logged_induct l _ (durationsFrom last) fun e h => rfl]
  rfl

end finish

/-! ## Induction over what concerns the logger -/

variable [DecidableEq S] [DecidableEq A] [Add R] [Zero R]
variable {env : Search.Env S A R} {m : Search.Manager S R} {alg : Search.Alg S A R X Y}

theorem log_induct (P : St S A R X Y → List (Event S A R) → Prop) {n : Nat} {s0 : S} {dp tm : Int} {tb : List ((Int × S) × Option Nat)}
    {lg : Option Log.Logger} (h0 : P (init env m alg n s0 dp tm tb lg) [])
    (hplain : ∀ s h es s', Reachable env m alg n s0 dp tm tb lg s h → P s h → (∀ e ∈ es, e.plain = true) → s'.lg = s.lg →
      s'.completed = s.completed → s'.numTrials = s.numTrials → s'.prep = s.prep → s.pool.now ≤ s'.pool.now →
      Reachable env m alg n s0 dp tm tb lg s' (es ++ h) → P s' (es ++ h))
    (hcall : ∀ s h k lim p, Reachable env m alg n s0 dp tm tb lg s h → P s h → s.prep = true → s.pool.now ≤ p.now →
      Reachable env m alg n s0 dp tm tb lg { s with pool := p, prep := false, numTrials := k } (.pool (.called k lim) :: h) →
      P { s with pool := p, prep := false, numTrials := k } (.pool (.called k lim) :: h))
    (henter : ∀ s h, Reachable env m alg n s0 dp tm tb lg s h → P s h → s.prep = false →
      P { s with prep := true, lg := s.lg.map fun L => L.beginRun s.pool.now } (.entered s.pool.now :: h))
    (hfinish : ∀ s h i p, Reachable env m alg n s0 dp tm tb lg s h → P s h → p.now = s.pool.now →
      finishedIn h + 1 ≤ Pool.numStarted (poolPart h) →
      P (St.tryLog { s with pool := p }) (.pool (.finished i) :: (s.newEntry.toList.map .logged ++ [.reported s.pool.now]) ++ h))
    {s : St S A R X Y} {h : List (Event S A R)} (hr : Reachable env m alg n s0 dp tm tb lg s h) : P s h := by
  have key : P s h ∧ Reachable env m alg n s0 dp tm tb lg s h := by
    refine reach_induct (P := fun s h => P s h ∧ Reachable env m alg n s0 dp tm tb lg s h) ⟨h0, ⟨[], rfl⟩⟩ ?_ hr
    intro s h es s' hr hP hnc E hr'
    refine ⟨?_, hr'⟩
    cases E with
    | quiet l p e hp he hw hl =>
      refine hplain s h _ _ hr hP.1 ?_ rfl rfl rfl rfl (Pool.step_budget hp).1 hr'
      intro x hx
      rw [List.mem_map] at hx
      obtain ⟨y, hy, rfl⟩ := hx
      have := he y (by cases e <;> simp at hy ⊢; exact hy.symm)
      simp [Event.plain, this]
    | call k lim b p hp hprep hw => exact hcall s h k lim p hr hP.1 hprep (Pool.step_budget hp).1 hr'
    | start i p hp hw hws =>
      refine hplain s h _ _ hr hP.1 ?_ rfl rfl rfl rfl (Pool.step_budget hp).1 hr'
      simp [Event.plain, Pool.Event.isCall, Pool.Event.isFinish]
    | finish i p hp hw hst hws hnow =>
      refine hfinish s h i p hr hP.1 hnow ?_
      obtain ⟨⟨ls, h1⟩, _⟩ := reach_project hr
      have := (Pool.inv_exec h1).bal
      have h2 : 0 < s.pool.ws.countP Pool.WPc.isTrial := by
        rw [List.countP_pos_iff]
        exact ⟨_, List.mem_of_getElem? hw, rfl⟩
      unfold finishedIn
      omega
    | search i ch q e g g' hq hw hst hg hg1 hg2 =>
      refine hplain s h _ _ hr hP.1 ?_ rfl rfl rfl rfl (Nat.le_refl _) hr'
      simp [Event.plain]
    | prep h1 h2 => exact henter s h hr hP.1 h2
  exact key.1

end Verif.Sys
