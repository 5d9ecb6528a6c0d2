import Verif.Proofs.SystemLog

/-! # Invariants of the logger -/

namespace Verif.Log

def Logger.trialHit (L : Logger) : Bool := decide (L.last + L.trialsDelta ≤ L.trials + 1)
def Logger.timeHit (L : Logger) (now : Int) : Bool := L.threshold.any fun x => decide (x ≤ L.total now)

theorem shouldLog_eq (L : Logger) (now : Int) : L.trialCompleted.shouldLog now =
    (L.trialHit || L.timeHit now,
     { entries := L.entries, prior := L.prior, start := L.start, trials := L.trials + 1, trialsDelta := L.trialsDelta,
       last := if L.trialHit then L.trials + 1 else L.last, runtimeDelta := L.runtimeDelta,
       threshold := if L.timeHit now then L.threshold.bind fun x => L.runtimeDelta.map (x + ·) else L.threshold }) := by
  unfold Logger.shouldLog Logger.checkTrials Logger.trialCompleted Logger.checkTime Logger.timeHit Logger.trialHit Logger.total
  obtain ⟨en, pr, st, tr, td, la, rd, th⟩ := L
  cases th with
  | none => by_cases h1 : la + td ≤ tr + 1 <;> simp [h1]
  | some x => by_cases h1 : la + td ≤ tr + 1 <;> by_cases h2 : x ≤ pr + (now - st) <;> simp [h1, h2]

theorem tryLog_eq (L : Logger) (now v : Int) (b : Bool) : L.tryLog now v b =
    { entries := L.entries ++ (if L.trialHit || L.timeHit now then [⟨L.total now, v⟩] else []),
      prior := if b then L.prior + (now - L.start) else L.prior, start := L.start, trials := L.trials + 1, trialsDelta := L.trialsDelta,
      last := if L.trialHit then L.trials + 1 else L.last, runtimeDelta := L.runtimeDelta,
      threshold := if L.timeHit now then L.threshold.bind fun x => L.runtimeDelta.map (x + ·) else L.threshold } := by
  unfold Logger.tryLog
  rw [shouldLog_eq]
  simp only
  cases b <;> by_cases h : (L.trialHit || L.timeHit now) = true <;> simp [h, Logger.log, Logger.updatePrior, Logger.total]

end Verif.Log

namespace Verif.Pool

theorem no_calls_settled {h : List Event} (hc : h.countP Event.isCall = 0) : settled h = true := by
  induction h with
  | nil => rfl
  | cons e h ih =>
    rw [List.countP_cons] at hc
    have h0 : h.countP Event.isCall = 0 := by omega
    cases e with
    | called => simp [Event.isCall] at hc
    | joined => rfl
    | _ => exact ih h0

theorem started_split {h : List Event} (hp : 0 < numStarted h) : ∃ a i b, h = a ++ .started i :: b := by
  obtain ⟨e, he, hs⟩ := List.countP_pos_iff.1 hp
  obtain ⟨a, b, rfl⟩ := List.append_of_mem he
  cases e <;> simp [Event.isStart] at hs
  exact ⟨a, _, b, rfl⟩

/-- With at most one call, all trials belong to it. -/
theorem started_one_call {h : List Event} (hs : ∀ a i b, h = a ++ .started i :: b → settled b = false) (hc : h.countP Event.isCall ≤ 1) :
    numStarted h = numStarted (sinceCall h) := by
  induction h with
  | nil => rfl
  | cons e h ih =>
    rw [ns_cons, since_cons]
    have hs' : ∀ a i b, h = a ++ .started i :: b → settled b = false := fun a i b hb => hs (e :: a) i b (by rw [hb]; rfl)
    cases hec : e.isCall with
    | true =>
      rw [List.countP_cons, hec] at hc
      have h0 : h.countP Event.isCall = 0 := by simp only [if_true] at hc; omega
      have : numStarted h = 0 := by
        by_contra hne
        obtain ⟨a, i, b, rfl⟩ := started_split (Nat.pos_of_ne_zero hne)
        have := hs' a i b rfl
        rw [no_calls_settled] at this
        · simp at this
        · rw [List.countP_append, List.countP_cons] at h0; omega
      cases e <;> simp [Event.isCall] at hec
      rw [this]; rfl
    | false =>
      rw [List.countP_cons, hec] at hc
      simp only [Bool.false_eq_true, if_false, Nat.add_zero] at hc
      rw [ih hs' hc]
      simp

/-- At most one call: never more trials than asked for. -/
theorem started_le_budget {n : Nat} {ls : List Label} {s : St} {h : List Event} (hx : exec n ls = some (s, h))
    (hc : h.countP Event.isCall ≤ 1) : (numStarted h : Int) ≤ max (budget h) 0 := by
  have H := inv_exec hx
  rw [started_one_call (fun a i b hab => ((startInv_exec hx).starts a i b hab).1) hc]
  have h1 := H.rem
  rcases H.rem0 with h2 | h2 <;> omega

theorem budget_no_calls {h : List Event} (hc : h.countP Event.isCall = 0) : budget h = 0 := by
  induction h with
  | nil => rfl
  | cons e h ih =>
    rw [List.countP_cons] at hc
    have h0 : h.countP Event.isCall = 0 := by omega
    cases e with
    | called => simp [Event.isCall] at hc
    | _ => exact ih h0

end Verif.Pool

namespace Verif.Sys

set_option linter.unusedSectionVars false

variable {S A R X Y : Type} [DecidableEq S] [DecidableEq A] [Add R] [Zero R]
variable {env : Search.Env S A R} {m : Search.Manager S R} {alg : Search.Alg S A R X Y}
variable {n : Nat} {s0 : S} {dp tm : Int} {tb : List ((Int × S) × Option Nat)}

theorem finishedIn_append (a b : List (Event S A R)) : finishedIn (a ++ b) = finishedIn a + finishedIn b := by
  unfold finishedIn Pool.numFinished
  rw [poolPart_append, List.countP_append]

theorem finishedIn_parts (h : List (Event S A R)) : finishedIn (thisRun h) + finishedIn (earlier h) = finishedIn h := by
  rw [← finishedIn_append]
  unfold thisRun earlier
  rw [List.takeWhile_append_dropWhile]

theorem newEntry_some {s : St S A R X Y} {L : Log.Logger} (hL : s.lg = some L) :
    s.newEntry.toList = if L.trialHit || L.timeHit s.pool.now then [⟨L.total s.pool.now, s.rootVisits⟩] else [] := by
  unfold St.newEntry
  rw [hL]
  simp only [Option.bind_some, Log.shouldLog_eq]
  split <;> simp

theorem tryLog_some {s : St S A R X Y} {L : Log.Logger} (hL : s.lg = some L) :
    s.tryLog = { s with lg := some (L.tryLog s.pool.now s.rootVisits (decide (s.completed + 1 = s.numTrials))),
                        completed := s.completed + 1 } := by
  unfold St.tryLog
  rw [hL]

/-- Bookkeeping that holds with every logger. -/
structure LInv (L0 : Log.Logger) (s : St S A R X Y) (h : List (Event S A R)) (L : Log.Logger) : Prop where
  lg : s.lg = some L
  cnt : numCalls (poolPart h) + (if s.prep then 1 else 0) = numEntered h
  num : s.numTrials = Pool.budget (poolPart h)
  clock : (∀ t, runStart h = some t → t ≤ s.pool.now) ∧ (∀ t, lastEnd h = some t → t ≤ s.pool.now)
  comp : s.completed = finishedIn h
  pre : numEntered h = 0 → L = L0 ∧ finishedIn h = 0 ∧ loggedPart h = []
  first : numEntered h ≤ 1 → finishedIn (earlier h) = 0 ∧ loggedPart (earlier h) = []
  trials : L.trials = L0.trials + finishedIn h
  delta : L.trialsDelta = L0.trialsDelta ∧ L.runtimeDelta = L0.runtimeDelta
  start : numEntered h ≠ 0 → ∃ t : Nat, runStart h = some t ∧ L.start = t
  entries : numEntered h ≠ 0 → L.entries = (if L0.entries = [] then [⟨0, 0⟩] else L0.entries) ++ (loggedPart h).reverse

theorem entered_of_finish {L0 L : Log.Logger} {s : St S A R X Y} {h : List (Event S A R)} (I : LInv L0 s h L)
    {lg : Option Log.Logger} (hr : Reachable env m alg n s0 dp tm tb lg s h) (hs : finishedIn h + 1 ≤ Pool.numStarted (poolPart h)) :
    numEntered h ≠ 0 := by
  intro h0
  obtain ⟨⟨ls, h1⟩, _⟩ := reach_project hr
  have h2 : (poolPart h).countP Pool.Event.isCall = 0 := by
    have := I.cnt
    unfold numCalls at this
    omega
  have h3 := Pool.started_le_budget h1 (by omega)
  rw [Pool.budget_no_calls h2] at h3
  omega

theorem linv (L0 : Log.Logger) {s : St S A R X Y} {h : List (Event S A R)}
    (hr : Reachable env m alg n s0 dp tm tb (some L0) s h) : ∃ L, LInv L0 s h L := by
  refine log_induct (P := fun s h => ∃ L, LInv L0 s h L) ?_ ?_ ?_ ?_ ?_ hr
  · refine ⟨L0, ⟨rfl, rfl, rfl, by simp [runStart, lastEnd], rfl, ?_, ?_, ?_, ⟨rfl, rfl⟩, ?_, ?_⟩⟩
    · intro _; exact ⟨rfl, rfl, rfl⟩
    · intro _; exact ⟨rfl, rfl⟩
    · simp [finishedIn, poolPart, Pool.numFinished]
    · intro h; exact absurd rfl h
    · intro h; exact absurd rfl h
  · rintro s h es s' hr ⟨L, I⟩ hp h1 h2 h3 h4 h5 _
    refine ⟨L, ⟨by rw [h1, I.lg], ?_, ?_, ?_, ?_, ?_, ?_, ?_, I.delta, ?_, ?_⟩⟩
    · rw [plain_numCalls hp, plain_numEntered hp, h4, I.cnt]
    · rw [plain_budget hp, h3, I.num]
    · rw [plain_runStart hp, plain_lastEnd hp]
      exact ⟨fun t ht => Nat.le_trans (I.clock.1 t ht) h5, fun t ht => Nat.le_trans (I.clock.2 t ht) h5⟩
    · rw [plain_finishedIn hp, h2, I.comp]
    · rw [plain_numEntered hp, plain_finishedIn hp, plain_logged hp]; exact I.pre
    · rw [plain_numEntered hp, plain_earlier hp]; exact I.first
    · rw [plain_finishedIn hp]; exact I.trials
    · rw [plain_numEntered hp, plain_runStart hp]; exact I.start
    · rw [plain_numEntered hp, plain_logged hp]; exact I.entries
  · rintro s h k lim p hr ⟨L, I⟩ hprep hnow _
    have e1 : finishedIn (.pool (.called k lim) :: h : List (Event S A R)) = finishedIn h := by rw [finishedIn_cons]; simp
    refine ⟨L, ⟨I.lg, ?_, rfl, ⟨?_, ?_⟩, ?_, ?_, ?_, ?_, I.delta, I.start, I.entries⟩⟩
    · have := I.cnt
      simp only [hprep, if_true] at this
      show numCalls (.called k lim :: poolPart h) + _ = numEntered h
      simp only [numCalls, List.countP_cons, Pool.Event.isCall, if_true] at this ⊢
      simpa using this
    · intro t ht; exact Nat.le_trans (I.clock.1 t ht) hnow
    · intro t ht; exact Nat.le_trans (I.clock.2 t ht) hnow
    · rw [e1]; exact I.comp
    · rw [e1]; exact I.pre
    · rw [earlier_cons, if_neg (by simp [Event.isEntered])]; exact I.first
    · rw [e1]; exact I.trials
  · rintro s h hr ⟨L, I⟩ hprep
    have e1 : finishedIn (.entered s.pool.now :: h : List (Event S A R)) = finishedIn h := by rw [finishedIn_cons]; simp
    have e2 : numEntered (.entered s.pool.now :: h : List (Event S A R)) = numEntered h + 1 := by
      simp [numEntered, List.countP_cons, Event.isEntered]
    refine ⟨L.beginRun s.pool.now, ⟨by simp [I.lg], ?_, I.num, ⟨?_, ?_⟩, ?_, ?_, ?_, ?_, ?_, ?_, ?_⟩⟩
    · have := I.cnt
      simp only [hprep] at this
      rw [e2, ← this]
      simp [poolPart_cons]
    · simp [runStart]
    · simp [lastEnd]
    · rw [e1]; exact I.comp
    · rw [e2]; omega
    · rw [e2, earlier_cons, if_pos (by simp [Event.isEntered]), e1]
      intro hle
      have := I.pre (by omega)
      exact ⟨this.2.1, by rw [loggedPart_cons]; exact this.2.2⟩
    · rw [e1, ← I.trials]
      unfold Log.Logger.beginRun Log.Logger.resetStart Log.Logger.addOrigin
      split <;> rfl
    · rw [← I.delta.1, ← I.delta.2]
      unfold Log.Logger.beginRun Log.Logger.resetStart Log.Logger.addOrigin
      split <;> exact ⟨rfl, rfl⟩
    · intro _
      exact ⟨_, rfl, rfl⟩
    · intro _
      show (L.beginRun s.pool.now).entries = _ ++ (loggedPart h).reverse
      by_cases h0 : numEntered h = 0
      · obtain ⟨rfl, _, hl⟩ := I.pre h0
        rw [hl]
        unfold Log.Logger.beginRun Log.Logger.resetStart Log.Logger.addOrigin
        by_cases he : L.entries = []
        · simp [he]
        · simp [he]
      · rw [← I.entries h0]
        have : L.entries.length ≠ 0 := by
          rw [I.entries h0]
          split
          · simp
          · next hne => simp [hne]
        unfold Log.Logger.beginRun Log.Logger.resetStart
        rw [if_neg this]
  · rintro s h i p hr ⟨L, I⟩ hnow hst
    have hne := entered_of_finish I hr hst
    have hlg : ({ s with pool := p } : St S A R X Y).lg = some L := I.lg
    rw [tryLog_some hlg, newEntry_some I.lg]
    have hv : ({ s with pool := p } : St S A R X Y).rootVisits = s.rootVisits := rfl
    refine ⟨_, ⟨rfl, ?_, ?_, ⟨?_, ?_⟩, ?_, ?_, ?_, ?_, ?_, ?_, ?_⟩⟩
    · rw [poolPart_finish, fin_numEntered, ← I.cnt]
      simp [numCalls, List.countP_cons, Pool.Event.isCall]
    · rw [poolPart_finish]; exact I.num
    · rw [fin_runStart]
      show ∀ t, _ → t ≤ p.now
      rw [hnow]; exact I.clock.1
    · rw [fin_lastEnd]
      show ∀ t, _ → t ≤ p.now
      rw [hnow]; simp
    · rw [fin_finishedIn]
      show s.completed + 1 = _
      rw [I.comp]; push_cast; omega
    · rw [fin_numEntered]; intro h0; exact absurd h0 hne
    · rw [fin_numEntered, fin_earlier]; exact I.first
    · rw [fin_finishedIn, Log.tryLog_eq]
      show L.trials + 1 = _
      rw [I.trials]; push_cast; omega
    · rw [Log.tryLog_eq]; exact I.delta
    · rw [fin_numEntered, fin_runStart, Log.tryLog_eq]; exact I.start
    · rw [fin_numEntered, loggedPart_finish, Log.tryLog_eq]
      intro _
      show L.entries ++ _ = _
      rw [I.entries hne, List.append_assoc, hv, hnow]
      congr 1
      split <;> simp

end Verif.Sys
