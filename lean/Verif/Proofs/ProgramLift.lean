import Verif.Proofs.ProgramInv

/-! # Every run at the level of locks happens inside some `run_trials`, and its deadlocks are deadlocks of the program -/

set_option linter.unusedSectionVars false

namespace Verif.Prog

variable {S A R X Y : Type} [DecidableEq S] [DecidableEq A] [Add R] [Zero R]
variable {env : Search.Env S A R} {m : Search.Manager S R} {hash : Int × S → Nat} {alg : Search.Alg S A R X Y} {code : LockLevel.Code S A R X Y}
variable {n : Nat} {s0 : S} {dp tm : Int} {tb : List ((Int × S) × Option Nat)} {lg : Option Log.Logger} {s s' : St S A R X Y}
  {h : List (Event S A R)}

theorem reach_run (hr : Reachable env m hash alg code n s0 dp tm tb lg s h) {ls : List (Label S A)} {h' : List (Event S A R)}
    (hx : execFrom env m hash alg code s h ls = some (s', h')) : Reachable env m hash alg code n s0 dp tm tb lg s' h' := by
  obtain ⟨l0, h0⟩ := hr
  exact ⟨l0 ++ ls, by rw [execFrom_append, h0]; exact hx⟩

/-- A worker that wants the pool's mutex takes a trial. -/
theorem turn (hc : s.search.crashed = none) {i : Nat} (hw : s.pool.ws[i]? = some .wantLock) (hk : s.pool.lock = none) (ha : s.pool.alive = true)
    (hl : s.pool.limit = none) (hr : 0 < s.pool.remaining) :
    execFrom env m hash alg code s h [.pool (.worker i), .pool (.worker i), .pool (.worker i), .pool (.worker i)] =
      some ({ s with
        pool := { s.pool with ws := s.pool.ws.set i .trial, working := s.pool.working - 1 + 1, remaining := s.pool.remaining - 1, lock := none }
        stages := s.stages.set i .ready }, .pool (.started i) :: h) := by
  have hlt := (List.getElem?_eq_some_iff.1 hw).1
  have hw' := (List.getElem?_eq_some_iff.1 hw).2
  have hr' : ¬ s.pool.remaining ≤ 0 := by omega
  simp [execFrom, step, hc, poolStep, Pool.step, hw', Pool.stepWorker, hk, ha, Pool.St.setW, Pool.St.workLeft, Pool.St.expired, hl, hlt, hr']

/-- A worker that has finished its trial takes the next one. -/
theorem turn' (hc : s.search.crashed = none) {i : Nat} (hw : s.pool.ws[i]? = some .trial) (hs : s.stages[i]? = some .done) (hk : s.pool.lock = none)
    (ha : s.pool.alive = true) (hl : s.pool.limit = none) (hr : 0 < s.pool.remaining) :
    execFrom env m hash alg code s h (.pool (.worker i) :: [.pool (.worker i), .pool (.worker i), .pool (.worker i), .pool (.worker i)]) =
      some ({ s with
        pool := { s.pool with ws := s.pool.ws.set i .trial, working := s.pool.working - 1 + 1, remaining := s.pool.remaining - 1, lock := none }
        stages := s.stages.set i .ready }, .pool (.started i) :: .pool (.finished i) :: h) := by
  have hlt := (List.getElem?_eq_some_iff.1 hw).1
  have h1 : step env m hash alg code s (.pool (.worker i)) = some ({ s with pool := s.pool.setW i .wantLock }, [.pool (.finished i)]) := by
    simp [step, hc, poolStep, Pool.step, hw, Pool.stepWorker, hs]
  rw [execFrom, h1]
  simp only
  rw [turn (s := { s with pool := s.pool.setW i .wantLock }) hc (by simp [Pool.St.setW, hlt]) hk ha hl hr]
  simp [Pool.St.setW]

/-- Where the client is once it has called `run_trials` and done what it can do at once. -/
def clientAfter (blocking : Bool) : Pool.CPc := if blocking then .joinWait else .idle

/-- The program runs `f`: the client sleeps in a blocking `run_trials` or has returned from a non-blocking one, every worker is in a
trial, and `N` more trials are allowed. -/
structure Lifted (b : Bool) (n : Nat) (N : Int) (f : LockLevel.FSt S A R X Y) (hf : List (Search.Event S A R)) (s : St S A R X Y) (h : List (Event S A R)) : Prop where
  search : s.search = f
  events : searchPart h = hf
  lg : s.lg = none
  entry : s.entry = none
  cl : s.pool.cl = clientAfter b
  lock : s.pool.lock = none
  alive : s.pool.alive = true
  limit : s.pool.limit = none
  remaining : N ≤ s.pool.remaining
  trial : ∀ i : Nat, i < n → s.pool.ws[i]? = some .trial
  stages : ∀ i : Nat, i < n → s.stages[i]? = some .ready ∨ s.stages[i]? = some .running

theorem lift_start (b : Bool) (N : Int) (hN : 0 ≤ N) : ∃ s h, Reachable env m hash alg code n s0 dp tm tb none s h ∧
    Lifted b n N (LockLevel.finit env m alg n s0 dp tm tb) [] s h := by
  -- the client calls `run_trials` and goes to sleep
  have h0 : ∃ s : St S A R X Y, Reachable env m hash alg code n s0 dp tm tb none s [.pool (.called (N + n + 1) none)] ∧
      s.search = LockLevel.finit env m alg n s0 dp tm tb ∧ s.lg = none ∧ s.entry = none ∧ s.pool.cl = clientAfter b ∧ s.pool.lock = none ∧
      s.pool.alive = true ∧ s.pool.limit = none ∧ s.pool.remaining = N + n + 1 ∧ (∀ i : Nat, i < n → s.pool.ws[i]? = some .wantLock) ∧
      s.pool.ws.length = n ∧ s.stages.length = n := by
    have hpos : ¬ (N + n + 1 ≤ 0) := by omega
    cases b with
    | true =>
      refine ⟨_, ⟨[.enter (N + n + 1) none true, .run, .run, .pool .client, .pool .client, .pool .client], by
        simp [execFrom, step, init, LockLevel.finit, runStep, poolStep, Pool.step, Pool.init, Pool.stepClient, Pool.St.notifyAll,
          Pool.WPc.notify, Pool.CPc.notify, Pool.St.workLeft, Pool.St.expired, hpos]
        rfl⟩, ?_⟩
      refine ⟨rfl, rfl, rfl, rfl, rfl, rfl, rfl, rfl, ?_, ?_, ?_⟩
      · intro i hi; simp [hi]
      · simp
      · simp
    | false =>
      refine ⟨_, ⟨[.enter (N + n + 1) none false, .run, .run, .pool .client], by
        simp [execFrom, step, init, LockLevel.finit, runStep, poolStep, Pool.step, Pool.init, Pool.stepClient, Pool.St.notifyAll,
          Pool.WPc.notify, Pool.CPc.notify, Pool.St.workLeft, Pool.St.expired, hpos]
        rfl⟩, ?_⟩
      refine ⟨rfl, rfl, rfl, rfl, rfl, rfl, rfl, rfl, ?_, ?_, ?_⟩
      · intro i hi; simp [hi]
      · simp
      · simp
  obtain ⟨s1, hr, e1, e2, e3, e4, e5, e6, e7, e8, e9, e10, e11⟩ := h0
  have key : ∀ j : Nat, j ≤ n → ∃ s h, Reachable env m hash alg code n s0 dp tm tb none s h ∧ searchPart h = [] ∧
      s.search = LockLevel.finit env m alg n s0 dp tm tb ∧ s.lg = none ∧ s.entry = none ∧ s.pool.cl = clientAfter b ∧ s.pool.lock = none ∧
      s.pool.alive = true ∧ s.pool.limit = none ∧ s.pool.remaining = N + n + 1 - j ∧
      (∀ i : Nat, i < n → s.pool.ws[i]? = some (if i < j then .trial else .wantLock)) ∧
      (∀ i : Nat, i < j → s.stages[i]? = some .ready) ∧ s.pool.ws.length = n ∧ s.stages.length = n := by
    intro j
    induction j with
    | zero =>
      intro _
      exact ⟨s1, _, hr, rfl, e1, e2, e3, e4, e5, e6, e7, by rw [e8]; simp, by simpa using e9, by simp, e10, e11⟩
    | succ j ih =>
      intro hj
      obtain ⟨s, h, hr, q0, q1, q2, q3, q4, q5, q6, q7, q8, q9, q10, q11, q12⟩ := ih (by omega)
      have hx := turn (env := env) (m := m) (hash := hash) (alg := alg) (code := code) (s := s) (h := h) (by rw [q1]; rfl) (i := j)
        (by rw [q9 j (by omega)]; simp) q5 q6 q7 (by omega)
      refine ⟨_, _, reach_run hr hx, q0, q1, q2, q3, q4, rfl, q6, q7, ?_, ?_, ?_, ?_, ?_⟩
      · show s.pool.remaining - 1 = _
        omega
      · intro i hi
        show (s.pool.ws.set j .trial)[i]? = _
        by_cases e : j = i
        · subst e; rw [List.getElem?_set_self (by omega)]; simp
        · rw [List.getElem?_set_ne e, q9 i hi]
          have : i < j ↔ i < j + 1 := by omega
          simp [this]
      · intro i hi
        show (s.stages.set j .ready)[i]? = _
        by_cases e : j = i
        · subst e; rw [List.getElem?_set_self (by omega)]
        · rw [List.getElem?_set_ne e]; exact q10 i (by omega)
      · simpa using q11
      · simpa using q12
  obtain ⟨s, h, hr, q0, q1, q2, q3, q4, q5, q6, q7, q8, q9, q10, q11, q12⟩ := key n (Nat.le_refl _)
  refine ⟨s, h, hr, q1, q0, q2, q3, q4, q5, q6, q7, by omega, ?_, fun i hi => .inl (q10 i hi)⟩
  intro i hi
  rw [q9 i hi, if_pos hi]

theorem lift_step {N : Int} (hN : 0 ≤ N) {f f' : LockLevel.FSt S A R X Y} {hf : List (Search.Event S A R)} {i : Nat} {ch : LockLevel.FChoice S A}
    {e : Option (Search.Event S A R)} (hs : LockLevel.fstep env m hash alg code f i ch = some (f', e)) (hnc : f'.crashed = none)
    (hr : Reachable env m hash alg code n s0 dp tm tb none s h) {b : Bool} (L : Lifted b n (N + 1) f hf s h) :
    ∃ ls s' h', execFrom env m hash alg code s h ls = some (s', h') ∧ Lifted b n N f' (e.toList ++ hf) s' h' := by
  obtain ⟨l1, l2, l3, l4, l5, l6, l7, l8, l9, l10, l11⟩ := L
  have I := sinv_reach hr
  subst l1
  obtain ⟨hcr, FE⟩ := LockLevel.fstep_eff hs
  obtain ⟨pc, pc', p1, -, -, -, -, p6⟩ := LockLevel.eff_pc (LockLevel.goesOn_reach (reach_project hr).2) FE
  have hi : i < n := by rw [← I.wlen]; exact (List.getElem?_eq_some_iff.1 p1).1
  have hst : step env m hash alg code s (.search i ch) =
      some ({ s with search := f', stages := s.stages.set i (nextStage none e) }, e.toList.map .search) := by
    simp only [step, hcr, Option.isSome_none, Bool.false_eq_true, if_false, searchStep, l11 i hi, if_true, hs, l3]
    rfl
  have hx1 : execFrom env m hash alg code s h [.search i ch] =
      some ({ s with search := f', stages := s.stages.set i (nextStage none e) }, e.toList.map .search ++ h) := by
    rw [execFrom, hst]; rfl
  have hev : searchPart (e.toList.map .search ++ h) = e.toList ++ hf := by
    rw [searchPart_append, searchPart_search, l2]
  by_cases hrun : nextStage none e = .running
  · refine ⟨_, _, _, hx1, rfl, hev, l3, l4, l5, l6, l7, l8, by show N ≤ s.pool.remaining; omega, l10, ?_⟩
    intro j hj
    show (s.stages.set i (nextStage none e))[j]? = _ ∨ _
    by_cases hij : i = j
    · subst hij; rw [List.getElem?_set_self (by rw [I.slen]; exact hi), hrun]; exact .inr rfl
    · rw [List.getElem?_set_ne hij]; exact l11 j hj
  · have hd : nextStage none e = .done := by
      unfold nextStage at hrun ⊢
      split
      · rfl
      · next hne => split at hrun
                    · next v => exact absurd rfl (hne v)
                    · exact absurd rfl hrun
    have hx := turn' (env := env) (m := m) (hash := hash) (alg := alg) (code := code)
      (s := { s with search := f', stages := s.stages.set i (nextStage none e) }) (h := e.toList.map .search ++ h) hnc (i := i)
      (l10 i hi) (by show (s.stages.set i _)[i]? = _; rw [List.getElem?_set_self (by rw [I.slen]; exact hi), hd]) l6 l7 l8
      (by show 0 < s.pool.remaining; omega)
    have hx2 := execFrom_append (env := env) (m := m) (hash := hash) (alg := alg) (code := code) [.search i ch]
      (.pool (.worker i) :: [.pool (.worker i), .pool (.worker i), .pool (.worker i), .pool (.worker i)]) s h
    rw [hx1, Option.bind_some, hx] at hx2
    refine ⟨_, _, _, hx2, rfl, ?_, l3, l4, l5, rfl, l7, l8, ?_, ?_, ?_⟩
    · simpa [searchPart] using hev
    · show N ≤ s.pool.remaining - 1
      omega
    · intro j hj
      show (s.pool.ws.set i .trial)[j]? = _
      by_cases hij : i = j
      · subst hij; rw [List.getElem?_set_self (by rw [I.plen]; exact hi)]
      · rw [List.getElem?_set_ne hij]; exact l10 j hj
    · intro j hj
      show ((s.stages.set i (nextStage none e)).set i .ready)[j]? = _ ∨ _
      rw [List.set_set]
      by_cases hij : i = j
      · subst hij; rw [List.getElem?_set_self (by rw [I.slen]; exact hi)]; exact .inl rfl
      · rw [List.getElem?_set_ne hij]; exact l11 j hj

theorem fstep_alive {f : LockLevel.FSt S A R X Y} {i : Nat} {ch : LockLevel.FChoice S A} {r : LockLevel.FSt S A R X Y × Option (Search.Event S A R)}
    (hs : LockLevel.fstep env m hash alg code f i ch = some r) : f.crashed = none := (LockLevel.fstep_eff (e := r.2) (f' := r.1) hs).1

/-- Every run at the level of locks, unless it ends in a crash, can be continued as a run of the program. -/
theorem lift_path {b : Bool} (N : Int) (hN : 0 ≤ N) {f : LockLevel.FSt S A R X Y} {hf : List (Search.Event S A R)} (hc : f.crashed = none)
    (ls : List (Nat × LockLevel.FChoice S A)) : ∀ (s : St S A R X Y) (h : List (Event S A R)) f0 h0,
      Reachable env m hash alg code n s0 dp tm tb none s h → Lifted b n (N + ls.length) f0 h0 s h →
      LockLevel.fexec env m hash alg code f0 h0 ls = some (f, hf) →
      ∃ ls' s' h', execFrom env m hash alg code s h ls' = some (s', h') ∧ Lifted b n N f hf s' h' := by
  induction ls with
  | nil =>
    intro s h f0 h0 hr L hx
    simp only [LockLevel.fexec, Option.some.injEq, Prod.mk.injEq] at hx
    obtain ⟨rfl, rfl⟩ := hx
    exact ⟨[], s, h, rfl, by simpa using L⟩
  | cons l ls ih =>
    intro s h f0 h0 hr L hx
    obtain ⟨i, ch⟩ := l
    simp only [LockLevel.fexec] at hx
    cases hst : LockLevel.fstep env m hash alg code f0 i ch with
    | none => rw [hst] at hx; simp at hx
    | some x =>
      rw [hst] at hx
      obtain ⟨f1, e⟩ := x
      have hnc : f1.crashed = none := by
        cases ls with
        | nil =>
          simp only [LockLevel.fexec, Option.some.injEq, Prod.mk.injEq] at hx
          rw [hx.1]; exact hc
        | cons l ls =>
          obtain ⟨j, ch'⟩ := l
          simp only [LockLevel.fexec] at hx
          cases hst2 : LockLevel.fstep env m hash alg code f1 j ch' with
          | none => rw [hst2] at hx; simp at hx
          | some x => exact fstep_alive hst2
      obtain ⟨l1, s', h', hx1, L'⟩ := lift_step (N := N + ls.length) (by omega) hst hnc hr
        (by
          have : N + ((⟨i, ch⟩ :: ls : List (Nat × LockLevel.FChoice S A)).length : Int) = N + ls.length + 1 := by simp; omega
          rw [← this]; exact L)
      obtain ⟨l2, s2, h2, hx2, L2⟩ := ih s' h' f1 _ (reach_run hr hx1) L' hx
      exact ⟨l1 ++ l2, s2, h2, by rw [execFrom_append, hx1]; exact hx2, L2⟩

/-- Every run at the level of locks, unless it ends in a crash, happens inside a blocking `run_trials` and after a non-blocking one. -/
theorem lift_reach (b : Bool) {f : LockLevel.FSt S A R X Y} {hf : List (Search.Event S A R)}
    (hr : LockLevel.FReachable env m hash alg code n s0 dp tm tb f hf) (hc : f.crashed = none) (N : Int) (hN : 0 ≤ N) :
    ∃ s h, Reachable env m hash alg code n s0 dp tm tb none s h ∧ Lifted b n N f hf s h := by
  obtain ⟨ls, hx⟩ := hr
  obtain ⟨s, h, hr, L⟩ := lift_start (env := env) (m := m) (hash := hash) (alg := alg) (code := code) (n := n) (s0 := s0) (dp := dp) (tm := tm)
    (tb := tb) b (N + ls.length) (by omega)
  obtain ⟨l', s', h', hx', L'⟩ := lift_path N hN hc ls s h _ _ hr L hx
  exact ⟨s', h', reach_run hr hx', L'⟩

/-- ... and if it ends in a crash, too. -/
theorem lift_any {f : LockLevel.FSt S A R X Y} {hf : List (Search.Event S A R)}
    (hr : LockLevel.FReachable env m hash alg code n s0 dp tm tb f hf) :
    ∃ s h, Reachable env m hash alg code n s0 dp tm tb none s h ∧ s.search = f ∧ searchPart h = hf ∧ s.pool.cl = .joinWait := by
  by_cases hc : f.crashed = none
  · obtain ⟨s, h, hr, L⟩ := lift_reach true hr hc 0 (by omega)
    exact ⟨s, h, hr, L.search, L.events, L.cl⟩
  obtain ⟨ls, hx⟩ := hr
  rcases List.eq_nil_or_concat ls with rfl | ⟨l0, ⟨i, ch⟩, rfl⟩
  · simp only [LockLevel.fexec, Option.some.injEq, Prod.mk.injEq] at hx
    rw [← hx.1] at hc
    exact absurd rfl hc
  · rw [List.concat_eq_append, LockLevel.fexec_append] at hx
    cases h0 : LockLevel.fexec env m hash alg code (LockLevel.finit env m alg n s0 dp tm tb) [] l0 with
    | none => rw [h0] at hx; simp at hx
    | some x =>
      obtain ⟨f0, hf0⟩ := x
      rw [h0] at hx
      simp only [Option.bind_some, LockLevel.fexec] at hx
      cases hst : LockLevel.fstep env m hash alg code f0 i ch with
      | none => rw [hst] at hx; simp at hx
      | some x =>
        obtain ⟨f1, e⟩ := x
        rw [hst] at hx
        simp only [Option.some.injEq, Prod.mk.injEq] at hx
        obtain ⟨rfl, rfl⟩ := hx
        obtain ⟨s, h, hr, L⟩ := lift_reach true (n := n) (s0 := s0) (dp := dp) (tm := tm) (tb := tb) ⟨l0, h0⟩ (fstep_alive hst) 0 (by omega)
        have e1 := L.search
        subst e1
        have I := sinv_reach hr
        obtain ⟨hcr, FE⟩ := LockLevel.fstep_eff hst
        obtain ⟨pc, pc', p1, -, -, -, -, p6⟩ := LockLevel.eff_pc (LockLevel.goesOn_reach (reach_project hr).2) FE
        have hi : i < n := by rw [← I.wlen]; exact (List.getElem?_eq_some_iff.1 p1).1
        have hstep : step env m hash alg code s (.search i ch) =
            some ({ s with search := f1, stages := s.stages.set i (nextStage none e) }, e.toList.map .search) := by
          simp only [step, hcr, Option.isSome_none, Bool.false_eq_true, if_false, searchStep, L.stages i hi, if_true, hst, L.lg]
          rfl
        exact ⟨_, _, reach_snoc hr hstep, rfl, by rw [searchPart_append, searchPart_search, L.events], L.cl⟩

/-! ## Deadlocks -/

/-- Nobody but the client moves any more. -/
structure Hung (n : Nat) (f : LockLevel.FSt S A R X Y) (s : St S A R X Y) : Prop where
  search : s.search = f
  lg : s.lg = none
  entry : s.entry = none
  cl : s.pool.cl = .joinWait ∨ s.pool.cl = .joinWoken ∨ s.pool.cl = .joinChk
  trial : ∀ i : Nat, i < n → s.pool.ws[i]? = some .trial
  stages : ∀ i : Nat, i < n → s.stages[i]? = some .running

theorem hung_busy {f : LockLevel.FSt S A R X Y} (H : Hung n f s) : s.pool.cl.busy = true := by
  rcases H.cl with h | h | h <;> rw [h] <;> rfl

/-- The steps of the pool then. -/
theorem hung_pool {p q : Pool.St} {l : Pool.Label} {e : Option Pool.Event} {g : List Pool.Event} (hn : 0 < n) (H : Pool.Inv n p g)
    (hcl : p.cl = .joinWait ∨ p.cl = .joinWoken ∨ p.cl = .joinChk) (ht : ∀ i : Nat, i < n → p.ws[i]? = some .trial)
    (hl : ∀ i, l = .worker i → p.ws[i]? ≠ some .trial) (hs : Pool.step p l = some (q, e)) :
    (q.cl = .joinWait ∨ q.cl = .joinWoken ∨ q.cl = .joinChk) ∧ q.ws = p.ws ∧ (l.isProgress = true → l = .client) ∧
      (p.cl = .joinWait → l.isSpurious = false → q.cl = .joinWait ∧ l.isProgress = false) := by
  have hne : p.cl ≠ .idle := by rcases hcl with h | h | h <;> rw [h] <;> simp
  have hwork : 0 < p.working := by
    have ha : p.alive = true := by rw [H.aliveC]; rcases hcl with h | h | h <;> simp [h]
    rw [H.work ha]
    have : 0 < p.ws.countP Pool.WPc.counted := by
      rw [List.countP_pos_iff]
      exact ⟨_, List.mem_of_getElem? (ht 0 hn), rfl⟩
    exact_mod_cast this
  cases l with
  | tick => simp [Pool.step] at hs; obtain ⟨rfl, rfl⟩ := hs; exact ⟨hcl, rfl, by simp [Pool.Label.isProgress], fun h _ => ⟨h, rfl⟩⟩
  | worker i =>
    by_cases hi : i < n
    · exact absurd (ht i hi) (hl i rfl)
    · have : p.ws[i]? = none := by rw [List.getElem?_eq_none_iff, H.len]; omega
      simp [Pool.step, this] at hs
  | look i =>
    simp only [Pool.step] at hs
    split at hs
    · simp at hs; obtain ⟨rfl, rfl⟩ := hs; exact ⟨hcl, rfl, by simp [Pool.Label.isProgress], fun h _ => ⟨h, rfl⟩⟩
    · simp at hs
  | spuriousW i =>
    simp only [Pool.step] at hs
    split at hs
    · next hw =>
      have hi : i < n := by rw [← H.len]; exact (List.getElem?_eq_some_iff.1 hw).1
      rw [ht i hi] at hw; simp at hw
    · simp at hs
  | spuriousC =>
    simp only [Pool.step] at hs
    split at hs
    · simp at hs; obtain ⟨rfl, rfl⟩ := hs
      exact ⟨.inr (.inl rfl), rfl, by simp [Pool.Label.isProgress], by simp [Pool.Label.isSpurious]⟩
    · simp at hs
  | client =>
    simp only [Pool.step, Pool.stepClient] at hs
    rcases hcl with h | h | h <;> simp only [h] at hs
    · simp at hs
    · split at hs
      · simp at hs; obtain ⟨rfl, rfl⟩ := hs; exact ⟨.inr (.inr rfl), rfl, fun _ => rfl, by simp [h]⟩
      · simp at hs
    · simp [hwork] at hs; obtain ⟨rfl, rfl⟩ := hs; exact ⟨.inl rfl, rfl, fun _ => rfl, by simp [h]⟩
  | call => simp [Pool.step, hne] at hs
  | join => simp [Pool.step, hne] at hs
  | swap => simp [Pool.step, hne] at hs
  | dtor => simp [Pool.step, hne] at hs

theorem hung_step {f : LockLevel.FSt S A R X Y} (hn : 0 < n) (hr : Reachable env m hash alg code n s0 dp tm tb none s h) (H : Hung n f s)
    (hd : ∀ (w : Nat), w < n → ∀ ch, LockLevel.fstep env m hash alg code f w ch = none) {l : Label S A} {es : List (Event S A R)}
    (hs : step env m hash alg code s l = some (s', es)) : Hung n f s' ∧ searchPart es = [] ∧ (l.isProgress = true → l = .pool .client) ∧
      (s.pool.cl = .joinWait → l.isSpurious = false → s'.pool.cl = .joinWait ∧ l.isProgress = false) := by
  have I := sinv_reach hr
  obtain ⟨⟨ls, hp⟩, -⟩ := reach_project hr
  have HP := Pool.inv_exec hp
  have hlen : ∀ {i : Nat} {g : Stage}, s.stages[i]? = some g → i < n := by
    intro i g hi; rw [← I.slen]; exact (List.getElem?_eq_some_iff.1 hi).1
  cases (step_eff hs).2 with
  | @quiet l p e hp g1 g2 g3 =>
    obtain ⟨h1, h2, h3, h4⟩ := hung_pool hn HP H.cl H.trial g3 hp
    refine ⟨⟨H.search, H.lg, H.entry, h1, ?_, H.stages⟩, by simp, ?_, h4⟩
    · intro i hi; show p.ws[i]? = _; rw [h2]; exact H.trial i hi
    · intro hx; rw [h3 hx]
  | start hp hw =>
    have := H.trial _ (by rw [← I.plen]; exact (List.getElem?_eq_some_iff.1 hw).1)
    rw [hw] at this; simp at this
  | finish hp hw hst => have := H.stages _ (hlen hst); rw [hst] at this; simp at this
  | search hq hst => rw [H.search, hd _ (hlen hst)] at hq; simp at hq
  | take hlg => rw [H.lg] at hlg; simp at hlg
  | write hlg => rw [H.lg] at hlg; simp at hlg
  | release hlg => rw [H.lg] at hlg; simp at hlg
  | enter hcl => have := hung_busy H; rw [hcl] at this; simp [Pool.CPc.busy] at this
  | prep hen => rw [H.entry] at hen; simp at hen
  | call hen => rw [H.entry] at hen; simp at hen

theorem lifted_hung {N : Int} {f : LockLevel.FSt S A R X Y} {hf : List (Search.Event S A R)}
    (hr : Reachable env m hash alg code n s0 dp tm tb none s h) (L : Lifted true n N f hf s h)
    (hi : ∀ (w : Nat) p, f.ws[w]? = some p → p ≠ .out .idle) : Hung n f s := by
  have I := sinv_reach hr
  refine ⟨L.search, L.lg, L.entry, .inl L.cl, L.trial, ?_⟩
  intro i hin
  rcases L.stages i hin with hx | hx
  · have := I.idle i _ hx (by simp)
    rw [L.search] at this
    exact absurd rfl (hi i _ this)
  · exact hx

theorem hung_exec {f : LockLevel.FSt S A R X Y} (hn : 0 < n) (hd : ∀ (w : Nat), w < n → ∀ ch, LockLevel.fstep env m hash alg code f w ch = none)
    (ls : List (Label S A)) : ∀ (s : St S A R X Y) (h : List (Event S A R)), Reachable env m hash alg code n s0 dp tm tb none s h → Hung n f s →
    ∀ s' h', execFrom env m hash alg code s h ls = some (s', h') → Hung n f s' ∧ searchPart h' = searchPart h ∧
      (s.pool.cl = .joinWait → ls.countP Label.isSpurious = 0 → s'.pool.cl = .joinWait ∧ ls.countP Label.isProgress = 0) := by
  induction ls with
  | nil =>
    intro s h _ H s' h' hx
    simp only [execFrom, Option.some.injEq, Prod.mk.injEq] at hx
    obtain ⟨rfl, rfl⟩ := hx
    exact ⟨H, rfl, fun hc _ => ⟨hc, rfl⟩⟩
  | cons l ls ih =>
    intro s h hr H s' h' hx
    simp only [execFrom] at hx
    cases hst : step env m hash alg code s l with
    | none => rw [hst] at hx; simp at hx
    | some x =>
      rw [hst] at hx
      obtain ⟨s1, es⟩ := x
      obtain ⟨h1, h2, -, h4⟩ := hung_step hn hr H hd hst
      obtain ⟨i1, i2, i3⟩ := ih s1 _ (reach_snoc hr hst) h1 s' h' hx
      refine ⟨i1, by rw [i2, searchPart_append, h2]; rfl, ?_⟩
      intro hcl hc
      simp only [List.countP_cons] at hc ⊢
      have hsp : l.isSpurious = false := by
        cases hx : l.isSpurious with
        | false => rfl
        | true => simp [hx] at hc
      obtain ⟨j1, j2⟩ := h4 hcl hsp
      obtain ⟨k1, k2⟩ := i3 j1 (by omega)
      exact ⟨k1, by simp [j2, k2]⟩

end Verif.Prog
