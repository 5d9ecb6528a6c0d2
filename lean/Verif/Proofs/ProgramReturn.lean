import Verif.Proofs.ProgramLive
import Mathlib.Data.List.Induction

/-! # Calls return; what holds when nothing moves any more and when `join` has returned -/

set_option linter.unusedSectionVars false

namespace Verif.Prog

variable {S A R X Y : Type} [DecidableEq S] [DecidableEq A] [Add R] [Zero R]
variable {env : Search.Env S A R} {m : Search.Manager S R} {hash : Int × S → Nat} {alg : Search.Alg S A R X Y} {code : LockLevel.Code S A R X Y}
variable {n : Nat} {s0 : S} {dp tm : Int} {tb : List ((Int × S) × Option Nat)} {lg : Option Log.Logger} {s s' : St S A R X Y}
  {h : List (Event S A R)}

/-- A client inside a call makes no other call. -/
theorem no_call (hin : s.inside) {l : Label S A} {r : St S A R X Y × List (Event S A R)} (hr : Reachable env m hash alg code n s0 dp tm tb lg s h)
    (hs : step env m hash alg code s l = some r) : l.isCall = false := by
  have I := sinv_reach hr
  have hne : ¬ (s.pool.cl = .idle ∧ s.entry = none) := by
    rintro ⟨h1, h2⟩
    rcases hin with h | h | h
    · exact h h2
    · simp [h1, Pool.CPc.busy] at h
    · simp [h1] at h
  cases l with
  | enter k lim b =>
    simp [step, hne] at hs
  | pool l =>
    cases l with
    | join =>
      simp only [step, poolStep, Pool.step] at hs
      split at hs
      · simp at hs
      · by_cases hi : s.pool.cl = .idle
        · have : s.entry ≠ none := fun e => hne ⟨hi, e⟩
          simp [hi, this] at hs
        · simp [hi] at hs
    | dtor =>
      simp only [step, poolStep, Pool.step] at hs
      split at hs
      · simp at hs
      · by_cases hi : s.pool.cl = .idle ∧ s.pool.lock = none
        · have : s.entry ≠ none := fun e => hne ⟨hi.1, e⟩
          simp [hi, this] at hs
        · simp [hi] at hs
    | _ => rfl
  | _ => rfl

/-- The time limit does not change while the client is inside a call. -/
theorem limit_step (hr : Reachable env m hash alg code n s0 dp tm tb lg s h) (hin : s.inside) (hin' : s'.inside)
    (hl : s.pool.cl = .dtorJoin ∨ s.limit = none) {l : Label S A} {es : List (Event S A R)} (hs : step env m hash alg code s l = some (s', es)) :
    s'.pool.cl = .dtorJoin ∨ s'.limit = none := by
  have I := sinv_reach hr
  have hcall := no_call hin hr hs
  have hpool : ∀ {l : Pool.Label} {p : Pool.St} {e : Option Pool.Event} {g : List Stage}, Pool.step s.pool l = some (p, e) →
      ({ s with pool := p, stages := g } : St S A R X Y).inside → p.cl = .dtorJoin ∨ ({ s with pool := p, stages := g } : St S A R X Y).limit = none := by
    intro l p e g hp hin'
    cases hen : s.entry with
    | some en =>
      have hcl := I.entry (by simp [hen])
      rcases hl with h | h
      · rw [hcl] at h; simp at h
      · exact .inr (by simpa [St.limit, hen] using h)
    | none =>
      rcases hin with h1 | h1 | h1
      · exact absurd hen h1
      · rcases hl with h | h
        · simp [h, Pool.CPc.busy] at h1
        · have := (Pool.busy_step h1 hp).2
          simp only [St.limit, hen] at h ⊢
          exact .inr (by rw [this]; exact h)
      · rcases Pool.cl_dtor_step (.inl h1) hp with h2 | h2
        · exact .inl h2
        · rcases hin' with h3 | h3 | h3
          · exact absurd hen h3
          · simp only [h2, Pool.CPc.busy] at h3; simp at h3
          · exact .inl h3
  cases (step_eff hs).2 with
  | quiet hp => exact hpool hp hin'
  | start hp => exact hpool hp hin'
  | finish hp => exact hpool hp hin'
  | enter => simp [Label.isCall] at hcall
  | prep hen =>
    rcases hl with h | h
    · exact .inl h
    · exact .inr (by simpa [St.limit, hen, Entry.limit] using h)
  | call hen hp =>
    have hcl := I.entry (by simp [hen])
    obtain ⟨-, -, -, rfl⟩ := pool_call hp
    rcases hl with h | h
    · rw [hcl] at h; simp at h
    · exact .inr (by simpa [St.limit, hen, Entry.limit] using h)
  | _ => exact hl

theorem not_expired (hr : Reachable env m hash alg code n s0 dp tm tb lg s h) (hl : s.pool.cl = .dtorJoin ∨ s.limit = none)
    (hb : s.pool.cl.busy = true) : s.pool.expired = false := by
  have I := sinv_reach hr
  rcases hl with h | h
  · simp [h, Pool.CPc.busy] at hb
  · have hen : s.entry = none := by
      by_contra hx
      have := I.entry hx
      simp [this, Pool.CPc.busy] at hb
    simp only [St.limit, hen] at h
    simp [Pool.St.expired, h]

theorem returns (P : LockLevel.Progresses env m hash alg code n s0 dp tm tb) (hn : 0 < n) {st : Nat → St S A R X Y} {lab : Nat → Label S A}
    (hr : Reachable env m hash alg code n s0 dp tm tb lg (st 0) h) (hin : (st 0).inside)
    (hl : (st 0).pool.cl = .dtorJoin ∨ (st 0).limit = none) (F : FairRun env m hash alg code st lab) : ∃ k, ¬ (st k).inside := by
  by_contra hno
  simp only [not_exists, not_not] at hno
  have hinv : ∀ k, (∃ g, Reachable env m hash alg code n s0 dp tm tb lg (st k) g) ∧ ((st k).pool.cl = .dtorJoin ∨ (st k).limit = none) := by
    intro k
    induction k with
    | zero => exact ⟨⟨h, hr⟩, hl⟩
    | succ k ih =>
      obtain ⟨⟨g, hg⟩, hlk⟩ := ih
      obtain ⟨es, he⟩ := F.run k
      exact ⟨⟨_, reach_snoc hg he⟩, limit_step hg (hno k) (hno (k + 1)) hlk he⟩
  obtain ⟨N, hN⟩ := F.spurious
  obtain ⟨k, -, hk⟩ := run_ends P st lab hr F.run (N := N) (fun k hk => ⟨hN k hk, by
    obtain ⟨⟨g, hg⟩, -⟩ := hinv k
    obtain ⟨es, he⟩ := F.run k
    exact no_call (hno k) hg he⟩) F.fair
  obtain ⟨⟨g, hg⟩, hlk⟩ := hinv k
  exact hk (can_inside P hn hg (hno k) (not_expired hg hlk))

/-- There is a fair run from every reachable state. -/
theorem fair_run (P : LockLevel.Progresses env m hash alg code n s0 dp tm tb) (hr : Reachable env m hash alg code n s0 dp tm tb lg s h) :
    ∃ st lab, st 0 = s ∧ FairRun env m hash alg code st lab := by
  classical
  let T := { p : St S A R X Y // ∃ g, Reachable env m hash alg code n s0 dp tm tb lg p g }
  have next : ∀ p : T, ∃ (l : Label S A) (q : T), (∃ es, step env m hash alg code p.1 l = some (q.1, es)) ∧ l.isSpurious = false ∧
      (CanStep env m hash alg code p.1 → l.isProgress = true) := by
    rintro ⟨p, g, hg⟩
    by_cases hc : CanStep env m hash alg code p
    · obtain ⟨l, ⟨q, es⟩, h1, h2⟩ := hc
      refine ⟨l, ⟨q, _, reach_snoc hg h2⟩, ⟨es, h2⟩, ?_, fun _ => h1⟩
      cases l with
      | pool l => cases l <;> simp_all [Label.isProgress, Label.isSpurious, Pool.Label.isProgress, Pool.Label.isSpurious]
      | _ => rfl
    · have hcr := (P (reach_project hg).2).1
      have h2 : step env m hash alg code p (.pool .tick) = some ({ p with pool := { p.pool with now := p.pool.now + 1 } }, []) := by
        simp [step, hcr, poolStep, Pool.step]
      exact ⟨.pool .tick, ⟨_, _, reach_snoc hg h2⟩, ⟨_, h2⟩, rfl, fun hx => absurd hx hc⟩
  choose l q h1 h2 h3 using next
  let st : Nat → T := fun k => Nat.rec ⟨s, h, hr⟩ (fun _ p => q p) k
  refine ⟨fun k => (st k).1, fun k => l (st k), rfl, fun k => h1 (st k), ⟨0, fun k _ => h2 (st k)⟩, ?_⟩
  intro N hN
  exact ⟨N, Nat.le_refl _, h3 (st N) (hN N (Nat.le_refl _))⟩

/-- What a state looks like in which nobody can take a step. -/
theorem stuck_state (P : LockLevel.Progresses env m hash alg code n s0 dp tm tb) (hn : 0 < n)
    (hr : Reachable env m hash alg code n s0 dp tm tb lg s h) (hs : ¬ CanStep env m hash alg code s) :
    (∀ (i : Nat) g, s.stages[i]? = some g → g = .done) ∧ s.entry = none ∧
    (∀ i : Nat, i < n → s.pool.ws[i]? = some .waiting ∨ s.pool.ws[i]? = some .exited) ∧
    (s.pool.cl = .idle ∨ s.pool.cl = .dead ∨ (s.pool.cl = .joinWait ∧ s.pool.expired = true)) := by
  have I := sinv_reach hr
  obtain ⟨⟨ls, hp⟩, hf⟩ := reach_project hr
  have H := Pool.inv_exec hp
  have hc := (P hf).1
  have hd : ∀ (i : Nat) g, s.stages[i]? = some g → g = .done := by
    intro i g hi
    by_contra hg
    exact hs (can_stage P hr hi hg)
  have hen : s.entry = none := by
    by_contra hx
    refine hs (can_inside P hn hr (.inl hx) ?_)
    rw [I.entry hx]; simp [Pool.CPc.busy]
  have hl : s.stages.length = s.pool.ws.length := by rw [I.slen, I.plen]
  have hnp : ∀ l : Pool.Label, l.isProgress = true → Pool.step s.pool l = none := by
    intro l h1
    cases h2 : Pool.step s.pool l with
    | none => rfl
    | some r => exact absurd (can_pool hc hd hl h1 h2) hs
  have hlock : s.pool.lock = none := by
    cases hk : s.pool.lock with
    | none => rfl
    | some o =>
      cases o with
      | worker i =>
        obtain ⟨r, hx⟩ := pool_holder H hk
        rw [hnp (.worker i) rfl] at hx; simp at hx
      | client =>
        have hcl := H.lockC.2 hk
        have := hnp .client rfl
        simp only [Pool.step, Pool.stepClient, hcl] at this
        split at this <;> simp at this
  refine ⟨hd, hen, ?_, ?_⟩
  · intro i hi
    have hlt : i < s.pool.ws.length := by rw [I.plen]; exact hi
    obtain ⟨w, hw⟩ : ∃ w, s.pool.ws[i]? = some w := ⟨_, List.getElem?_eq_getElem hlt⟩
    have h1 := hnp (.worker i) rfl
    have h2 := H.lockW i w hw
    simp only [Pool.step, Pool.stepWorker, hw] at h1
    cases w <;> simp [hlock, Pool.WPc.holds, hw] at h1 h2 ⊢
  · have h1 := hnp .client rfl
    simp only [Pool.step, Pool.stepClient] at h1
    cases hcl : s.pool.cl <;> simp [hcl, hlock] at h1 ⊢
    · have := H.lockC.1 hcl; rw [hlock] at this; simp at this
    · by_contra hx
      obtain ⟨l, r, g1, g2⟩ := Pool.not_stuck_busy H hn (by rw [hcl]; rfl) (by simpa using hx)
      rw [hnp l g1] at g2; simp at g2
    · obtain ⟨l, r, g1, g2⟩ := Pool.not_stuck_dtor H hcl
      rw [hnp l g1] at g2; simp at g2

theorem quiet_of_done (hr : Reachable env m hash alg code n s0 dp tm tb lg s h) (hd : ∀ (i : Nat) g, s.stages[i]? = some g → g = .done) :
    (∀ (w : Nat) pc, s.search.ws[w]? = some pc → pc = .out .idle) ∧ s.treeFree ∧
    numBegun h = Pool.numStarted (poolPart h) ∧ numCompleted h = Pool.numStarted (poolPart h) := by
  have I := sinv_reach hr
  obtain ⟨-, hf⟩ := reach_project hr
  have hidle : ∀ (w : Nat) pc, s.search.ws[w]? = some pc → pc = .out .idle := by
    intro w pc hw
    have hwl : w < s.stages.length := by
      rw [I.slen, ← I.wlen]; exact (List.getElem?_eq_some_iff.1 hw).1
    have hwg := List.getElem?_eq_getElem hwl
    have := I.idle w _ hwg (by rw [hd w _ hwg]; simp)
    rw [hw] at this; simpa using this
  have hz : ∀ (f : Stage → Bool), f .done = false → s.stages.countP f = 0 := by
    intro f hf
    rw [List.countP_eq_zero]
    intro a ha
    obtain ⟨i, hi⟩ := List.mem_iff_getElem?.1 ha
    rw [hd i a hi, hf]; simp
  refine ⟨hidle, ⟨?_, ?_⟩, ?_, ?_⟩
  · cases hk : s.logLock with
    | none => rfl
    | some j =>
      obtain ⟨b, hj⟩ := (I.held j).1 hk
      simpa using hd j _ hj
  · intro l
    rw [LockLevel.quiet_lock (LockLevel.linv_reach hf) (fun w pc hw => ⟨_, hidle w pc hw⟩)]
  · have := I.begun; rw [hz _ rfl] at this; exact this
  · have := I.complete; rw [hz _ rfl] at this; exact this

theorem done_of_settled (hr : Reachable env m hash alg code n s0 dp tm tb lg s h) (hs : Pool.settled (poolPart h) = true)
    (i : Nat) (g : Stage) (hi : s.stages[i]? = some g) : g = .done := by
  by_contra hg
  have I := sinv_reach hr
  obtain ⟨⟨ls, hp⟩, -⟩ := reach_project hr
  exact ((Pool.inv_exec hp).sett hs).2 i (I.trial i g hi hg)

/-- A step has at most one event. -/
theorem one_event {l : Label S A} {es : List (Event S A R)} (hs : step env m hash alg code s l = some (s', es)) : es.length ≤ 1 := by
  have ht : ∀ {α β : Type} (e : Option α) (f : α → β), (e.toList.map f).length ≤ 1 := by
    intro α β e f; cases e <;> simp
  cases (step_eff hs).2 <;> simp <;> try exact Option.length_toList_le

/-- What has been recorded up to some moment is the history of a reachable state. -/
theorem reach_suffix {a b : List (Event S A R)} (hr : Reachable env m hash alg code n s0 dp tm tb lg s (a ++ b)) :
    ∃ s', Reachable env m hash alg code n s0 dp tm tb lg s' b := by
  obtain ⟨ls, hx⟩ := hr
  have key : ∀ (ls : List (Label S A)) (s : St S A R X Y) (g a : List (Event S A R)),
      execFrom env m hash alg code (init env m alg n s0 dp tm tb lg) [] ls = some (s, g) → g = a ++ b →
      ∃ s', Reachable env m hash alg code n s0 dp tm tb lg s' b := by
    intro ls
    induction ls using List.reverseRecOn with
    | nil =>
      intro s g a hx hg
      simp only [execFrom, Option.some.injEq, Prod.mk.injEq] at hx
      obtain ⟨-, rfl⟩ := hx
      obtain ⟨-, rfl⟩ := List.append_eq_nil_iff.1 hg.symm
      exact ⟨_, [], rfl⟩
    | append_singleton ls l ih =>
      intro s g a hx hg
      have hx0 := hx
      rw [execFrom_append] at hx
      cases h1 : execFrom env m hash alg code (init env m alg n s0 dp tm tb lg) [] ls with
      | none => rw [h1] at hx; simp at hx
      | some x =>
        obtain ⟨s1, g1⟩ := x
        rw [h1] at hx
        simp only [Option.bind_some, execFrom] at hx
        cases h2 : step env m hash alg code s1 l with
        | none => rw [h2] at hx; simp at hx
        | some y =>
          obtain ⟨s2, es⟩ := y
          rw [h2] at hx
          simp only [Option.some.injEq, Prod.mk.injEq] at hx
          obtain ⟨rfl, rfl⟩ := hx
          have hl := one_event h2
          match es, hl with
          | [], _ => exact ih _ _ a h1 hg
          | [e], _ =>
            cases a with
            | nil =>
              simp only [List.nil_append] at hg
              subst hg
              exact ⟨_, _, hx0⟩
            | cons x a =>
              simp only [List.cons_append, List.nil_append, List.cons.injEq] at hg
              exact ih _ _ a h1 hg.2
  exact key ls s _ a hx rfl

/-- A worker outside a trial holds no mutex of the tree. -/
theorem no_lock_idle {f : LockLevel.FSt S A R X Y} {hf : List (Search.Event S A R)} (hr : LockLevel.FReachable env m hash alg code n s0 dp tm tb f hf)
    {i : Nat} (hi : f.ws[i]? = some (.out .idle)) (l : LockLevel.Lk) : f.lock l ≠ some i := by
  intro hl
  obtain ⟨pc, h1, h2⟩ := (LockLevel.linv_reach hr).only l i hl
  rw [hi] at h1
  simp only [Option.some.injEq] at h1
  subst h1
  simp [LockLevel.holds] at h2

end Verif.Prog
