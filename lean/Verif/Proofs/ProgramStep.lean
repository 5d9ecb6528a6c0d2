import Verif.Spec.Program
import Verif.Proofs.PoolLive
import Verif.Proofs.LockReach

/-! # The steps of the whole program, and its projections to the pool and to the search -/

set_option linter.unusedSectionVars false

namespace Verif.Prog

theorem notify_trial (l : List Pool.WPc) (i : Nat) : (l.map Pool.WPc.notify)[i]? = some .trial ↔ l[i]? = some .trial := by
  rw [Pool.getElem?_map_notify]
  cases l[i]? with
  | none => simp
  | some p => cases p <;> simp [Pool.WPc.notify]

theorem set_trial {l : List Pool.WPc} {i : Nat} {p q : Pool.WPc} (hp : l[i]? = some p) (h1 : p ≠ .trial) (h2 : q ≠ .trial) (j : Nat) :
    (l.set i q)[j]? = some .trial ↔ l[j]? = some .trial := by
  by_cases hj : i = j
  · subst hj
    rw [List.getElem?_set_self (List.getElem?_eq_some_iff.1 hp).1, hp]
    simp [h1, h2]
  · rw [List.getElem?_set_ne hj]

/-- What a step of the pool has to do with trials. -/
inductive PEff (s : Pool.St) : Pool.Label → Option Pool.Event → Pool.St → Prop
  | quiet {l e p} (h1 : ∀ x, e = some x → x.isCall = false ∧ x.isStart = false ∧ x.isFinish = false)
      (h2 : ∀ i : Nat, p.ws[i]? = some .trial ↔ s.ws[i]? = some .trial) (h3 : ∀ i, l = .worker i → s.ws[i]? ≠ some .trial) : PEff s l e p
  | start {i p} (hw : s.ws[i]? = some .chk2) (hp : p.ws = s.ws.set i .trial) : PEff s (.worker i) (some (.started i)) p
  | finish {i p} (hw : s.ws[i]? = some .trial) (hp : p.ws = s.ws.set i .wantLock) : PEff s (.worker i) (some (.finished i)) p

theorem pool_eff {s p : Pool.St} {l : Pool.Label} {e : Option Pool.Event} (h : Pool.step s l = some (p, e)) (hc : ∀ n lim b, l ≠ .call n lim b) :
    PEff s l e p := by
  cases l with
  | look i =>
    simp only [Pool.step] at h
    split at h
    · simp only [Option.some.injEq, Prod.mk.injEq] at h
      obtain ⟨rfl, rfl⟩ := h
      exact .quiet (by simp [Pool.Event.isCall, Pool.Event.isStart, Pool.Event.isFinish]) (fun _ => Iff.rfl) (by simp)
    · simp at h
  | swap x =>
    simp only [Pool.step] at h
    split at h
    · split at h <;>
      · simp only [Option.some.injEq, Prod.mk.injEq] at h
        obtain ⟨rfl, rfl⟩ := h
        exact .quiet (by simp [Pool.Event.isCall, Pool.Event.isStart, Pool.Event.isFinish]) (fun _ => Iff.rfl) (by simp)
    · simp at h
  | call n lim b => exact absurd rfl (hc n lim b)
  | join =>
    simp only [Pool.step] at h
    split at h
    · simp only [Option.some.injEq, Prod.mk.injEq] at h
      obtain ⟨rfl, rfl⟩ := h
      exact .quiet (by simp) (fun _ => Iff.rfl) (by simp)
    · simp at h
  | dtor =>
    simp only [Pool.step] at h
    split at h
    · simp only [Option.some.injEq, Prod.mk.injEq] at h
      obtain ⟨rfl, rfl⟩ := h
      exact .quiet (by simp [Pool.Event.isCall, Pool.Event.isStart, Pool.Event.isFinish]) (fun j => notify_trial _ j) (by simp)
    · simp at h
  | tick =>
    simp only [Pool.step, Option.some.injEq, Prod.mk.injEq] at h
    obtain ⟨rfl, rfl⟩ := h
    exact .quiet (by simp) (fun _ => Iff.rfl) (by simp)
  | spuriousC =>
    simp only [Pool.step] at h
    split at h
    · simp only [Option.some.injEq, Prod.mk.injEq] at h
      obtain ⟨rfl, rfl⟩ := h
      exact .quiet (by simp) (fun _ => Iff.rfl) (by simp)
    · simp at h
  | spuriousW i =>
    simp only [Pool.step] at h
    split at h
    · next hw =>
      simp only [Option.some.injEq, Prod.mk.injEq] at h
      obtain ⟨rfl, rfl⟩ := h
      exact .quiet (by simp) (fun j => set_trial hw (by simp) (by simp) j) (by simp)
    · simp at h
  | client =>
    simp only [Pool.step] at h
    unfold Pool.stepClient at h
    split at h
    · simp at h
    · simp only [Option.some.injEq, Prod.mk.injEq] at h
      obtain ⟨rfl, rfl⟩ := h
      exact .quiet (by simp) (fun j => notify_trial _ j) (by simp)
    · split at h
      · simp only [Option.some.injEq, Prod.mk.injEq] at h
        obtain ⟨rfl, rfl⟩ := h
        exact .quiet (by simp) (fun _ => Iff.rfl) (by simp)
      · simp at h
    · split at h <;>
      · simp only [Option.some.injEq, Prod.mk.injEq] at h
        obtain ⟨rfl, rfl⟩ := h
        exact .quiet (by simp [Pool.Event.isCall, Pool.Event.isStart, Pool.Event.isFinish]) (fun _ => Iff.rfl) (by simp)
    · simp at h
    · split at h
      · simp only [Option.some.injEq, Prod.mk.injEq] at h
        obtain ⟨rfl, rfl⟩ := h
        exact .quiet (by simp) (fun _ => Iff.rfl) (by simp)
      · simp at h
    · split at h
      · simp only [Option.some.injEq, Prod.mk.injEq] at h
        obtain ⟨rfl, rfl⟩ := h
        exact .quiet (by simp [Pool.Event.isCall, Pool.Event.isStart, Pool.Event.isFinish]) (fun _ => Iff.rfl) (by simp)
      · simp at h
    · simp at h
  | worker i =>
    simp only [Pool.step] at h
    split at h
    · next pc hw =>
      have hlt := (List.getElem?_eq_some_iff.1 hw).1
      have noTrial : ∀ {q : Pool.WPc}, pc ≠ .trial → q ≠ .trial → p.ws = s.ws.set i q → e = none → PEff s (.worker i) e p := by
        intro q h1 h2 h3 h4
        refine .quiet (by simp [h4]) (fun j => ?_) (by rintro j hj; cases hj; rw [hw]; simpa using h1)
        rw [h3]
        exact set_trial hw h1 h2 j
      cases pc with
      | wantLock | woken =>
        simp only [Pool.stepWorker] at h
        split at h
        · simp only [Option.some.injEq, Prod.mk.injEq] at h
          obtain ⟨rfl, rfl⟩ := h
          exact noTrial (by simp) (by simp) rfl rfl
        · simp at h
      | head | afterWait =>
        simp only [Pool.stepWorker] at h
        split at h <;>
        · simp only [Option.some.injEq, Prod.mk.injEq] at h
          obtain ⟨rfl, rfl⟩ := h
          exact noTrial (by simp) (by simp) rfl rfl
      | chk1 =>
        simp only [Pool.stepWorker] at h
        split at h
        · simp only [Option.some.injEq, Prod.mk.injEq] at h
          obtain ⟨rfl, rfl⟩ := h
          exact noTrial (by simp) (by simp) rfl rfl
        · simp only [Option.some.injEq, Prod.mk.injEq] at h
          obtain ⟨rfl, rfl⟩ := h
          refine .quiet (by simp) (fun j => ?_) (by rintro j hj; cases hj; rw [hw]; simp)
          have hw2 : (s.ws.map Pool.WPc.notify)[i]? = some .chk1 := by
            rw [Pool.getElem?_map_notify, hw]; rfl
          exact (set_trial hw2 (by simp) (by simp) j).trans (notify_trial _ j)
      | chk2 =>
        simp only [Pool.stepWorker] at h
        split at h
        · simp only [Option.some.injEq, Prod.mk.injEq] at h
          obtain ⟨rfl, rfl⟩ := h
          exact .start hw rfl
        · simp only [Option.some.injEq, Prod.mk.injEq] at h
          obtain ⟨rfl, rfl⟩ := h
          exact noTrial (by simp) (by simp) rfl rfl
      | trial =>
        simp only [Pool.stepWorker, Option.some.injEq, Prod.mk.injEq] at h
        obtain ⟨rfl, rfl⟩ := h
        exact .finish hw rfl
      | waiting => simp [Pool.stepWorker] at h
      | exited => simp [Pool.stepWorker] at h
    · simp at h

theorem pool_call {s p : Pool.St} {n : Int} {lim : Option Nat} {b : Bool} {e : Option Pool.Event}
    (h : Pool.step s (.call n lim b) = some (p, e)) : s.cl = .idle ∧ s.lock = none ∧ e = some (.called n lim) ∧
    p = { s with cl := .publish b, remaining := n, start := s.now, limit := lim } := by
  simp only [Pool.step] at h
  split at h
  · next hg =>
    simp only [Option.some.injEq, Prod.mk.injEq] at h
    exact ⟨hg.1, hg.2, h.2.symm, h.1.symm⟩
  · simp at h

variable {S A R X Y : Type}

theorem poolPart_append (a b : List (Event S A R)) : poolPart (a ++ b) = poolPart a ++ poolPart b := List.filterMap_append
theorem searchPart_append (a b : List (Event S A R)) : searchPart (a ++ b) = searchPart a ++ searchPart b := List.filterMap_append

@[simp] theorem poolPart_pool (l : List Pool.Event) : poolPart (l.map (.pool : Pool.Event → Event S A R)) = l := by
  induction l with
  | nil => rfl
  | cons e l ih => simp only [poolPart, List.map_cons, List.filterMap_cons] at ih ⊢; rw [ih]

@[simp] theorem searchPart_pool (l : List Pool.Event) : searchPart (l.map (.pool : Pool.Event → Event S A R)) = [] := by
  induction l with
  | nil => rfl
  | cons e l ih => simp only [searchPart, List.map_cons, List.filterMap_cons] at ih ⊢; rw [ih]

@[simp] theorem poolPart_search (l : List (Search.Event S A R)) : poolPart (l.map .search) = [] := by
  induction l with
  | nil => rfl
  | cons e l ih => simp only [poolPart, List.map_cons, List.filterMap_cons] at ih ⊢; rw [ih]

@[simp] theorem searchPart_search (l : List (Search.Event S A R)) : searchPart (l.map .search) = l := by
  induction l with
  | nil => rfl
  | cons e l ih => simp only [searchPart, List.map_cons, List.filterMap_cons] at ih ⊢; rw [ih]

variable [DecidableEq S] [DecidableEq A] [Add R] [Zero R]
variable {env : Search.Env S A R} {m : Search.Manager S R} {hash : Int × S → Nat} {alg : Search.Alg S A R X Y} {code : LockLevel.Code S A R X Y}

/-- The stage after a step of the trial. -/
def nextStage (lg : Option Log.Logger) : Option (Search.Event S A R) → Stage
  | some (.completed _) => if lg.isSome then .logWant else .done
  | _ => .running

/-- The effect of a step of the program. -/
inductive Eff (env : Search.Env S A R) (m : Search.Manager S R) (hash : Int × S → Nat) (alg : Search.Alg S A R X Y)
    (code : LockLevel.Code S A R X Y) (s : St S A R X Y) : Label S A → List (Event S A R) → St S A R X Y → Prop
  /-- a step of the pool that has nothing to do with trials or calls -/
  | quiet {l : Pool.Label} {p : Pool.St} {e : Option Pool.Event} (hp : Pool.step s.pool l = some (p, e))
      (h1 : ∀ x, e = some x → x.isCall = false ∧ x.isStart = false ∧ x.isFinish = false)
      (h2 : ∀ i : Nat, p.ws[i]? = some .trial ↔ s.pool.ws[i]? = some .trial)
      (h3 : ∀ i, l = .worker i → s.pool.ws[i]? ≠ some .trial) (h4 : l = .join ∨ l = .dtor → s.entry = none)
      (h5 : ∀ n lim b, l ≠ .call n lim b) :
      Eff env m hash alg code s (.pool l) (e.toList.map .pool) { s with pool := p }
  | start {i : Nat} {p : Pool.St} (hp : Pool.step s.pool (.worker i) = some (p, some (.started i))) (hw : s.pool.ws[i]? = some .chk2)
      (hws : p.ws = s.pool.ws.set i .trial) :
      Eff env m hash alg code s (.pool (.worker i)) [.pool (.started i)] { s with pool := p, stages := s.stages.set i .ready }
  | finish {i : Nat} {p : Pool.St} (hp : Pool.step s.pool (.worker i) = some (p, some (.finished i))) (hw : s.pool.ws[i]? = some .trial)
      (hst : s.stages[i]? = some .done) (hws : p.ws = s.pool.ws.set i .wantLock) :
      Eff env m hash alg code s (.pool (.worker i)) [.pool (.finished i)] { s with pool := p }
  | search {i : Nat} {ch : LockLevel.FChoice S A} {q : LockLevel.FSt S A R X Y} {e : Option (Search.Event S A R)} {g : Stage}
      (hq : LockLevel.fstep env m hash alg code s.search i ch = some (q, e)) (hst : s.stages[i]? = some g) (hg : g = .ready ∨ g = .running) :
      Eff env m hash alg code s (.search i ch) (e.toList.map .search) { s with search := q, stages := s.stages.set i (nextStage s.lg e) }
  | take {i : Nat} {L : Log.Logger} (hlg : s.lg = some L) (hst : s.stages[i]? = some .logWant) (hf : s.logLock = none) :
      Eff env m hash alg code s (.log i) []
        { s with lg := some (L.trialCompleted.shouldLog s.pool.now).2, logLock := some i, completed := s.completed + 1,
                 stages := s.stages.set i (.logHeld (L.trialCompleted.shouldLog s.pool.now).1) }
  | write {i : Nat} {L : Log.Logger} (hlg : s.lg = some L) (hst : s.stages[i]? = some (.logHeld true))
      (hf : s.search.lock (.d s.search.root) = none) :
      Eff env m hash alg code s (.log i) [.logged ⟨L.total s.pool.now, s.rootVisits⟩]
        { s with lg := some (L.log s.pool.now s.rootVisits), stages := s.stages.set i (.logHeld false) }
  | release {i : Nat} {L : Log.Logger} (hlg : s.lg = some L) (hst : s.stages[i]? = some (.logHeld false)) :
      Eff env m hash alg code s (.log i) []
        { s with lg := some (if s.completed = s.numTrials then L.updatePrior s.pool.now else L), logLock := none,
                 stages := s.stages.set i .done }
  | enter {n : Int} {lim : Option Nat} {b : Bool} (hcl : s.pool.cl = .idle) (hen : s.entry = none) :
      Eff env m hash alg code s (.enter n lim b) [] { s with entry := some (.wantLog n lim b) }
  | prep {n : Int} {lim : Option Nat} {b : Bool} {lg : Option Log.Logger} (hen : s.entry = some (.wantLog n lim b))
      (hlg : (s.lg = none ∧ lg = none) ∨ (s.logLock = none ∧ ∃ L, s.lg = some L ∧ lg = some (L.beginRun s.pool.now))) :
      Eff env m hash alg code s .run [] { s with entry := some (.wantLock n lim b), lg := lg }
  | call {n : Int} {lim : Option Nat} {b : Bool} {p : Pool.St} (hen : s.entry = some (.wantLock n lim b))
      (hp : Pool.step s.pool (.call n lim b) = some (p, some (.called n lim))) :
      Eff env m hash alg code s .run [.pool (.called n lim)] { s with pool := p, entry := none, numTrials := n }

theorem step_eff {s s' : St S A R X Y} {l : Label S A} {es : List (Event S A R)} (h : step env m hash alg code s l = some (s', es)) :
    s.search.crashed = none ∧ Eff env m hash alg code s l es s' := by
  unfold step at h
  split at h
  · simp at h
  next hc =>
  refine ⟨by simpa using hc, ?_⟩
  cases l with
  | pool l =>
    simp only at h
    unfold poolStep at h
    split at h
    · simp at h
    next p e hp =>
    have fin : ∀ (_ : ∀ n lim b, l ≠ .call n lim b) (_ : ∀ i, l = .worker i → (s.pool.ws[i]? ≠ some .trial ∧ p.ws[i]? ≠ some .trial))
        (_ : l = .join ∨ l = .dtor → s.entry = none), Eff env m hash alg code s (.pool l) (e.toList.map .pool) { s with pool := p } := by
      intro h1 h2 h3
      cases pool_eff hp h1 with
      | quiet g1 g2 g3 => exact .quiet hp g1 g2 g3 h3 h1
      | @start i p hw hws =>
        exact absurd (by rw [hws, List.getElem?_set_self (List.getElem?_eq_some_iff.1 hw).1]) (h2 _ rfl).2
      | @finish i p hw hws => exact absurd hw (h2 _ rfl).1
    cases l with
    | look i => simp at h
    | swap x => simp at h
    | call n lim b => simp at h
    | join | dtor =>
      simp only at h
      split at h
      · next hen =>
        simp only [Option.some.injEq, Prod.mk.injEq] at h
        obtain ⟨rfl, rfl⟩ := h
        exact fin (by simp) (by simp) (fun _ => hen)
      · simp at h
    | tick | spuriousW i | spuriousC | client =>
      simp only [Option.some.injEq, Prod.mk.injEq] at h
      obtain ⟨rfl, rfl⟩ := h
      exact fin (by simp) (by simp) (by simp)
    | worker i =>
      simp only at h
      cases pool_eff hp (by simp) with
      | quiet g1 g2 g3 =>
        have e1 := g3 i rfl
        have e2 : p.ws[i]? ≠ some .trial := fun hx => e1 ((g2 i).1 hx)
        simp only [e1, e2, if_false, Option.some.injEq, Prod.mk.injEq] at h
        obtain ⟨rfl, rfl⟩ := h
        exact .quiet hp g1 g2 g3 (by simp) (by simp)
      | start hw hws =>
        have e1 : s.pool.ws[i]? ≠ some .trial := by rw [hw]; simp
        have e2 : p.ws[i]? = some .trial := by rw [hws, List.getElem?_set_self (List.getElem?_eq_some_iff.1 hw).1]
        simp only [e1, e2, if_false, if_true, Option.some.injEq, Prod.mk.injEq] at h
        obtain ⟨rfl, rfl⟩ := h
        exact .start hp hw hws
      | finish hw hws =>
        simp only [hw, if_true] at h
        split at h
        · next hst =>
          simp only [Option.some.injEq, Prod.mk.injEq] at h
          obtain ⟨rfl, rfl⟩ := h
          exact .finish hp hw hst hws
        · simp at h
  | search i ch =>
    simp only at h
    unfold searchStep at h
    split at h
    · next hg =>
      split at h
      · simp at h
      · next q e hq =>
        simp only [Option.some.injEq, Prod.mk.injEq] at h
        obtain ⟨rfl, rfl⟩ := h
        have : ∃ g, s.stages[i]? = some g ∧ (g = .ready ∨ g = .running) := by
          rcases hg with hg | hg
          · exact ⟨_, hg, .inl rfl⟩
          · exact ⟨_, hg, .inr rfl⟩
        obtain ⟨g, h1, h2⟩ := this
        have E := Eff.search (env := env) (m := m) (hash := hash) (alg := alg) (code := code) hq h1 h2
        unfold nextStage at E
        exact E
    · simp at h
  | log i =>
    simp only at h
    unfold logStep at h
    split at h
    · simp at h
    next L hlg =>
    split at h
    · next hst =>
      split at h
      · next hf =>
        simp only [Option.some.injEq, Prod.mk.injEq] at h
        obtain ⟨rfl, rfl⟩ := h
        exact .take hlg hst hf
      · simp at h
    · next hst =>
      split at h
      · next hf =>
        simp only [Option.some.injEq, Prod.mk.injEq] at h
        obtain ⟨rfl, rfl⟩ := h
        exact .write hlg hst hf
      · simp at h
    · next hst =>
      simp only [Option.some.injEq, Prod.mk.injEq] at h
      obtain ⟨rfl, rfl⟩ := h
      exact .release hlg hst
    · simp at h
  | enter n lim b =>
    simp only at h
    split at h
    · next hg =>
      simp only [Option.some.injEq, Prod.mk.injEq] at h
      obtain ⟨rfl, rfl⟩ := h
      exact .enter hg.1 hg.2
    · simp at h
  | run =>
    simp only at h
    unfold runStep at h
    split at h
    · simp at h
    · next n lim b hen =>
      split at h
      · next hlg =>
        simp only [Option.some.injEq, Prod.mk.injEq] at h
        obtain ⟨rfl, rfl⟩ := h
        have := Eff.prep (env := env) (m := m) (hash := hash) (alg := alg) (code := code) hen (.inl ⟨hlg, rfl⟩)
        rw [← hlg] at this
        exact this
      · next L hlg =>
        split at h
        · next hf =>
          simp only [Option.some.injEq, Prod.mk.injEq] at h
          obtain ⟨rfl, rfl⟩ := h
          exact .prep hen (.inr ⟨hf, L, hlg, rfl⟩)
        · simp at h
    · next n lim b hen =>
      split at h
      · simp at h
      · next p e hp =>
        simp only [Option.some.injEq, Prod.mk.injEq] at h
        obtain ⟨rfl, rfl⟩ := h
        obtain ⟨-, -, rfl, -⟩ := pool_call hp
        exact .call hen hp

theorem execFrom_append (l1 l2 : List (Label S A)) (a : St S A R X Y) (ha : List (Event S A R)) :
    execFrom env m hash alg code a ha (l1 ++ l2) = (execFrom env m hash alg code a ha l1).bind fun x => execFrom env m hash alg code x.1 x.2 l2 := by
  induction l1 generalizing a ha with
  | nil => rfl
  | cons l l1 ih =>
    simp only [List.cons_append, execFrom]
    cases hst : step env m hash alg code a l with
    | none => rfl
    | some x => exact ih x.1 _

variable {n : Nat} {s0 : S} {dp tm : Int} {tb : List ((Int × S) × Option Nat)} {lg : Option Log.Logger} {s s' : St S A R X Y}
  {h : List (Event S A R)}

theorem reach_snoc (hr : Reachable env m hash alg code n s0 dp tm tb lg s h) {l : Label S A} {es : List (Event S A R)}
    (hs : step env m hash alg code s l = some (s', es)) : Reachable env m hash alg code n s0 dp tm tb lg s' (es ++ h) := by
  obtain ⟨ls, hx⟩ := hr
  exact ⟨ls ++ [l], by rw [execFrom_append, hx]; simp [execFrom, hs]⟩

/-- Induction over the steps of the program. -/
theorem reach_induct (P : St S A R X Y → List (Event S A R) → Prop) (h0 : P (init env m alg n s0 dp tm tb lg) [])
    (hs : ∀ s h l es s', P s h → s.search.crashed = none → Eff env m hash alg code s l es s' → P s' (es ++ h))
    (hr : Reachable env m hash alg code n s0 dp tm tb lg s h) : P s h := by
  obtain ⟨ls, hx⟩ := hr
  have key : ∀ (ls : List (Label S A)) a ha, P a ha → ∀ s h, execFrom env m hash alg code a ha ls = some (s, h) → P s h := by
    intro ls
    induction ls with
    | nil =>
      intro a ha hP s h hx
      simp only [execFrom, Option.some.injEq, Prod.mk.injEq] at hx
      obtain ⟨rfl, rfl⟩ := hx
      exact hP
    | cons l ls ih =>
      intro a ha hP s h hx
      simp only [execFrom] at hx
      cases hst : step env m hash alg code a l with
      | none => rw [hst] at hx; simp at hx
      | some x =>
        rw [hst] at hx
        obtain ⟨a', es⟩ := x
        exact ih a' _ (hs _ _ _ _ _ hP (step_eff hst).1 (step_eff hst).2) s h hx
  exact key ls _ _ h0 s h hx

/-- Induction over the steps of the program, with reachability at hand. -/
theorem reach_induct' (P : St S A R X Y → List (Event S A R) → Prop) (h0 : P (init env m alg n s0 dp tm tb lg) [])
    (hs : ∀ s h l es s', Reachable env m hash alg code n s0 dp tm tb lg s h → P s h → s.search.crashed = none →
      Eff env m hash alg code s l es s' → P s' (es ++ h))
    (hr : Reachable env m hash alg code n s0 dp tm tb lg s h) : P s h := by
  obtain ⟨ls, hx⟩ := hr
  have key : ∀ (ls : List (Label S A)) a ha, Reachable env m hash alg code n s0 dp tm tb lg a ha → P a ha →
      ∀ s h, execFrom env m hash alg code a ha ls = some (s, h) → P s h := by
    intro ls
    induction ls with
    | nil =>
      intro a ha _ hP s h hx
      simp only [execFrom, Option.some.injEq, Prod.mk.injEq] at hx
      obtain ⟨rfl, rfl⟩ := hx
      exact hP
    | cons l ls ih =>
      intro a ha hr hP s h hx
      simp only [execFrom] at hx
      cases hst : step env m hash alg code a l with
      | none => rw [hst] at hx; simp at hx
      | some x =>
        rw [hst] at hx
        obtain ⟨a', es⟩ := x
        exact ih a' _ (reach_snoc hr hst) (hs _ _ _ _ _ hr hP (step_eff hst).1 (step_eff hst).2) s h hx
  exact key ls _ _ ⟨[], rfl⟩ h0 s h hx

/-- The pool and the search each see an execution of their own. -/
theorem reach_project (hr : Reachable env m hash alg code n s0 dp tm tb lg s h) :
    (∃ ls, Pool.exec n ls = some (s.pool, poolPart h)) ∧ LockLevel.FReachable env m hash alg code n s0 dp tm tb s.search (searchPart h) := by
  refine reach_induct (P := fun s h => (∃ ls, Pool.exec n ls = some (s.pool, poolPart h)) ∧
    LockLevel.FReachable env m hash alg code n s0 dp tm tb s.search (searchPart h)) ⟨⟨[], rfl⟩, ⟨[], rfl⟩⟩ ?_ hr
  intro s h l es s' ⟨⟨ls, h1⟩, h2⟩ _ E
  have snoc : ∀ {l : Pool.Label} {p : Pool.St} {e : Option Pool.Event}, Pool.step s.pool l = some (p, e) →
      ∃ ls, Pool.exec n ls = some (p, e.toList ++ poolPart h) := by
    intro l p e hp
    refine ⟨ls ++ [l], ?_⟩
    unfold Pool.exec at h1 ⊢
    rw [Pool.execFrom_append, h1]
    simp [Pool.execFrom, hp]
  cases E with
  | quiet hp =>
    rw [poolPart_append, searchPart_append, poolPart_pool, searchPart_pool]
    exact ⟨snoc hp, h2⟩
  | start hp | finish hp => exact ⟨snoc hp, h2⟩
  | call hen hp => exact ⟨snoc hp, h2⟩
  | @search i ch q e g hq =>
    rw [poolPart_append, searchPart_append, poolPart_search, searchPart_search]
    exact ⟨⟨ls, h1⟩, LockLevel.freach_append h2 (ls := [(i, ch)]) (by simp [LockLevel.fexec, hq])⟩
  | take | write | release | enter | prep => exact ⟨⟨ls, h1⟩, h2⟩

end Verif.Prog
