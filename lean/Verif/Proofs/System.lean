import Verif.Spec.System
import Verif.Proofs.PoolLive
import Verif.Proofs.SearchMore
import Verif.Proofs.SearchPrefix
import Verif.Props.Search

/-! # The system projects to the pool and to the search -/

set_option linter.unusedSectionVars false

namespace Verif.Sys

variable {S A R X Y : Type}

theorem poolPart_append (a b : List (Event S A R)) : poolPart (a ++ b) = poolPart a ++ poolPart b := List.filterMap_append
theorem searchPart_append (a b : List (Event S A R)) : searchPart (a ++ b) = searchPart a ++ searchPart b := List.filterMap_append
theorem loggedPart_append (a b : List (Event S A R)) : loggedPart (a ++ b) = loggedPart a ++ loggedPart b := List.filterMap_append

@[simp] theorem poolPart_pool (l : List Pool.Event) : poolPart (l.map (.pool : Pool.Event → Event S A R)) = l := by
  induction l with
  | nil => rfl
  | cons e l ih => simp only [poolPart, List.map_cons, List.filterMap_cons] at ih ⊢; rw [ih]

@[simp] theorem searchPart_pool (l : List Pool.Event) : searchPart (l.map (.pool : Pool.Event → Event S A R)) = [] := by
  induction l with
  | nil => rfl
  | cons e l ih => simp only [searchPart, List.map_cons, List.filterMap_cons] at ih ⊢; rw [ih]

@[simp] theorem loggedPart_pool (l : List Pool.Event) : loggedPart (l.map (.pool : Pool.Event → Event S A R)) = [] := by
  induction l with
  | nil => rfl
  | cons e l ih => simp only [loggedPart, List.map_cons, List.filterMap_cons] at ih ⊢; rw [ih]

@[simp] theorem poolPart_logged (l : List Log.Entry) : poolPart (l.map (.logged : Log.Entry → Event S A R)) = [] := by
  induction l with
  | nil => rfl
  | cons e l ih => simp only [poolPart, List.map_cons, List.filterMap_cons] at ih ⊢; rw [ih]

@[simp] theorem searchPart_logged (l : List Log.Entry) : searchPart (l.map (.logged : Log.Entry → Event S A R)) = [] := by
  induction l with
  | nil => rfl
  | cons e l ih => simp only [searchPart, List.map_cons, List.filterMap_cons] at ih ⊢; rw [ih]

@[simp] theorem loggedPart_logged (l : List Log.Entry) : loggedPart (l.map (.logged : Log.Entry → Event S A R)) = l := by
  induction l with
  | nil => rfl
  | cons e l ih => simp only [loggedPart, List.map_cons, List.filterMap_cons] at ih ⊢; rw [ih]

theorem poolPart_finish (i : Nat) (l : List Log.Entry) (t : Nat) (h : List (Event S A R)) :
    poolPart ((Event.pool (.finished i) :: (l.map .logged ++ [.reported t])) ++ h) = .finished i :: poolPart h := by
  rw [List.cons_append, List.append_assoc]
  show Pool.Event.finished i :: poolPart (_ ++ _) = _
  rw [poolPart_append, poolPart_logged]; rfl

theorem searchPart_finish (i : Nat) (l : List Log.Entry) (t : Nat) (h : List (Event S A R)) :
    searchPart ((Event.pool (.finished i) :: (l.map .logged ++ [.reported t])) ++ h) = searchPart h := by
  rw [List.cons_append, List.append_assoc]
  show searchPart (_ ++ _) = _
  rw [searchPart_append, searchPart_logged]; rfl

theorem loggedPart_finish (i : Nat) (l : List Log.Entry) (t : Nat) (h : List (Event S A R)) :
    loggedPart ((Event.pool (.finished i) :: (l.map .logged ++ [.reported t])) ++ h) = l ++ loggedPart h := by
  rw [List.cons_append, List.append_assoc]
  show loggedPart (_ ++ _) = _
  rw [loggedPart_append, loggedPart_logged]; rfl

variable [DecidableEq S] [DecidableEq A] [Add R] [Zero R]
variable {env : Search.Env S A R} {m : Search.Manager S R} {alg : Search.Alg S A R X Y}

/-- The effect of a step of the system. -/
inductive Eff (env : Search.Env S A R) (m : Search.Manager S R) (alg : Search.Alg S A R X Y) (s : St S A R X Y) :
    List (Event S A R) → St S A R X Y → Prop
  /-- a step of the pool that has nothing to do with trials or calls -/
  | quiet (l : Pool.Label) (p : Pool.St) (e : Option Pool.Event) : Pool.step s.pool l = some (p, e) →
    (∀ x, e = some x → x.isCall = false ∧ x.isStart = false ∧ x.isFinish = false) →
    (∀ i : Nat, p.ws[i]? = some .trial ↔ s.pool.ws[i]? = some .trial) →
    (∀ i, l = .worker i → s.pool.ws[i]? ≠ some .trial) →
    Eff env m alg s (e.toList.map .pool) { s with pool := p }
  | call (n : Int) (lim : Option Nat) (b : Bool) (p : Pool.St) : Pool.step s.pool (.call n lim b) = some (p, some (.called n lim)) →
    s.prep = true → p.ws = s.pool.ws →
    Eff env m alg s [.pool (.called n lim)] { s with pool := p, prep := false, numTrials := n }
  | start (i : Nat) (p : Pool.St) : Pool.step s.pool (.worker i) = some (p, some (.started i)) → s.pool.ws[i]? = some .chk2 →
    p.ws = s.pool.ws.set i .trial →
    Eff env m alg s [.pool (.started i)] { s with pool := p, stages := s.stages.set i .ready }
  | finish (i : Nat) (p : Pool.St) : Pool.step s.pool (.worker i) = some (p, some (.finished i)) → s.pool.ws[i]? = some .trial →
    s.stages[i]? = some .done → p.ws = s.pool.ws.set i .wantLock → p.now = s.pool.now →
    Eff env m alg s (.pool (.finished i) :: (s.newEntry.toList.map .logged ++ [.reported s.pool.now])) (St.tryLog { s with pool := p })
  | search (i : Nat) (ch : Search.Choice S A) (q : Search.St S A R X Y) (e : Search.Event S A R) (g g' : Stage) :
    Search.step env m alg s.search i ch = some (q, e) → s.pool.ws[i]? = some .trial → s.stages[i]? = some g → g ≠ .done →
    (g' = .done ↔ ∃ w, e = .completed w) → g' ≠ .ready →
    Eff env m alg s [.search e] { s with search := q, stages := s.stages.set i g' }
  | prep : s.pool.cl = .idle → s.prep = false →
    Eff env m alg s [.entered s.pool.now] { s with prep := true, lg := s.lg.map fun L => L.beginRun s.pool.now }

theorem notify_trial (l : List Pool.WPc) (i : Nat) : (l.map Pool.WPc.notify)[i]? = some .trial ↔ l[i]? = some .trial := by
  rw [Pool.getElem?_map_notify]
  cases l[i]? with
  | none => simp
  | some p => cases p <;> simp [Pool.WPc.notify]

theorem set_trial {l : List Pool.WPc} {i : Nat} {p q : Pool.WPc} (hp : l[i]? = some p) (h1 : p ≠ .trial) (h2 : q ≠ .trial) (j : Nat) :
    (l.set i q)[j]? = some .trial ↔ l[j]? = some .trial := by
  by_cases hj : i = j
  · subst hj
    rw [List.getElem?_set_self (List.getElem?_eq_some_iff.1 hp).1, hp]
    simp [h1, h2]
  · rw [List.getElem?_set_ne hj]

theorem step_eff {s s' : St S A R X Y} {l : Label S A} {es : List (Event S A R)} (h : step env m alg s l = some (s', es)) :
    s.search.crashed = none ∧ Eff env m alg s es s' := by
  unfold step at h
  split at h
  · simp at h
  · next hc =>
    refine ⟨by simpa using hc, ?_⟩
    cases l with
    | pool l =>
      simp only at h
      unfold poolStep at h
      split at h
      · simp at h
      · next p e hp =>
        cases l with
        | look i => simp at h
        | swap x => simp at h
        | call n lim b =>
          simp only at h
          split at h
          · next hprep =>
            simp only [Option.some.injEq, Prod.mk.injEq] at h
            obtain ⟨rfl, rfl⟩ := h
            have hp' := hp
            unfold Pool.step at hp
            simp only at hp
            split at hp
            · simp only [Option.some.injEq, Prod.mk.injEq] at hp
              obtain ⟨rfl, rfl⟩ := hp
              exact .call n lim b _ hp' hprep rfl
            · simp at hp
          · simp at h
        | join =>
          simp only at h
          split at h
          · simp at h
          · simp only [Option.some.injEq, Prod.mk.injEq] at h
            obtain ⟨rfl, rfl⟩ := h
            have hp' := hp
            unfold Pool.step at hp
            simp only at hp
            split at hp
            · simp only [Option.some.injEq, Prod.mk.injEq] at hp
              obtain ⟨rfl, rfl⟩ := hp
              exact .quiet _ _ _ hp' (by simp) (fun _ => Iff.rfl) (by simp)
            · simp at hp
        | dtor =>
          simp only at h
          split at h
          · simp at h
          · simp only [Option.some.injEq, Prod.mk.injEq] at h
            obtain ⟨rfl, rfl⟩ := h
            have hp' := hp
            unfold Pool.step at hp
            simp only at hp
            split at hp
            · simp only [Option.some.injEq, Prod.mk.injEq] at hp
              obtain ⟨rfl, rfl⟩ := hp
              exact .quiet _ _ _ hp' (by simp [Pool.Event.isCall, Pool.Event.isStart, Pool.Event.isFinish]) (fun j => notify_trial _ j) (by simp)
            · simp at hp
        | tick =>
          simp only [Option.some.injEq, Prod.mk.injEq] at h
          obtain ⟨rfl, rfl⟩ := h
          have hp' := hp
          simp only [Pool.step, Option.some.injEq, Prod.mk.injEq] at hp
          obtain ⟨rfl, rfl⟩ := hp
          exact .quiet _ _ _ hp' (by simp) (fun _ => Iff.rfl) (by simp)
        | spuriousC =>
          simp only [Option.some.injEq, Prod.mk.injEq] at h
          obtain ⟨rfl, rfl⟩ := h
          have hp' := hp
          simp only [Pool.step] at hp
          split at hp
          · simp only [Option.some.injEq, Prod.mk.injEq] at hp
            obtain ⟨rfl, rfl⟩ := hp
            exact .quiet _ _ _ hp' (by simp) (fun _ => Iff.rfl) (by simp)
          · simp at hp
        | spuriousW i =>
          simp only [Option.some.injEq, Prod.mk.injEq] at h
          obtain ⟨rfl, rfl⟩ := h
          have hp' := hp
          simp only [Pool.step] at hp
          split at hp
          · next hw =>
            simp only [Option.some.injEq, Prod.mk.injEq] at hp
            obtain ⟨rfl, rfl⟩ := hp
            exact .quiet _ _ _ hp' (by simp) (fun j => set_trial hw (by simp) (by simp) j) (by simp)
          · simp at hp
        | client =>
          simp only [Option.some.injEq, Prod.mk.injEq] at h
          obtain ⟨rfl, rfl⟩ := h
          have hp' := hp
          simp only [Pool.step] at hp
          unfold Pool.stepClient at hp
          split at hp
          · simp at hp
          · simp only [Option.some.injEq, Prod.mk.injEq] at hp
            obtain ⟨rfl, rfl⟩ := hp
            exact .quiet _ _ _ hp' (by simp) (fun j => notify_trial _ j) (by simp)
          · split at hp
            · simp only [Option.some.injEq, Prod.mk.injEq] at hp
              obtain ⟨rfl, rfl⟩ := hp
              exact .quiet _ _ _ hp' (by simp) (fun _ => Iff.rfl) (by simp)
            · simp at hp
          · split at hp
            · simp only [Option.some.injEq, Prod.mk.injEq] at hp
              obtain ⟨rfl, rfl⟩ := hp
              exact .quiet _ _ _ hp' (by simp) (fun _ => Iff.rfl) (by simp)
            · simp only [Option.some.injEq, Prod.mk.injEq] at hp
              obtain ⟨rfl, rfl⟩ := hp
              exact .quiet _ _ _ hp' (by simp [Pool.Event.isCall, Pool.Event.isStart, Pool.Event.isFinish]) (fun _ => Iff.rfl) (by simp)
          · simp at hp
          · split at hp
            · simp only [Option.some.injEq, Prod.mk.injEq] at hp
              obtain ⟨rfl, rfl⟩ := hp
              exact .quiet _ _ _ hp' (by simp) (fun _ => Iff.rfl) (by simp)
            · simp at hp
          · split at hp
            · simp only [Option.some.injEq, Prod.mk.injEq] at hp
              obtain ⟨rfl, rfl⟩ := hp
              exact .quiet _ _ _ hp' (by simp [Pool.Event.isCall, Pool.Event.isStart, Pool.Event.isFinish]) (fun _ => Iff.rfl) (by simp)
            · simp at hp
          · simp at hp
        | worker i =>
          have hp' := hp
          simp only [Pool.step] at hp
          split at hp
          · next pc hw =>
            have hlt := (List.getElem?_eq_some_iff.1 hw).1
            have noTrial : ∀ {q : Pool.WPc}, pc ≠ .trial → q ≠ .trial → p.ws = s.pool.ws.set i q → (∀ x, e = some x → x.isCall = false ∧ x.isStart = false ∧ x.isFinish = false) →
                Eff env m alg s es s' := by
              intro q h1 h2 h3 h4
              have e1 : ¬ (s.pool.ws[i]? = some .trial) := by rw [hw]; simpa using h1
              have e2 : ¬ (p.ws[i]? = some .trial) := by
                rw [h3, List.getElem?_set_self hlt]; simpa using h2
              simp only [e1, e2, if_false, Option.some.injEq, Prod.mk.injEq] at h
              obtain ⟨rfl, rfl⟩ := h
              refine .quiet _ _ _ hp' h4 (fun j => ?_) (by rintro j hj; cases hj; exact e1)
              rw [h3]
              exact set_trial hw h1 h2 j
            cases pc with
            | wantLock =>
              simp only [Pool.stepWorker] at hp
              split at hp
              · simp only [Option.some.injEq, Prod.mk.injEq] at hp
                obtain ⟨rfl, rfl⟩ := hp
                exact noTrial (q := .head) (by simp) (by simp) rfl (by simp)
              · simp at hp
            | head =>
              simp only [Pool.stepWorker] at hp
              split at hp
              · simp only [Option.some.injEq, Prod.mk.injEq] at hp
                obtain ⟨rfl, rfl⟩ := hp
                exact noTrial (q := .chk1) (by simp) (by simp) rfl (by simp)
              · simp only [Option.some.injEq, Prod.mk.injEq] at hp
                obtain ⟨rfl, rfl⟩ := hp
                exact noTrial (q := .exited) (by simp) (by simp) rfl (by simp)
            | chk1 =>
              simp only [Pool.stepWorker] at hp
              split at hp
              · simp only [Option.some.injEq, Prod.mk.injEq] at hp
                obtain ⟨rfl, rfl⟩ := hp
                exact noTrial (q := .chk2) (by simp) (by simp) rfl (by simp)
              · simp only [Option.some.injEq, Prod.mk.injEq] at hp
                obtain ⟨rfl, rfl⟩ := hp
                have e1 : ¬ (s.pool.ws[i]? = some .trial) := by rw [hw]; simp
                have e2 : ¬ ((s.pool.notifyAll.setW i .chk2).ws[i]? = some .trial) := by
                  show ¬ (((s.pool.ws.map Pool.WPc.notify).set i .chk2)[i]? = some .trial)
                  rw [List.getElem?_set_self (by simpa using hlt)]; simp
                simp only [e1, e2, if_false, Option.some.injEq, Prod.mk.injEq] at h
                obtain ⟨rfl, rfl⟩ := h
                refine .quiet _ _ _ hp' (by simp) (fun j => ?_) (by rintro j hj; cases hj; exact e1)
                have hw2 : (s.pool.ws.map Pool.WPc.notify)[i]? = some .chk1 := by
                  rw [Pool.getElem?_map_notify, hw]; rfl
                exact (set_trial hw2 (by simp) (by simp) j).trans (notify_trial _ j)
            | chk2 =>
              simp only [Pool.stepWorker] at hp
              split at hp
              · simp only [Option.some.injEq, Prod.mk.injEq] at hp
                obtain ⟨rfl, rfl⟩ := hp
                have e1 : ¬ (s.pool.ws[i]? = some .trial) := by rw [hw]; simp
                have e2 : (s.pool.setW i .trial).ws[i]? = some .trial := List.getElem?_set_self hlt
                simp only [e1, e2, if_false, if_true, Option.some.injEq, Prod.mk.injEq] at h
                obtain ⟨rfl, rfl⟩ := h
                exact .start i _ hp' hw rfl
              · simp only [Option.some.injEq, Prod.mk.injEq] at hp
                obtain ⟨rfl, rfl⟩ := hp
                exact noTrial (q := .waiting) (by simp) (by simp) rfl (by simp)
            | waiting => simp [Pool.stepWorker] at hp
            | woken =>
              simp only [Pool.stepWorker] at hp
              split at hp
              · simp only [Option.some.injEq, Prod.mk.injEq] at hp
                obtain ⟨rfl, rfl⟩ := hp
                exact noTrial (q := .afterWait) (by simp) (by simp) rfl (by simp)
              · simp at hp
            | afterWait =>
              simp only [Pool.stepWorker] at hp
              split at hp
              · simp only [Option.some.injEq, Prod.mk.injEq] at hp
                obtain ⟨rfl, rfl⟩ := hp
                exact noTrial (q := .chk2) (by simp) (by simp) rfl (by simp)
              · simp only [Option.some.injEq, Prod.mk.injEq] at hp
                obtain ⟨rfl, rfl⟩ := hp
                exact noTrial (q := .exited) (by simp) (by simp) rfl (by simp)
            | trial =>
              simp only [Pool.stepWorker, Option.some.injEq, Prod.mk.injEq] at hp
              obtain ⟨rfl, rfl⟩ := hp
              simp only [hw, if_true] at h
              split at h
              · next hst =>
                simp only [Option.some.injEq, Prod.mk.injEq] at h
                obtain ⟨rfl, rfl⟩ := h
                exact .finish i _ hp' hw hst rfl rfl
              · simp at h
            | exited => simp [Pool.stepWorker] at hp
          · simp at hp
    | search i ch =>
      simp only at h
      unfold searchStep at h
      split at h
      · next hw =>
        split at h
        · simp at h
        · simp at h
        · next g hne hst =>
          split at h
          · simp at h
          · next q e hq =>
            simp only [Option.some.injEq, Prod.mk.injEq] at h
            obtain ⟨rfl, rfl⟩ := h
            refine .search i ch q e g _ hq hw hst (by rintro rfl; exact hne rfl) ?_ ?_
            · cases e <;> simp
            · cases e <;> simp
      · simp at h
    | prep =>
      simp only at h
      split at h
      · next hg =>
        simp only [Option.some.injEq, Prod.mk.injEq] at h
        obtain ⟨rfl, rfl⟩ := h
        exact .prep hg.1 hg.2
      · simp at h

/-- Induction over the steps of the system. -/
theorem reach_induct (P : St S A R X Y → List (Event S A R) → Prop) {n : Nat} {s0 : S} {dp tm : Int} {tb : List ((Int × S) × Option Nat)}
    {lg : Option Log.Logger} (h0 : P (init env m alg n s0 dp tm tb lg) [])
    (hs : ∀ s h es s', Reachable env m alg n s0 dp tm tb lg s h → P s h → s.search.crashed = none → Eff env m alg s es s' →
      Reachable env m alg n s0 dp tm tb lg s' (es ++ h) → P s' (es ++ h))
    {s : St S A R X Y} {h : List (Event S A R)} (hr : Reachable env m alg n s0 dp tm tb lg s h) : P s h := by
  obtain ⟨ls, hx⟩ := hr
  have app : ∀ (l1 l2 : List (Label S A)) (a : St S A R X Y) (ha : List (Event S A R)), execFrom env m alg a ha (l1 ++ l2) =
      (execFrom env m alg a ha l1).bind fun x => execFrom env m alg x.1 x.2 l2 := by
    intro l1
    induction l1 with
    | nil => intro l2 a ha; rfl
    | cons l l1 ih =>
      intro l2 a ha
      simp only [List.cons_append, execFrom]
      cases hst : step env m alg a l with
      | none => rfl
      | some x => exact ih l2 x.1 _
  have key : ∀ (l2 l1 : List (Label S A)) a ha, execFrom env m alg (init env m alg n s0 dp tm tb lg) [] l1 = some (a, ha) → P a ha →
      ∀ s h, execFrom env m alg a ha l2 = some (s, h) → P s h := by
    intro l2
    induction l2 with
    | nil =>
      intro l1 a ha _ hP s h hx
      simp only [execFrom, Option.some.injEq, Prod.mk.injEq] at hx
      obtain ⟨rfl, rfl⟩ := hx
      exact hP
    | cons l l2 ih =>
      intro l1 a ha h1 hP s h hx
      simp only [execFrom] at hx
      cases hst : step env m alg a l with
      | none => rw [hst] at hx; simp at hx
      | some x =>
        rw [hst] at hx
        obtain ⟨a', es⟩ := x
        simp only at hx
        have h2 : execFrom env m alg (init env m alg n s0 dp tm tb lg) [] (l1 ++ [l]) = some (a', es ++ ha) := by
          rw [app, h1]
          simp [execFrom, hst]
        exact ih (l1 ++ [l]) a' (es ++ ha) h2 (hs _ _ _ _ ⟨l1, h1⟩ hP (step_eff hst).1 (step_eff hst).2 ⟨_, h2⟩) s h hx
  exact key ls [] _ _ rfl h0 s h hx

/-- The pool and the search each see an execution of their own. -/
theorem reach_project {n : Nat} {s0 : S} {dp tm : Int} {tb : List ((Int × S) × Option Nat)}
    {lg : Option Log.Logger} {s : St S A R X Y} {h : List (Event S A R)} (hr : Reachable env m alg n s0 dp tm tb lg s h) :
    (∃ ls, Pool.exec n ls = some (s.pool, poolPart h)) ∧ Search.Reachable env m alg n s0 dp tm tb s.search (searchPart h) := by
  refine reach_induct (P := fun s h => (∃ ls, Pool.exec n ls = some (s.pool, poolPart h)) ∧
    Search.Reachable env m alg n s0 dp tm tb s.search (searchPart h)) ⟨⟨[], rfl⟩, ⟨[], rfl⟩⟩ ?_ hr
  intro s h es s' _ hP _ E _
  obtain ⟨⟨ls, h1⟩, ⟨ls2, h2⟩⟩ := hP
  have snoc : ∀ {l : Pool.Label} {p : Pool.St} {e : Option Pool.Event}, Pool.step s.pool l = some (p, e) →
      ∃ ls, Pool.exec n ls = some (p, e.toList ++ poolPart h) := by
    intro l p e hp
    refine ⟨ls ++ [l], ?_⟩
    unfold Pool.exec at h1 ⊢
    rw [Pool.execFrom_append, h1]
    simp [Pool.execFrom, hp]
  cases E with
  | quiet l p e hp _ _ _ =>
    rw [poolPart_append, searchPart_append, poolPart_pool, searchPart_pool]
    exact ⟨snoc hp, ⟨ls2, h2⟩⟩
  | call k lim b p hp _ _ => exact ⟨snoc hp, ⟨ls2, h2⟩⟩
  | start i p hp _ _ => exact ⟨snoc hp, ⟨ls2, h2⟩⟩
  | finish i p hp _ _ _ _ =>
    have e1 := poolPart_finish i s.newEntry.toList s.pool.now h
    have e2 := searchPart_finish i s.newEntry.toList s.pool.now h
    rw [e1, e2]
    have e3 : (St.tryLog { s with pool := p }).pool = p := by unfold St.tryLog; split <;> rfl
    have e4 : (St.tryLog { s with pool := p }).search = s.search := by unfold St.tryLog; split <;> rfl
    rw [e3, e4]
    exact ⟨snoc hp, ⟨ls2, h2⟩⟩
  | search i ch q e g g' hq _ _ _ _ _ =>
    refine ⟨⟨ls, h1⟩, ls2 ++ [(i, ch)], ?_⟩
    show _ = some (q, e :: searchPart h)
    rw [Search.exec_snoc, h2]
    simp [hq]
  | prep => exact ⟨⟨ls, h1⟩, ⟨ls2, h2⟩⟩

/-! ## Trials of the pool and of the search -/

/-- What a step does to the worker that makes it. -/
theorem eff_phase {st st' : Search.St S A R X Y} {w : Nat} {e : Search.Event S A R} (E : Search.Eff env m alg st w e st') :
    ∃ p p', st.ws[w]? = some p ∧ st'.ws[w]? = some p' ∧ (p = .idle ↔ e.isBegan = true) ∧ (p' = .idle ↔ e.isCompleted = true) := by
  have lt : ∀ {q}, st.ws[w]? = some q → w < st.ws.length := fun h => (List.getElem?_eq_some_iff.1 h).1
  cases E with
  | crash hc =>
    cases hc with
    | sel hw _ => exact ⟨_, _, hw, hw, by simp [Search.Event.isBegan], by simp [Search.Event.isCompleted]⟩
    | samp hw _ => exact ⟨_, _, hw, hw, by simp [Search.Event.isBegan], by simp [Search.Event.isCompleted]⟩
    | noMutex hw => exact ⟨_, _, hw, hw, by simp [Search.Event.isBegan], by simp [Search.Event.isCompleted]⟩
    | weak hw => exact ⟨_, _, hw, hw, by simp [Search.Event.isBegan], by simp [Search.Event.isCompleted]⟩
    | backV hw => exact ⟨_, _, hw, hw, by simp [Search.Event.isBegan], by simp [Search.Event.isCompleted]⟩
    | backC hw => exact ⟨_, _, hw, hw, by simp [Search.Event.isBegan], by simp [Search.Event.isCompleted]⟩
    | backD hw => exact ⟨_, _, hw, hw, by simp [Search.Event.isBegan], by simp [Search.Event.isCompleted]⟩
  | began hw => exact ⟨_, _, hw, List.getElem?_set_self (lt hw), by simp [Search.Event.isBegan], by simp [Search.Event.isCompleted]⟩
  | selOld hw => exact ⟨_, _, hw, List.getElem?_set_self (lt hw), by simp [Search.Event.isBegan], by simp [Search.Event.isCompleted]⟩
  | selNew hw => exact ⟨_, _, hw, List.getElem?_set_self (lt hw), by simp [Search.Event.isBegan], by simp [Search.Event.isCompleted]⟩
  | ended hw => exact ⟨_, _, hw, List.getElem?_set_self (lt hw), by simp [Search.Event.isBegan], by simp [Search.Event.isCompleted]⟩
  | stepOld hw => exact ⟨_, _, hw, List.getElem?_set_self (lt hw), by simp [Search.Event.isBegan], by simp [Search.Event.isCompleted]⟩
  | stepNew hw => exact ⟨_, _, hw, List.getElem?_set_self (lt hw), by simp [Search.Event.isBegan], by simp [Search.Event.isCompleted]⟩
  | stepHit hw => exact ⟨_, _, hw, List.getElem?_set_self (lt hw), by simp [Search.Event.isBegan], by simp [Search.Event.isCompleted]⟩
  | completed hw => exact ⟨_, _, hw, List.getElem?_set_self (lt hw), by simp [Search.Event.isBegan], by simp [Search.Event.isCompleted]⟩
  | backedC hw => exact ⟨_, _, hw, List.getElem?_set_self (lt hw), by simp [Search.Event.isBegan], by simp [Search.Event.isCompleted]⟩
  | backedD hw => exact ⟨_, _, hw, List.getElem?_set_self (lt hw), by simp [Search.Event.isBegan], by simp [Search.Event.isCompleted]⟩

def Stage.isReady : Stage → Bool | .ready => true | _ => false
def Stage.isRunning : Stage → Bool | .running => true | _ => false

/-- The workers' positions in the pool and in the search agree; every trial the pool starts is one trial of the search. -/
structure SInv (n : Nat) (s : St S A R X Y) (h : List (Event S A R)) : Prop where
  len : s.stages.length = n
  idle : ∀ (i : Nat) g, s.stages[i]? = some g → (g ≠ .running ↔ s.search.ws[i]? = some .idle)
  out : ∀ i : Nat, i < n → s.pool.ws[i]? ≠ some .trial → s.stages[i]? = some .done
  begun : Pool.numStarted (poolPart h) = (searchPart h).countP Search.Event.isBegan + s.stages.countP Stage.isReady
  comp : (searchPart h).countP Search.Event.isBegan = (searchPart h).countP Search.Event.isCompleted + s.stages.countP Stage.isRunning

theorem tryLog_pool (s : St S A R X Y) : s.tryLog.pool = s.pool := by unfold St.tryLog; split <;> rfl
theorem tryLog_search (s : St S A R X Y) : s.tryLog.search = s.search := by unfold St.tryLog; split <;> rfl
theorem tryLog_stages (s : St S A R X Y) : s.tryLog.stages = s.stages := by unfold St.tryLog; split <;> rfl

theorem numStarted_quiet {e : Option Pool.Event} (he : ∀ x, e = some x → x.isCall = false ∧ x.isStart = false ∧ x.isFinish = false)
    (hp : List Pool.Event) : Pool.numStarted (e.toList ++ hp) = Pool.numStarted hp := by
  cases e with
  | none => rfl
  | some x => simp [Pool.numStarted, (he x rfl).2.1]

theorem sinv {n : Nat} {s0 : S} {dp tm : Int} {tb : List ((Int × S) × Option Nat)}
    {lg : Option Log.Logger} {s : St S A R X Y} {h : List (Event S A R)} (hr : Reachable env m alg n s0 dp tm tb lg s h) : SInv n s h := by
  refine reach_induct (P := fun s h => SInv n s h) ?_ ?_ hr
  · refine ⟨by simp [init], ?_, ?_, ?_, ?_⟩
    · intro i g hg
      simp only [init, List.getElem?_replicate] at hg
      split at hg
      · next hi =>
        simp only [Option.some.injEq] at hg
        subst hg
        simp [init, Search.init, List.getElem?_replicate, hi]
      · simp at hg
    · intro i hi _
      simp [init, List.getElem?_replicate, hi]
    · simp [init, poolPart, searchPart, Pool.numStarted, List.countP_replicate, Stage.isReady]
    · simp [init, searchPart, List.countP_replicate, Stage.isRunning]
  · intro s h es s' hr I hnc E _
    have hlen : s.search.ws.length = n := Search.reach_len (reach_project hr).2
    cases E with
    | quiet l p e hp he hw hl =>
      refine ⟨I.len, I.idle, ?_, ?_, ?_⟩
      · intro i hi hne
        exact I.out i hi fun hc => hne ((hw i).2 hc)
      · rw [poolPart_append, searchPart_append, poolPart_pool, searchPart_pool, numStarted_quiet he]
        exact I.begun
      · rw [searchPart_append, searchPart_pool]
        exact I.comp
    | call k lim b p hp hprep hw =>
      refine ⟨I.len, I.idle, ?_, I.begun, I.comp⟩
      intro i hi hne
      exact I.out i hi (by rw [← hw]; exact hne)
    | start i p hp hw hws =>
      have hi : i < n := by
        obtain ⟨⟨ls, h1⟩, _⟩ := reach_project hr
        have := (List.getElem?_eq_some_iff.1 hw).1
        rwa [(Pool.inv_exec h1).len] at this
      have hdone := I.out i hi (by rw [hw]; simp)
      have c1 := Pool.countP_set' Stage.isReady s.stages i _ .ready hdone
      have c2 := Pool.countP_set' Stage.isRunning s.stages i _ .ready hdone
      refine ⟨by simp [I.len], ?_, ?_, ?_, ?_⟩
      · intro j g hg
        by_cases hj : i = j
        · subst hj
          rw [List.getElem?_set_self (by rw [I.len]; exact hi)] at hg
          obtain rfl := Option.some.inj hg
          have := (I.idle i _ hdone).1 (by simp)
          exact ⟨fun _ => this, fun _ => by simp⟩
        · rw [List.getElem?_set_ne hj] at hg
          exact I.idle j g hg
      · intro j hj hne
        show (s.stages.set i .ready)[j]? = _
        have hij : i ≠ j := by
          rintro rfl
          apply hne
          show p.ws[i]? = _
          rw [hws]
          exact List.getElem?_set_self (List.getElem?_eq_some_iff.1 hw).1
        rw [List.getElem?_set_ne hij]
        refine I.out j hj ?_
        have hne : p.ws[j]? ≠ some .trial := hne
        rwa [hws, List.getElem?_set_ne hij] at hne
      · show Pool.numStarted (.started i :: poolPart h) = _ + (s.stages.set i .ready).countP Stage.isReady
        have := I.begun
        simp only [Stage.isReady, Bool.toNat_false, Bool.toNat_true] at c1
        simp only [Pool.numStarted, List.countP_cons, Pool.Event.isStart, if_true] at this ⊢
        show _ = (searchPart h).countP _ + _
        omega
      · show (searchPart h).countP _ = (searchPart h).countP _ + (s.stages.set i .ready).countP Stage.isRunning
        have := I.comp
        simp only [Stage.isRunning, Bool.toNat_false] at c2
        omega
    | finish i p hp hw hst hws hnow =>
      refine ⟨?_, ?_, ?_, ?_, ?_⟩
      · rw [tryLog_stages]; exact I.len
      · rw [tryLog_stages, tryLog_search]; exact I.idle
      · rw [tryLog_stages, tryLog_pool]
        intro j hj hne
        by_cases hij : i = j
        · subst hij; exact hst
        · refine I.out j hj ?_
          have hne : p.ws[j]? ≠ some .trial := hne
          rwa [hws, List.getElem?_set_ne hij] at hne
      · rw [poolPart_finish, searchPart_finish, tryLog_stages]
        have := I.begun
        simpa [Pool.numStarted, Pool.Event.isStart] using this
      · rw [searchPart_finish, tryLog_stages]
        exact I.comp
    | search i ch q e g g' hq hw hst hg hg1 hg2 =>
      obtain ⟨_, E⟩ := Search.step_eff hq
      obtain ⟨ph, ph', f1, f2, f3, f4⟩ := eff_phase E
      have hi : i < s.stages.length := (List.getElem?_eq_some_iff.1 hst).1
      have c1 := Pool.countP_set' Stage.isReady s.stages i _ g' hst
      have c2 := Pool.countP_set' Stage.isRunning s.stages i _ g' hst
      have hdone : g' = .done ↔ e.isCompleted = true := by
        rw [hg1]
        cases e <;> simp [Search.Event.isCompleted]
      have hb : g = .ready ↔ e.isBegan = true := by
        rw [← f3]
        have := I.idle i g hst
        rw [f1] at this
        cases g with
        | ready => simpa using this
        | running => simpa using this
        | done => exact absurd rfl hg
      refine ⟨by simp [I.len], ?_, ?_, ?_, ?_⟩
      · intro j gj hgj
        by_cases hj : i = j
        · subst hj
          rw [List.getElem?_set_self hi] at hgj
          obtain rfl := Option.some.inj hgj
          show _ ↔ q.ws[i]? = _
          rw [f2]
          have : g' ≠ .running ↔ g' = .done := by cases g' <;> simp at hg2 ⊢
          rw [this, hdone, ← f4]
          simp
        · rw [List.getElem?_set_ne hj] at hgj
          show _ ↔ q.ws[j]? = _
          rw [Search.eff_ws_other E (Ne.symm hj)]
          exact I.idle j gj hgj
      · intro j hj hne
        show (s.stages.set i g')[j]? = _
        have hij : i ≠ j := by
          rintro rfl
          exact hne hw
        rw [List.getElem?_set_ne hij]
        exact I.out j hj hne
      · show Pool.numStarted (poolPart h) = (e :: searchPart h).countP Search.Event.isBegan + (s.stages.set i g').countP Stage.isReady
        rw [I.begun, List.countP_cons]
        have e1 : Stage.isReady g' = false := by cases g' <;> simp [Stage.isReady] at hg2 ⊢
        have e2 : (Stage.isReady g) = e.isBegan := by
          cases hgb : e.isBegan with
          | true => rw [hb.2 hgb]; rfl
          | false =>
            have := mt hb.1 (by rw [hgb]; simp)
            cases g <;> simp [Stage.isReady] at this ⊢
        rw [e1, e2] at c1
        cases hgb : e.isBegan <;> rw [hgb] at c1 <;> simp at c1 ⊢ <;> omega
      · show (e :: searchPart h).countP Search.Event.isBegan = (e :: searchPart h).countP Search.Event.isCompleted +
          (s.stages.set i g').countP Stage.isRunning
        rw [List.countP_cons, List.countP_cons, I.comp]
        have e1 : Stage.isRunning g' = !e.isCompleted := by
          cases hgb : e.isCompleted with
          | true => rw [hdone.2 hgb]; rfl
          | false =>
            have := mt hdone.1 (by rw [hgb]; simp)
            cases g' <;> simp [Stage.isRunning] at this hg2 ⊢
        have e2 : Stage.isRunning g = !e.isBegan := by
          cases hgb : e.isBegan with
          | true => rw [hb.2 hgb]; rfl
          | false =>
            have := mt hb.1 (by rw [hgb]; simp)
            cases g <;> simp [Stage.isRunning] at this hg ⊢
        rw [e1, e2] at c2
        have e3 : ¬ (e.isBegan = true ∧ e.isCompleted = true) := by cases e <;> simp [Search.Event.isBegan, Search.Event.isCompleted]
        cases hgb : e.isBegan <;> cases hgc : e.isCompleted <;> rw [hgb, hgc] at c2 <;> simp [hgb, hgc] at c2 e3 ⊢ <;> omega
    | prep => exact ⟨I.len, I.idle, I.out, I.begun, I.comp⟩

end Verif.Sys
