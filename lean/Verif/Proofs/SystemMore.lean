import Verif.Proofs.SystemLog3

/-! # Trials, visits and logged visits in the whole system -/

namespace Verif.Pool

open Verif.Sys in
/-- One run at a time: trials started and still to be started are the trials asked for. -/
theorem started_requested {n : Nat} {ls : List Label} {s : St} {h : List Event} (hx : exec n ls = some (s, h)) (ho : oneRunAtATime h = true) :
    numStarted h + s.remaining.toNat = requested h ∧ (s.limit = none ∨ s.remaining ≤ 0) := by
  have key : ∀ (ls : List Label) (s : St) (h : List Event), Inv n s h →
      (oneRunAtATime h = true → numStarted h + s.remaining.toNat = requested h ∧ (s.limit = none ∨ s.remaining ≤ 0)) →
      ∀ s' h', execFrom s h ls = some (s', h') →
      oneRunAtATime h' = true → numStarted h' + s'.remaining.toNat = requested h' ∧ (s'.limit = none ∨ s'.remaining ≤ 0) := by
    intro ls
    induction ls with
    | nil =>
      intro s h _ hP s' h' hx
      simp only [execFrom, Option.some.injEq, Prod.mk.injEq] at hx
      obtain ⟨rfl, rfl⟩ := hx
      exact hP
    | cons l ls ih =>
      intro s h I hP s' h' hx
      simp only [execFrom] at hx
      split at hx
      · next s1 e hst =>
        refine ih s1 _ (inv_step I hst) ?_ s' h' hx
        intro ho
        rcases (step_budget hst).2 with ⟨k, lim, rfl, h1, h2⟩ | ⟨i, rfl, h1, h2, h3⟩ | ⟨h1, h2, h3⟩
        · simp only [Option.toList_some, List.singleton_append, oneRunAtATime, Bool.and_eq_true] at ho ⊢
          obtain ⟨⟨ho1, ho2⟩, ho3⟩ := ho
          obtain ⟨c1, c2⟩ := hP ho3
          have hw := (I.sett ho2).1
          have hr : s.remaining ≤ 0 := by
            by_contra hr
            rcases c2 with c2 | c2
            · simp [St.workLeft, St.expired, c2, hr] at hw
            · exact hr c2
          have e1 : numStarted (.called k lim :: h) = numStarted h := by simp [numStarted, Event.isStart]
          simp only [requested]
          rw [e1, h1, h2]
          refine ⟨by omega, .inl ?_⟩
          simpa using ho1
        · simp only [Option.toList_some, List.singleton_append, oneRunAtATime] at ho ⊢
          obtain ⟨c1, c2⟩ := hP ho
          have hr : 0 < s.remaining := by
            by_contra hr
            simp [St.workLeft, (by omega : s.remaining ≤ 0)] at h1
          have e1 : numStarted (.started i :: h) = numStarted h + 1 := by simp [numStarted, List.countP_cons, Event.isStart]
          simp only [requested]
          rw [e1, h2, h3]
          exact ⟨by omega, by rcases c2 with c2 | c2 <;> [exact .inl c2; omega]⟩
        · rw [h2, h3]
          cases e with
          | none => exact hP ho
          | some x =>
            obtain ⟨q1, q2⟩ := h1 x rfl
            have e1 : numStarted (x :: h) = numStarted h := by simp [numStarted, q2]
            have e2 : requested (x :: h) = requested h := by cases x <;> simp [Event.isCall] at q1 <;> rfl
            have e3 : oneRunAtATime (x :: h) = oneRunAtATime h := by cases x <;> simp [Event.isCall] at q1 <;> rfl
            simp only [Option.toList_some, List.singleton_append] at ho ⊢
            rw [e1, e2]
            rw [e3] at ho
            exact hP ho
      · simp at hx
  exact key ls _ _ (inv_init n) (fun _ => by simp [init, numStarted, requested]) s h hx ho

end Verif.Pool

namespace Verif.Sys

set_option linter.unusedSectionVars false

variable {S A R X Y : Type} [DecidableEq S] [DecidableEq A] [AddMonoid R]
variable {env : Search.Env S A R} {m : Search.Manager S R} {alg : Search.Alg S A R X Y}
variable {n : Nat} {s0 : S} {dp tm : Int} {tb : List ((Int × S) × Option Nat)} {lg : Option Log.Logger}

theorem countP_le_of {α β : Type} (p : α → Bool) (q : β → Bool) : ∀ (l1 : List α) (l2 : List β), l1.length = l2.length →
    (∀ (i : Nat) a b, l1[i]? = some a → l2[i]? = some b → p a = true → q b = true) → l1.countP p ≤ l2.countP q
  | [], _, _, _ => by simp
  | a :: l1, [], h, _ => by simp at h
  | a :: l1, b :: l2, h, hi => by
    have ih := countP_le_of p q l1 l2 (by simpa using h) fun i x y hx hy => hi (i + 1) x y (by simpa using hx) (by simpa using hy)
    have h0 := hi 0 a b rfl rfl
    rw [List.countP_cons, List.countP_cons]
    by_cases hp : p a = true
    · simp [hp, h0 hp]; exact ih
    · simp [hp]; omega

theorem countP_lt_of {α β : Type} (p : α → Bool) (q : β → Bool) : ∀ (l1 : List α) (l2 : List β), l1.length = l2.length →
    (∀ (i : Nat) a b, l1[i]? = some a → l2[i]? = some b → p a = true → q b = true) →
    ∀ (i : Nat) a b, l1[i]? = some a → l2[i]? = some b → p a = false → q b = true → l1.countP p < l2.countP q
  | [], _, _, _ => by simp
  | a :: l1, [], h, _ => by simp at h
  | a :: l1, b :: l2, h, hi => by
    intro i x y hx hy h1 h2
    have hi' : ∀ (i : Nat) x y, l1[i]? = some x → l2[i]? = some y → p x = true → q y = true :=
      fun i x y hx hy => hi (i + 1) x y (by simpa using hx) (by simpa using hy)
    have h0 := hi 0 a b rfl rfl
    rw [List.countP_cons, List.countP_cons]
    cases i with
    | zero =>
      simp at hx hy
      subst hx; subst hy
      have ih := countP_le_of p q l1 l2 (by simpa using h) hi'
      simp [h1, h2]; omega
    | succ i =>
      have ih := countP_lt_of p q l1 l2 (by simpa using h) hi' i x y (by simpa using hx) (by simpa using hy) h1 h2
      by_cases hp : p a = true
      · simp [hp, h0 hp]; exact ih
      · simp [hp]; omega

/-- The visits of the root at any moment. -/
theorem rootVisits_eq (hv : alg.Valid) (htb : Search.Leftover tb) {s : St S A R X Y} {h : List (Event S A R)}
    (hr : Reachable env m alg n s0 dp tm tb lg s h) :
    s.rootVisits = (alg.initVisits + (searchPart h).countP (Search.Event.selAt s.search.root) +
      (searchPart h).countP (Search.Event.endAt s.search.root) : Nat) ∧
    (alg.initVisits + (searchPart h).countP Search.Event.isCompleted : Nat) ≤ s.rootVisits ∧
    s.rootVisits ≤ (alg.initVisits + (searchPart h).countP Search.Event.isBegan : Nat) ∧ s.search.root = 0 := by
  obtain ⟨I, C⟩ := Search.reach_both hv htb (reach_project hr).2
  obtain ⟨nd, hnd, _⟩ := Search.root_node I.tree
  have h1 := C.v1 _ nd hnd
  have h4 := C.v4 s.search.root
  rw [Search.no_into_root I C, if_pos rfl] at h4
  have h5 := C.v5
  have h6 : s.search.ws.countP (Search.Phase.inSel s.search.root) ≤ s.search.ws.countP Search.Phase.busy := by
    apply List.countP_mono_left
    intro p _ hp
    cases p <;> simp [Search.Phase.inSel, Search.Phase.busy] at hp ⊢
  have e : s.rootVisits = nd.visits := by simp [St.rootVisits, hnd]
  rw [e, h1]
  refine ⟨rfl, ?_, ?_, I.tree.root⟩
  · push_cast; omega
  · push_cast; omega

/-- When a worker is about to report, the trials completed include its own. -/
theorem completed_at_finish {s : St S A R X Y} {h : List (Event S A R)}
    (hr : Reachable env m alg n s0 dp tm tb lg s h) {i : Nat} (hw : s.pool.ws[i]? = some .trial) (hst : s.stages[i]? = some .done) :
    finishedIn h + 1 ≤ (searchPart h).countP Search.Event.isCompleted := by
  have I := sinv hr
  obtain ⟨⟨ls, hx⟩, _⟩ := reach_project hr
  have P := Pool.inv_exec hx
  have hb := P.bal
  have h1 := I.begun
  have h2 := I.comp
  have h3 : s.stages.countP (fun g => g.isReady || g.isRunning) < s.pool.ws.countP Pool.WPc.isTrial := by
    refine countP_lt_of _ _ _ _ (by rw [I.len, P.len]) ?_ i _ _ hst hw rfl rfl
    intro j g w hg hwj hp
    by_contra hne
    have hj : j < n := by rw [← I.len]; exact (List.getElem?_eq_some_iff.1 hg).1
    have := I.out j hj (by rw [hwj]; intro hc; apply hne; rw [Option.some.inj hc]; rfl)
    rw [hg] at this
    rw [Option.some.inj this] at hp
    simp [Stage.isReady, Stage.isRunning] at hp
  have h4 : s.stages.countP (fun g => g.isReady || g.isRunning) = s.stages.countP Stage.isReady + s.stages.countP Stage.isRunning := by
    clear h1 h2 h3 hst I
    induction s.stages with
    | nil => rfl
    | cons g l ih =>
      rw [List.countP_cons, List.countP_cons, List.countP_cons, ih]
      cases g <;> simp [Stage.isReady, Stage.isRunning] <;> omega
  unfold finishedIn
  omega

/-- At a settled moment nothing is in flight anywhere. -/
theorem settled_done {s : St S A R X Y} {h : List (Event S A R)} (hr : Reachable env m alg n s0 dp tm tb lg s h)
    (hs : Pool.settled (poolPart h) = true) : Search.Quiescent s.search ∧
      Pool.numStarted (poolPart h) = (searchPart h).countP Search.Event.isCompleted ∧
      Pool.numStarted (poolPart h) = Pool.numFinished (poolPart h) := by
  have I := sinv hr
  obtain ⟨⟨ls, hx⟩, hq⟩ := reach_project hr
  have P := Pool.inv_exec hx
  have hd : ∀ i : Nat, i < n → s.stages[i]? = some .done := fun i hi => I.out i hi ((P.sett hs).2 i)
  have hz : ∀ f : Stage → Bool, f .done = false → s.stages.countP f = 0 := by
    intro f hf
    rw [List.countP_eq_zero]
    intro g hg
    obtain ⟨i, hi, rfl⟩ := List.mem_iff_getElem.1 hg
    have := hd i (by rw [← I.len]; exact hi)
    rw [List.getElem?_eq_getElem hi] at this
    rw [Option.some.inj this, hf]; simp
  have ht : s.pool.ws.countP Pool.WPc.isTrial = 0 := by
    rw [List.countP_eq_zero]
    intro a ha
    obtain ⟨i, hi, rfl⟩ := List.mem_iff_getElem.1 ha
    have := (P.sett hs).2 i
    rw [List.getElem?_eq_getElem hi] at this
    cases hq : s.pool.ws[i] <;> simp [Pool.WPc.isTrial, hq] at this ⊢
  refine ⟨?_, ?_, ?_⟩
  · intro w p hp
    have hw : w < n := by rw [← Search.reach_len hq]; exact (List.getElem?_eq_some_iff.1 hp).1
    have := (I.idle w _ (hd w hw)).1 (by simp)
    rw [hp] at this
    exact Option.some.inj this
  · rw [I.begun, I.comp, hz _ rfl, hz _ rfl]; rfl
  · have := P.bal; omega

/-- Logged visits. -/
theorem logged_visits (hv : alg.Valid) (htb : Search.Leftover tb) {s : St S A R X Y} {h : List (Event S A R)}
    (hr : Reachable env m alg n s0 dp tm tb lg s h) :
    (loggedPart h).Pairwise (fun e f => f.visits ≤ e.visits) ∧ (∀ e ∈ loggedPart h, e.visits ≤ s.rootVisits) ∧
    ∀ a e b, h = a ++ .logged e :: b → (alg.initVisits : Int) + finishedIn b + 1 ≤ e.visits ∧
      e.visits ≤ (alg.initVisits : Int) + Pool.numStarted (poolPart b) := by
  refine reach_induct (P := fun s h => (loggedPart h).Pairwise (fun e f => f.visits ≤ e.visits) ∧ (∀ e ∈ loggedPart h, e.visits ≤ s.rootVisits) ∧
    ∀ a e b, h = a ++ .logged e :: b → (alg.initVisits : Int) + finishedIn b + 1 ≤ e.visits ∧
      e.visits ≤ (alg.initVisits : Int) + Pool.numStarted (poolPart b)) ?_ ?_ hr
  · exact ⟨List.Pairwise.nil, by simp [loggedPart], by simp⟩
  · rintro s h es s' hr ⟨c1, c2, c3⟩ hnc E hr'
    have mono : s.rootVisits ≤ s'.rootVisits := by
      obtain ⟨q1, _, _, r1⟩ := rootVisits_eq hv htb hr
      obtain ⟨q2, _, _, r2⟩ := rootVisits_eq hv htb hr'
      rw [q1, q2, r1, r2, searchPart_append, List.countP_append, List.countP_append]
      push_cast
      omega
    have simple : loggedPart (es ++ h) = loggedPart h → (∀ e : Log.Entry, .logged e ∉ es) →
        (loggedPart (es ++ h)).Pairwise (fun e f => f.visits ≤ e.visits) ∧ (∀ e ∈ loggedPart (es ++ h), e.visits ≤ s'.rootVisits) ∧
        ∀ a e b, es ++ h = a ++ .logged e :: b → (alg.initVisits : Int) + finishedIn b + 1 ≤ e.visits ∧
          e.visits ≤ (alg.initVisits : Int) + Pool.numStarted (poolPart b) := by
      intro h1 h2
      rw [h1]
      refine ⟨c1, fun e he => Int.le_trans (c2 e he) mono, ?_⟩
      intro a e b hab
      rcases List.append_eq_append_iff.1 hab with ⟨a', ha, hb⟩ | ⟨b', ha, hb⟩
      · exact c3 _ _ _ hb
      · cases b' with
        | nil =>
          simp only [List.nil_append, List.append_nil] at ha hb
          exact c3 [] e b hb.symm
        | cons x b' =>
          rw [List.cons_append, List.cons.injEq] at hb
          exact absurd (by rw [ha, ← hb.1]; simp) (h2 e)
    cases E with
    | quiet l p e hp he hw hl => exact simple (by rw [loggedPart_append, loggedPart_pool]; rfl) (by simp)
    | call k lim b p hp hprep hw => exact simple rfl (by simp)
    | start i p hp hw hws => exact simple rfl (by simp)
    | search i ch q e g g' hq hw hst hg hg1 hg2 => exact simple rfl (by simp)
    | prep h1 h2 => exact simple rfl (by simp)
    | finish i p hp hw hst hws hnow =>
      have hroot : (St.tryLog { s with pool := p }).rootVisits = s.rootVisits := by
        unfold St.rootVisits; rw [tryLog_search]
      obtain ⟨_, q2, q3, _⟩ := rootVisits_eq hv htb hr
      have q4 := completed_at_finish hr hw hst
      have q5 := (sinv hr).begun
      rw [loggedPart_finish, hroot]
      cases hne : s.newEntry with
      | none =>
        refine ⟨c1, c2, ?_⟩
        intro a e b hab
        rcases List.append_eq_append_iff.1 hab with ⟨a', ha, hb⟩ | ⟨b', ha, hb⟩
        · exact c3 _ _ _ hb
        · cases b' with
          | nil => exact c3 [] e b (by simpa using hb.symm)
          | cons x b' =>
            rw [List.cons_append, List.cons.injEq] at hb
            have : Event.logged e ∈ [Event.pool (.finished i), (.reported s.pool.now : Event S A R)] := by
              have : Event.logged e ∈ Event.pool (.finished i) :: (List.map Event.logged (none : Option Log.Entry).toList ++ [(.reported s.pool.now : Event S A R)]) := by
                rw [ha, ← hb.1]; simp
              simpa using this
            simp at this
      | some x =>
        have hx : x.visits = s.rootVisits := by
          unfold St.newEntry at hne
          cases hl : s.lg with
          | none => rw [hl] at hne; simp at hne
          | some L =>
            rw [hl] at hne
            simp only [Option.bind_some] at hne
            split at hne
            · rw [← Option.some.inj hne]
            · simp at hne
        refine ⟨?_, ?_, ?_⟩
        · simp only [Option.toList_some, List.singleton_append, List.pairwise_cons]
          exact ⟨fun e he => by rw [hx]; exact c2 e he, c1⟩
        · intro e he
          simp only [Option.toList_some, List.singleton_append, List.mem_cons] at he
          rcases he with rfl | he
          · rw [hx]
          · exact c2 e he
        · intro a e b hab
          simp only [Option.toList_some, List.map_cons, List.map_nil, List.cons_append, List.nil_append] at hab
          rw [List.cons_eq_append_iff] at hab
          rcases hab with ⟨_, hab⟩ | ⟨a1, rfl, hab⟩
          · simp at hab
          · rw [List.cons_eq_append_iff] at hab
            rcases hab with ⟨_, hab⟩ | ⟨a2, rfl, hab⟩
            · rw [List.cons.injEq, Event.logged.injEq] at hab
              obtain ⟨rfl, rfl⟩ := hab
              rw [hx]
              have e1 : finishedIn (.reported s.pool.now :: h : List (Event S A R)) = finishedIn h := by rw [finishedIn_cons]; simp
              rw [e1]
              show _ ∧ _ ≤ _ + ((Pool.numStarted (poolPart h) : Nat) : Int)
              constructor
              · push_cast at q2; omega
              · push_cast at q3; omega
            · rw [List.cons_eq_append_iff] at hab
              rcases hab with ⟨_, hab⟩ | ⟨a3, rfl, hab⟩
              · simp at hab
              · exact c3 _ _ _ hab

end Verif.Sys
