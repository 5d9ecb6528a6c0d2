import Verif.Proofs.ProgramReturn
import Verif.Props.LockRefine

/-! # The logger at the level of locks -/

set_option linter.unusedSectionVars false

namespace Verif.Prog

/-- Trials over but not yet reported to the logger. -/
def Stage.isWant : Stage → Bool
  | .logWant => true
  | _ => false

section
variable {S A R X Y : Type} [DecidableEq S] [DecidableEq A] [Add R] [Zero R]
variable {env : Search.Env S A R} {m : Search.Manager S R} {hash : Int × S → Nat} {alg : Search.Alg S A R X Y} {code : LockLevel.Code S A R X Y}
variable {n : Nat} {s0 : S} {dp tm : Int} {tb : List ((Int × S) × Option Nat)} {L0 : Log.Logger} {s s' : St S A R X Y}
  {h : List (Event S A R)}

structure GInv (L0 : Log.Logger) (s : St S A R X Y) (h : List (Event S A R)) (L : Log.Logger) : Prop where
  lg : s.lg = some L
  num : s.numTrials = Pool.budget (poolPart h)
  cnt : s.completed + (s.stages.countP Stage.isWant : Nat) = (numCompleted h : Nat)
  trials : L.trials = L0.trials + s.completed
  entries : ∃ o, (o = [] ∨ o = [⟨0, 0⟩]) ∧ L.entries = L0.entries ++ o ++ (loggedPart h).reverse

theorem budget_other {e : Pool.Event} (he : e.isCall = false) (h : List Pool.Event) : Pool.budget (e :: h) = Pool.budget h := by
  cases e <;> simp_all [Pool.budget, Pool.Event.isCall]

theorem shouldLog_trials (L : Log.Logger) (now : Int) : (L.shouldLog now).2.trials = L.trials ∧ (L.shouldLog now).2.entries = L.entries := by
  simp only [Log.Logger.shouldLog, Log.Logger.checkTime, Log.Logger.checkTrials]
  constructor <;> (repeat' split) <;> simp_all

theorem loggedPart_append (a b : List (Event S A R)) : loggedPart (a ++ b) = loggedPart a ++ loggedPart b := List.filterMap_append

theorem loggedPart_pool (l : List Pool.Event) : loggedPart (l.map (.pool : Pool.Event → Event S A R)) = [] := by
  induction l with
  | nil => rfl
  | cons e l ih => simpa [loggedPart] using ih

theorem loggedPart_search (l : List (Search.Event S A R)) : loggedPart (l.map .search) = [] := by
  induction l with
  | nil => rfl
  | cons e l ih => simpa [loggedPart] using ih

theorem ginv_reach (hr : Reachable env m hash alg code n s0 dp tm tb (some L0) s h) : ∃ L, GInv L0 s h L := by
  refine reach_induct' (P := fun s h => ∃ L, GInv L0 s h L) ?_ ?_ hr
  · refine ⟨L0, rfl, rfl, ?_, by simp [init], [], .inl rfl, by simp [loggedPart]⟩
    simp [init, List.countP_replicate, Stage.isWant, numCompleted, searchPart]
  · rintro s h l es s' hr ⟨L, lg, num, cnt, trials, entries⟩ hc E
    have I := sinv_reach hr
    cases E with
    | @quiet l p e hp g1 g2 g3 g4 g5 =>
      refine ⟨L, lg, ?_, ?_, trials, ?_⟩
      · show s.numTrials = _
        rw [num, poolPart_append, poolPart_pool]
        cases e with
        | none => rfl
        | some x => exact (budget_other (g1 x rfl).1 _).symm
      · show s.completed + _ = _
        have : numCompleted (e.toList.map .pool ++ h) = numCompleted h := by
          unfold numCompleted; rw [searchPart_append, searchPart_pool]; rfl
        rw [this]; exact cnt
      · rw [loggedPart_append, loggedPart_pool]; exact entries
    | @start i p hp hw hws =>
      refine ⟨L, lg, num, ?_, trials, entries⟩
      have hlt : i < s.stages.length := by
        rw [I.slen, ← I.plen]; exact (List.getElem?_eq_some_iff.1 hw).1
      have hg := List.getElem?_eq_getElem hlt
      have hd : s.stages[i] = .done := by
        by_contra hd
        have := I.trial i _ hg hd
        rw [hw] at this; simp at this
      have c := cnt_same (f := Stage.isWant) (q := .ready) hg (by rw [hd]; rfl)
      show s.completed + (((s.stages.set i .ready).countP Stage.isWant : Nat) : Int) = _
      rw [c]; exact cnt
    | finish hp hw hst hws => exact ⟨L, lg, num, cnt, trials, entries⟩
    | @search i ch q e g hq hst hg =>
      have e3 : poolPart (e.toList.map .search ++ h) = poolPart h := by rw [poolPart_append, poolPart_search]; rfl
      refine ⟨L, lg, by rw [e3]; exact num, ?_, trials, by rw [loggedPart_append, loggedPart_search]; exact entries⟩
      show s.completed + (((s.stages.set i (nextStage s.lg e)).countP Stage.isWant : Nat) : Int) = _
      have hgw : g.isWant = false := by rcases hg with rfl | rfl <;> rfl
      have hn : numCompleted (e.toList.map .search ++ h) = (e.toList.countP fun e => match e with | .completed _ => true | _ => false) + numCompleted h := by
        unfold numCompleted; rw [searchPart_append, searchPart_search, List.countP_append]; rfl
      rw [hn]
      by_cases hce : ∃ v, e = some (.completed v)
      · obtain ⟨v, rfl⟩ := hce
        have c := cnt_on (f := Stage.isWant) (q := .logWant) hst hgw rfl
        have : nextStage s.lg (some (.completed v) : Option (Search.Event S A R)) = .logWant := by simp [nextStage, lg]
        rw [this, c]
        simp only [Option.toList_some, List.countP_singleton]
        push_cast
        omega
      · have hz : (e.toList.countP fun e => match e with | .completed _ => true | _ => false) = 0 := by
          cases e with
          | none => rfl
          | some x => cases x <;> simp_all
        have hr' : nextStage s.lg e = .running := by
          unfold nextStage
          split
          · next v => exact absurd ⟨v, rfl⟩ hce
          · rfl
        have c := cnt_same (f := Stage.isWant) (q := .running) hst hgw
        rw [hz, hr', c, Nat.zero_add]; exact cnt
    | @take i L' hlg hst hf =>
      rw [lg] at hlg
      obtain rfl := Option.some.inj hlg
      have c := cnt_off (f := Stage.isWant) (q := .logHeld (L.trialCompleted.shouldLog s.pool.now).1) hst rfl rfl
      obtain ⟨t1, t2⟩ := shouldLog_trials L.trialCompleted s.pool.now
      refine ⟨_, rfl, num, ?_, ?_, ?_⟩
      · show s.completed + 1 + (((s.stages.set i _).countP Stage.isWant : Nat) : Int) = (numCompleted h : Nat)
        omega
      · rw [t1]; show L.trials + 1 = L0.trials + (s.completed + 1); omega
      · rw [t2]; exact entries
    | @write i L' hlg hst hf =>
      rw [lg] at hlg
      obtain rfl := Option.some.inj hlg
      have c := cnt_same (f := Stage.isWant) (q := .logHeld false) hst rfl
      refine ⟨_, rfl, num, ?_, trials, ?_⟩
      · show s.completed + (((s.stages.set i _).countP Stage.isWant : Nat) : Int) = (numCompleted h : Nat)
        rw [c]; exact cnt
      · obtain ⟨o, ho, he⟩ := entries
        refine ⟨o, ho, ?_⟩
        simp [Log.Logger.log, he, loggedPart]
    | @release i L' hlg hst =>
      rw [lg] at hlg
      obtain rfl := Option.some.inj hlg
      have c := cnt_same (f := Stage.isWant) (q := .done) hst rfl
      refine ⟨_, rfl, num, ?_, ?_, ?_⟩
      · show s.completed + (((s.stages.set i _).countP Stage.isWant : Nat) : Int) = (numCompleted h : Nat)
        rw [c]; exact cnt
      · show (if _ then _ else _ : Log.Logger).trials = _
        split <;> exact trials
      · obtain ⟨o, ho, he⟩ := entries
        refine ⟨o, ho, ?_⟩
        split <;> exact he
    | enter hcl hen => exact ⟨L, lg, num, cnt, trials, entries⟩
    | prep hen hlg =>
      rcases hlg with ⟨hlg, -⟩ | ⟨-, L', hlg, rfl⟩
      · rw [lg] at hlg; simp at hlg
      rw [lg] at hlg
      obtain rfl := Option.some.inj hlg
      refine ⟨_, rfl, num, cnt, ?_, ?_⟩
      · show (L.beginRun s.pool.now).trials = _
        simp only [Log.Logger.beginRun]
        split <;> exact trials
      · obtain ⟨o, ho, he⟩ := entries
        show ∃ o, _ ∧ (L.beginRun s.pool.now).entries = _
        simp only [Log.Logger.beginRun]
        split
        · next hz =>
          have hz : L.entries = [] := by simpa using hz
          rw [hz] at he
          obtain ⟨h1, h2⟩ := List.append_eq_nil_iff.1 he.symm
          obtain ⟨h3, h4⟩ := List.append_eq_nil_iff.1 h1
          have h2 : loggedPart h = [] := by simpa using h2
          refine ⟨[⟨0, 0⟩], .inr rfl, ?_⟩
          simp [Log.Logger.resetStart, Log.Logger.addOrigin, hz, h3, h2, loggedPart_append]
        · exact ⟨o, ho, he⟩
    | @call k lim b p hen hp => exact ⟨L, lg, rfl, cnt, trials, entries⟩

end

section
open LockLevel
variable {S A R X Y : Type} [DecidableEq S] [DecidableEq A] [AddMonoid R]
variable {env : Search.Env S A R} {m : Search.Manager S R} {hash : Int × S → Nat} {alg : Search.Alg S A R X Y} {code : LockLevel.Code S A R X Y}
variable {n : Nat} {s0 : S} {dp tm : Int} {tb : List ((Int × S) × Option Nat)} {lg : Option Log.Logger} {s : St S A R X Y}
  {h : List (Event S A R)}

/-- The event is the visit of a trial to the root. -/
def passes (root : Nat) : Search.Event S A R → Bool
  | .selected _ d _ _ | .ended _ d _ => decide (d = root)
  | _ => false

/-- The visits of the root while nobody holds its mutex. -/
theorem root_visits (hv : alg.Valid) (hb : ∀ v as ctx a, code.selBlind v as ctx a = true → a ∈ v.actions)
    (hctx : ∀ v ctx a, alg.selCtx v ctx a = ctx) (hm : m.useTable = true → m.numMutexes ≤ 1) (htb : Search.Leftover tb)
    {f : FSt S A R X Y} {hf : List (Search.Event S A R)}
    (hr : FReachable env m hash alg code n s0 dp tm tb f hf) (hcr : f.crashed = none) (hl : f.lock (.d f.root) = none) :
    ∃ nd, f.root = 0 ∧ f.dn[f.root]? = some nd ∧ nd.visits = alg.initVisits + hf.countP (passes f.root) ∧
      Search.trialsCompleted hf ≤ hf.countP (passes f.root) ∧ hf.countP (passes f.root) ≤ Search.trialsBegun hf := by
  have hS : Simulates alg code (anyAlg alg.initVisits) (fun _ => ()) (fun _ => ()) 0 0 :=
    { initVisits := rfl
      initD := fun _ _ _ _ => rfl
      initC := fun _ _ _ _ => rfl
      visitD := fun _ _ => rfl
      visitC := fun _ => rfl
      select := fun v ctx a h => ⟨by simpa [anyAlg, mapV] using hv v ctx a h, by rw [hctx]; rfl⟩
      blind := fun v kids ctx a _ h => ⟨by simpa [anyAlg, mapV] using hb _ _ _ _ h, by rw [hctx]; rfl⟩
      roundD := by omega
      resD := fun _ _ _ _ _ _ _ _ => rfl
      roundC := by omega
      resC := fun _ _ _ _ _ _ _ _ => rfl }
  obtain ⟨I, st, h', hr', H, hev, -⟩ := (main_reach hS hm (anyAlg_valid _) htb hr).alive hcr
  obtain ⟨SI, C⟩ := Search.reach_both (anyAlg_valid _) htb hr'
  obtain ⟨nd', hnd', _⟩ := Search.root_node SI.tree
  have hcount : ∀ P : Search.Event S A R → Bool, (∀ w d args, P (.backedD w d args) = false) → (∀ w d args, P (.backedC w d args) = false) →
      h'.countP P = hf.countP P := by
    intro P p1 p2
    have hpend : ∀ w, (pendOf 0 0 f w).countP P = 0 := by
      intro w
      rw [List.countP_eq_zero]
      intro e he
      cases hw : f.ws[w]? with
      | none => simp [pendOf, hw] at he
      | some pc =>
        rw [pendOf_at hw] at he
        have hD : ∀ p : Search.Phase S A R, e ∈ evD w p → P e = false := by
          intro p h; cases p <;> simp [evD] at h; subst h; exact p1 _ _ _
        have hC : ∀ p : Search.Phase S A R, e ∈ evC w p → P e = false := by
          intro p h
          cases p <;> simp only [evC, List.not_mem_nil] at h
          split at h
          · simp at h; subst h; exact p2 _ _ _
          · simp at h
        have : P e = false := by
          cases pc <;> simp only [pendE, List.not_mem_nil] at he <;> split at he <;> first | exact hD _ he | exact hC _ he | simp at he
        simp [this]
    have hperm : (h'.filter P).Perm (hf.filter P) := by
      refine c79_rearranged (fun w => ?_)
      have := congrArg (List.filter P) (hev w)
      rw [List.filter_append, List.filter_eq_nil_iff.2 (List.countP_eq_zero.1 (hpend w)), List.nil_append] at this
      simp only [eventsOf, List.filter_filter] at this ⊢
      simpa only [Bool.and_comm] using this
    rw [List.countP_eq_length_filter, List.countP_eq_length_filter]
    exact hperm.length_eq
  have hsplit : ∀ l : List (Search.Event S A R), l.countP (passes f.root) = l.countP (Search.Event.selAt f.root) + l.countP (Search.Event.endAt f.root) := by
    intro l
    induction l with
    | nil => rfl
    | cons e l ih =>
      rw [List.countP_cons, List.countP_cons, List.countP_cons, ih]
      cases e <;> simp [passes, Search.Event.selAt, Search.Event.endAt] <;> omega
  rw [H.root] at hnd'
  have hlt : f.root < f.dn.length := by
    rw [← H.dlen]; exact (List.getElem?_eq_some_iff.1 hnd').1
  have hnd := List.getElem?_eq_getElem hlt
  have hmap := H.dfree _ _ _ hnd hnd' hl
  have h1 := C.v1 _ nd' hnd'
  have h4 := C.v4 st.root
  rw [Search.no_into_root SI C, if_pos rfl, H.root] at h4
  have h5 := C.v5
  have h6 : st.ws.countP (Search.Phase.inSel f.root) ≤ st.ws.countP Search.Phase.busy := by
    apply List.countP_mono_left
    intro p _ hp
    cases p <;> simp [Search.Phase.inSel, Search.Phase.busy] at hp ⊢
  have e1 : (f.dn[f.root]).visits = nd'.visits := by rw [hmap]; rfl
  have e2 := hsplit h'
  have e3 := hcount (passes f.root) (by intros; rfl) (by intros; rfl)
  have e4 := hcount Search.Event.isBegan (by intros; rfl) (by intros; rfl)
  have e5 := hcount Search.Event.isCompleted (by intros; rfl) (by intros; rfl)
  have e6 : hf.countP Search.Event.isCompleted = Search.trialsCompleted hf := Search.countP_congr' _ (fun e => by cases e <;> rfl)
  have e7 : hf.countP Search.Event.isBegan = Search.trialsBegun hf := Search.countP_congr' _ (fun e => by cases e <;> rfl)
  have e8 : (anyAlg alg.initVisits : Search.Alg S A R Unit Unit).initVisits = alg.initVisits := rfl
  refine ⟨_, H.root ▸ SI.tree.root, hnd, ?_, ?_, ?_⟩ <;> omega

/-- Somebody only logs after a trial. -/
theorem completed_pos (hr : Reachable env m hash alg code n s0 dp tm tb lg s h) :
    ∀ (i : Nat) g, s.stages[i]? = some g → (g = .logWant ∨ ∃ b, g = .logHeld b) → 0 < numCompleted h := by
  refine reach_induct' (P := fun s h => ∀ (i : Nat) g, s.stages[i]? = some g → (g = .logWant ∨ ∃ b, g = .logHeld b) → 0 < numCompleted h) ?_ ?_ hr
  · intro i g hi hg
    simp only [init, List.getElem?_replicate] at hi
    split at hi
    · cases hi; simp at hg
    · simp at hi
  · rintro s h l es s' hr ih hc E
    have mono : ∀ {a : List (Event S A R)}, 0 < numCompleted h → 0 < numCompleted (a ++ h) := by
      intro a ha; rw [numCompleted_append]; omega
    have old : ∀ (i : Nat) (g0 : Stage) (q : Stage) (j : Nat) g, (g = .logWant ∨ ∃ b, g = .logHeld b) → s.stages[i]? = some g0 →
        (s.stages.set i q)[j]? = some g → ((q = .logWant ∨ ∃ b, q = .logHeld b) → 0 < numCompleted (es ++ h)) → 0 < numCompleted (es ++ h) := by
      intro i g0 q j g hg hi hj hq
      by_cases hij : i = j
      · subst hij
        rw [List.getElem?_set_self (List.getElem?_eq_some_iff.1 hi).1] at hj
        cases hj
        exact hq hg
      · rw [List.getElem?_set_ne hij] at hj
        exact mono (ih j g hj hg)
    intro j g hj hg
    cases E with
    | quiet hp g1 g2 g3 g4 g5 => exact mono (ih j g hj hg)
    | @start i p hp hw hws =>
      have I := sinv_reach hr
      have hlt : i < s.stages.length := by
        rw [I.slen, ← I.plen]; exact (List.getElem?_eq_some_iff.1 hw).1
      exact old i _ _ j g hg (List.getElem?_eq_getElem hlt) hj (by simp)
    | finish hp hw hst hws => exact mono (ih j g hj hg)
    | @search i ch q e g' hq hst hg' =>
      refine old i _ _ j g hg hst hj ?_
      intro hx
      unfold nextStage at hx
      split at hx
      · simp [numCompleted, searchPart]
      · simp at hx
    | take hlg hst hf => exact old _ _ _ j g hg hst hj (fun _ => mono (ih _ _ hst (.inl rfl)))
    | write hlg hst hf => exact old _ _ _ j g hg hst hj (fun _ => mono (ih _ _ hst (.inr ⟨_, rfl⟩)))
    | release hlg hst => exact old _ _ _ j g hg hst hj (by simp)
    | enter hcl hen => exact ih j g hj hg
    | prep hen hlg => exact ih j g hj hg
    | call hen hp => exact mono (ih j g hj hg)

theorem split_event {E : Type} {es h a b : List E} {x : E} (hx : x ∉ es) (he : es ++ h = a ++ x :: b) : ∃ a', h = a' ++ x :: b := by
  rcases List.append_eq_append_iff.1 he with ⟨c, h1, h2⟩ | ⟨c, h1, h2⟩
  · exact ⟨c, h2⟩
  · cases c with
    | nil => exact ⟨[], by simpa using h2.symm⟩
    | cons y c =>
      simp only [List.cons_append, List.cons.injEq] at h2
      exact absurd (by rw [h1, h2.1]; simp) hx

/-- What is written to the log. -/
theorem logged (hv : alg.Valid) (hb : ∀ v as ctx a, code.selBlind v as ctx a = true → a ∈ v.actions)
    (hctx : ∀ v ctx a, alg.selCtx v ctx a = ctx) (hm : m.useTable = true → m.numMutexes ≤ 1) (htb : Search.Leftover tb)
    (hr : Reachable env m hash alg code n s0 dp tm tb lg s h) : ∀ {a b : List (Event S A R)} {e : Log.Entry}, h = a ++ .logged e :: b →
    e.visits = (alg.initVisits + (searchPart b).countP (passes 0) : Nat) ∧ 0 < numCompleted b ∧ numCompleted b ≤ (searchPart b).countP (passes 0) ∧
      (searchPart b).countP (passes 0) ≤ numBegun b := by
  refine reach_induct' (P := fun s h => ∀ {a b : List (Event S A R)} {e : Log.Entry}, h = a ++ .logged e :: b →
    e.visits = (alg.initVisits + (searchPart b).countP (passes 0) : Nat) ∧ 0 < numCompleted b ∧ numCompleted b ≤ (searchPart b).countP (passes 0) ∧
      (searchPart b).countP (passes 0) ≤ numBegun b) ?_ ?_ hr
  · intro a b e he; simp at he
  · rintro s h l es s' hr ih hc E a b e he
    have old : (.logged e : Event S A R) ∉ es → _ := fun hx => ih (Classical.choose_spec (split_event hx he))
    cases E with
    | write hlg hst hf =>
      cases a with
      | nil =>
        simp only [List.nil_append, List.cons_append, List.cons.injEq, Event.logged.injEq] at he
        obtain ⟨rfl, rfl⟩ := he
        obtain ⟨nd, h0, h1, h2, h3, h4⟩ := root_visits hv hb hctx hm htb (reach_project hr).2 hc hf
        rw [h0] at h1 h2 h3 h4
        refine ⟨?_, completed_pos hr _ _ hst (.inr ⟨_, rfl⟩), h3, h4⟩
        simp [St.rootVisits, h0, h1, h2]
      | cons x a =>
        simp only [List.nil_append, List.cons_append, List.cons.injEq] at he
        exact ih he.2
    | _ => exact old (by simp)

end

end Verif.Prog
