import Verif.Proofs.ProgramStep
import Verif.Proofs.LockRace

/-! # Invariants of the whole program -/

set_option linter.unusedSectionVars false

namespace Verif.LockLevel

open Verif.Search

variable {S A R X Y : Type} [DecidableEq S] [DecidableEq A] [Add R] [Zero R]
  {env : Env S A R} {m : Manager S R} {hash : Int × S → Nat} {alg : Alg S A R X Y} {code : Code S A R X Y}
  {f f' : FSt S A R X Y} {k : Nat} {s0 : S} {dp tm : Int} {tb : List ((Int × S) × Option Nat)} {h : List (Event S A R)}

/-- A position from which the trial does not go on outside a trial. -/
def GoesOn : Pc S A R X Y → Prop
  | .post next _ => next ≠ .idle
  | _ => True

theorem goesOn_reach (hr : FReachable env m hash alg code k s0 dp tm tb f h) : ∀ (w : Nat) pc, f.ws[w]? = some pc → GoesOn pc := by
  obtain ⟨ls, hx⟩ := hr
  refine fexec_induct (P := fun f _ => ∀ (w : Nat) pc, f.ws[w]? = some pc → GoesOn pc) ?_ ls _ _ _ _ ?_ hx
  · intro f h w e f' P _ E v pc hv
    have st : ∀ {q : Pc S A R X Y} {ws : List (Pc S A R X Y)}, ws = f.ws.set w q → GoesOn q → ws[v]? = some pc → GoesOn pc := by
      intro q ws hws hq hx
      rw [hws, List.getElem?_set] at hx
      split at hx
      · split at hx
        · simp at hx; rw [← hx]; exact hq
        · simp at hx
      · exact P v pc hx
    cases E with
    | crash => exact P v pc hv
    | @post next act acts hw =>
      have hq : GoesOn (.post next (act :: acts) : Pc S A R X Y) := P w _ hw
      exact st (q := .post next acts) (by simp [FSt.setW, doAct_ws]) hq hv
    | _ => first | exact st rfl (by simp [GoesOn]) hv | exact st rfl trivial hv
  · intro w pc hw
    simp [finit, List.getElem?_replicate] at hw
    rw [← hw.2]; trivial

/-- Where a step takes its worker. -/
theorem eff_pc (hg : ∀ (w : Nat) pc, f.ws[w]? = some pc → GoesOn pc) {w : Nat} {e : Option (Event S A R)} (E : FEff env m hash alg code f w e f') :
    ∃ pc pc', f.ws[w]? = some pc ∧ f'.ws = f.ws.set w pc' ∧ (pc = .out .idle ↔ e = some (.began w)) ∧ (pc' = .out .idle ↔ e = some (.completed w)) ∧
      (∀ v, e = some (.began v) → v = w) ∧ (∀ v, e = some (.completed v) → v = w) := by
  have self : ∀ {pc : Pc S A R X Y}, f.ws[w]? = some pc → f.ws = f.ws.set w pc := by
    intro pc hw
    obtain ⟨h1, rfl⟩ := List.getElem?_eq_some_iff.1 hw
    simp
  cases E with
  | crash hc =>
    have : ∃ pc, f.ws[w]? = some pc ∧ pc ≠ .out .idle := by
      cases hc with
      | @outside p l hw hl => exact ⟨_, hw, by rintro ⟨⟩; simp [lkOf] at hl⟩
      | @lost pc l hw hl => exact ⟨_, hw, by rintro rfl; simp [holds] at hl⟩
      | cur hw hpc => exact ⟨_, hw, by rintro rfl; simp at hpc⟩
      | _ => exact ⟨_, by assumption, by simp⟩
    obtain ⟨pc, h1, h2⟩ := this
    exact ⟨pc, pc, h1, self h1, by simp [h2], by simp [h2], by simp, by simp⟩
  | began hw => exact ⟨_, _, hw, rfl, by simp, by simp, by simp, by simp⟩
  | completed hw => exact ⟨_, _, hw, rfl, by simp, by simp, by simp, by simp⟩
  | @enter p l hw hl => exact ⟨_, _, hw, rfl, by simp; rintro rfl; simp [lkOf] at hl, by simp, by simp, by simp⟩
  | @post next act acts hw => exact ⟨_, .post next acts, hw, by simp [FSt.setW, doAct_ws], by simp, by simp, by simp, by simp⟩
  | @leave next hw => exact ⟨_, _, hw, rfl, by simp, by simp; exact hg w _ hw, by simp, by simp⟩
  | selOld hw _ hpc | selNew hw _ hpc => exact ⟨_, _, hw, rfl, by simp; rintro rfl; simp at hpc, by simp, by simp, by simp⟩
  | startD hw _ hpc | startC hw _ hpc | backedD hw _ hpc | backedC hw _ hpc =>
    exact ⟨_, _, hw, rfl, by simp; rintro rfl; simp at hpc, by simp, by simp, by simp⟩
  | _ => exact ⟨_, _, by assumption, rfl, by simp, by simp, by simp, by simp⟩

end Verif.LockLevel

namespace Verif.Prog

variable {S A R X Y : Type} [DecidableEq S] [DecidableEq A] [Add R] [Zero R]
variable {env : Search.Env S A R} {m : Search.Manager S R} {hash : Int × S → Nat} {alg : Search.Alg S A R X Y} {code : LockLevel.Code S A R X Y}
variable {n : Nat} {s0 : S} {dp tm : Int} {tb : List ((Int × S) × Option Nat)} {lg : Option Log.Logger} {s s' : St S A R X Y}
  {h : List (Event S A R)}

/-- Not yet begun; not yet completed. -/
def Stage.isReady : Stage → Bool
  | .ready => true
  | _ => false
def Stage.isOpen : Stage → Bool
  | .ready | .running => true
  | _ => false

structure SInv (n : Nat) (s : St S A R X Y) (h : List (Event S A R)) : Prop where
  plen : s.pool.ws.length = n
  slen : s.stages.length = n
  wlen : s.search.ws.length = n
  trial : ∀ (i : Nat) g, s.stages[i]? = some g → g ≠ .done → s.pool.ws[i]? = some .trial
  run : ∀ (i : Nat), s.stages[i]? = some .running → s.search.ws[i]? ≠ some (.out .idle)
  idle : ∀ (i : Nat) g, s.stages[i]? = some g → g ≠ .running → s.search.ws[i]? = some (.out .idle)
  held : ∀ i : Nat, s.logLock = some i ↔ ∃ b, s.stages[i]? = some (.logHeld b)
  logger : ∀ (i : Nat) g, s.stages[i]? = some g → (g = .logWant ∨ ∃ b, g = .logHeld b) → s.lg ≠ none
  entry : s.entry ≠ none → s.pool.cl = .idle
  begun : numBegun h + s.stages.countP Stage.isReady = Pool.numStarted (poolPart h)
  complete : numCompleted h + s.stages.countP Stage.isOpen = Pool.numStarted (poolPart h)

theorem pool_len {p q : Pool.St} {l : Pool.Label} {e : Option Pool.Event} {g : List Pool.Event} (H : Pool.Inv n p g) (hs : Pool.step p l = some (q, e)) :
    q.ws.length = n := (Pool.inv_step H hs).len

/-- Only steps of the client change what the client does, apart from waking it up. -/
theorem pool_cl {p q : Pool.St} {l : Pool.Label} {e : Option Pool.Event} (hs : Pool.step p l = some (q, e)) (hi : p.cl = .idle) (h1 : l ≠ .join)
    (h2 : l ≠ .dtor) (h3 : ∀ n lim b, l ≠ .call n lim b) : q.cl = .idle := by
  cases l with
  | join => exact absurd rfl h1
  | dtor => exact absurd rfl h2
  | call n lim b => exact absurd rfl (h3 n lim b)
  | client => simp [Pool.step, Pool.stepClient, hi] at hs
  | spuriousC => simp [Pool.step, hi] at hs
  | tick => simp [Pool.step] at hs; rw [← hs.1]; exact hi
  | look i => simp only [Pool.step] at hs; split at hs <;> simp at hs; rw [← hs.1]; exact hi
  | spuriousW i => simp only [Pool.step] at hs; split at hs <;> simp at hs; rw [← hs.1]; exact hi
  | swap x =>
    simp only [Pool.step, hi, if_true] at hs
    split at hs <;> simp at hs <;> rw [← hs.1] <;> exact hi
  | worker i =>
    simp only [Pool.step] at hs
    split at hs
    · next pc hw =>
      cases pc <;> simp only [Pool.stepWorker] at hs <;> (try split at hs) <;> simp at hs <;>
        (rw [← hs.1]; simp [Pool.St.setW, Pool.St.notifyAll, Pool.CPc.notify, hi])
    · simp at hs

theorem numBegun_append (a b : List (Event S A R)) : numBegun (a ++ b) = numBegun a + numBegun b := by
  simp [numBegun, searchPart_append, List.countP_append]

theorem numCompleted_append (a b : List (Event S A R)) : numCompleted (a ++ b) = numCompleted a + numCompleted b := by
  simp [numCompleted, searchPart_append, List.countP_append]

theorem numStarted_append (a b : List Pool.Event) : Pool.numStarted (a ++ b) = Pool.numStarted a + Pool.numStarted b := by
  simp [Pool.numStarted, List.countP_append]

theorem cnt_same {α : Type} {f : α → Bool} {l : List α} {i : Nat} {p q : α} (h : l[i]? = some p) (hp : f p = f q) :
    (l.set i q).countP f = l.countP f := by
  have := Pool.countP_set' f l i p q h
  rw [hp] at this; omega

theorem cnt_off {α : Type} {f : α → Bool} {l : List α} {i : Nat} {p q : α} (h : l[i]? = some p) (hp : f p = true) (hq : f q = false) :
    (l.set i q).countP f + 1 = l.countP f := by
  have := Pool.countP_set' f l i p q h
  rw [hp, hq] at this; simpa using this

theorem cnt_on {α : Type} {f : α → Bool} {l : List α} {i : Nat} {p q : α} (h : l[i]? = some p) (hp : f p = false) (hq : f q = true) :
    (l.set i q).countP f = l.countP f + 1 := by
  have := Pool.countP_set' f l i p q h
  rw [hp, hq] at this; simpa using this

theorem set_get {α : Type} {l : List α} {i j : Nat} {a b : α} (h : (l.set i a)[j]? = some b) : (j = i ∧ b = a) ∨ (j ≠ i ∧ l[j]? = some b) := by
  rw [List.getElem?_set] at h
  split at h
  · next e =>
    split at h
    · simp at h; exact .inl ⟨e.symm, h.symm⟩
    · simp at h
  · next e => exact .inr ⟨fun x => e x.symm, h⟩

theorem held_set {stages : List Stage} {lock : Option Nat} {i : Nat} {g0 g : Stage} (H : ∀ j : Nat, lock = some j ↔ ∃ b, stages[j]? = some (.logHeld b))
    (h0 : stages[i]? = some g0) (h1 : ∀ b, g0 ≠ .logHeld b) (h2 : ∀ b, g ≠ .logHeld b) (j : Nat) :
    lock = some j ↔ ∃ b, (stages.set i g)[j]? = some (.logHeld b) := by
  rw [H]
  have hlt := (List.getElem?_eq_some_iff.1 h0).1
  by_cases e : i = j
  · subst e
    rw [h0, List.getElem?_set_self hlt]
    simp [h1, h2]
  · rw [List.getElem?_set_ne e]

theorem sinv_quiet (HP : Pool.Inv n s.pool (poolPart h)) (h2 : LockLevel.FReachable env m hash alg code n s0 dp tm tb s.search (searchPart h))
    (I : SInv n s h) {l : Pool.Label} {p : Pool.St} {e : Option Pool.Event} (hp : Pool.step s.pool l = some (p, e))
    (g1 : ∀ x, e = some x → x.isCall = false ∧ x.isStart = false ∧ x.isFinish = false)
    (g2 : ∀ i : Nat, p.ws[i]? = some .trial ↔ s.pool.ws[i]? = some .trial)
    (g4 : l = .join ∨ l = .dtor → s.entry = none) (g5 : ∀ n lim b, l ≠ .call n lim b) : SInv n { s with pool := p } (e.toList.map .pool ++ h) := by
  obtain ⟨plen, slen, wlen, trial, run, idle, held, logger, entry, begun, complete⟩ := I
  have e1 : numBegun (e.toList.map .pool ++ h) = numBegun h := by simp [numBegun, searchPart_append]
  have e2 : numCompleted (e.toList.map .pool ++ h) = numCompleted h := by simp [numCompleted, searchPart_append]
  have e3 : Pool.numStarted (poolPart (e.toList.map .pool ++ h)) = Pool.numStarted (poolPart h) := by
    rw [poolPart_append, poolPart_pool, numStarted_append]
    cases e with
    | none => simp [Pool.numStarted]
    | some x => simp [Pool.numStarted, (g1 x rfl).2.1]
  exact ⟨pool_len HP hp, slen, wlen, fun i g hi hg => (g2 i).2 (trial i g hi hg), run, idle, held, logger,
    fun hen => pool_cl hp (entry hen) (fun e => hen (g4 (.inl e))) (fun e => hen (g4 (.inr e))) g5,
    by rw [e1, e3]; exact begun, by rw [e2, e3]; exact complete⟩

theorem sinv_start (HP : Pool.Inv n s.pool (poolPart h)) (h2 : LockLevel.FReachable env m hash alg code n s0 dp tm tb s.search (searchPart h))
    (I : SInv n s h) {i : Nat} {p : Pool.St} (hp : Pool.step s.pool (.worker i) = some (p, some (.started i))) (hw : s.pool.ws[i]? = some .chk2)
    (hws : p.ws = s.pool.ws.set i .trial) : SInv n { s with pool := p, stages := s.stages.set i .ready } ([.pool (.started i)] ++ h) := by
  obtain ⟨plen, slen, wlen, trial, run, idle, held, logger, entry, begun, complete⟩ := I
  have hlt : i < n := by rw [← plen]; exact (List.getElem?_eq_some_iff.1 hw).1
  obtain ⟨g0, hg0⟩ : ∃ g0, s.stages[i]? = some g0 := by
    rw [List.getElem?_eq_getElem (by omega)]; exact ⟨_, rfl⟩
  have hd : g0 = .done := by
    by_contra hd
    have := trial i g0 hg0 hd
    rw [hw] at this; simp at this
  subst hd
  have c1 := cnt_on (f := Stage.isReady) (q := .ready) hg0 rfl rfl
  have c2 := cnt_on (f := Stage.isOpen) (q := .ready) hg0 rfl rfl
  have e3 : Pool.numStarted (poolPart ([.pool (.started i)] ++ h)) = Pool.numStarted (poolPart h) + 1 := by
    rw [poolPart_append, numStarted_append, Nat.add_comm]; rfl
  refine ⟨pool_len HP hp, by simpa using slen, wlen, ?_, ?_, ?_, ?_, ?_, ?_, ?_, ?_⟩
  · intro j g hj hg
    show p.ws[j]? = _
    rw [hws]
    rcases set_get hj with ⟨rfl, rfl⟩ | ⟨hne, hj⟩
    · rw [List.getElem?_set_self (by omega)]
    · rw [List.getElem?_set_ne (Ne.symm hne)]; exact trial j g hj hg
  · intro j hj
    rcases set_get hj with ⟨-, hx⟩ | ⟨hne, hj⟩
    · simp at hx
    · exact run j hj
  · intro j g hj hg
    rcases set_get hj with ⟨rfl, rfl⟩ | ⟨hne, hj⟩
    · exact idle _ _ hg0 (by simp)
    · exact idle j g hj hg
  · exact held_set held hg0 (by simp) (by simp)
  · intro j g hj hg
    rcases set_get hj with ⟨rfl, rfl⟩ | ⟨hne, hj⟩
    · simp at hg
    · exact logger j g hj hg
  · exact fun hen => pool_cl hp (entry hen) (by simp) (by simp) (by simp)
  · rw [e3]
    show numBegun h + (s.stages.set i .ready).countP Stage.isReady = _
    omega
  · rw [e3]
    show numCompleted h + (s.stages.set i .ready).countP Stage.isOpen = _
    omega

theorem sinv_finish (HP : Pool.Inv n s.pool (poolPart h)) (h2 : LockLevel.FReachable env m hash alg code n s0 dp tm tb s.search (searchPart h))
    (I : SInv n s h) {i : Nat} {p : Pool.St} (hp : Pool.step s.pool (.worker i) = some (p, some (.finished i)))
    (hst : s.stages[i]? = some .done) (hws : p.ws = s.pool.ws.set i .wantLock) : SInv n { s with pool := p } ([.pool (.finished i)] ++ h) := by
  obtain ⟨plen, slen, wlen, trial, run, idle, held, logger, entry, begun, complete⟩ := I
  have e3 : Pool.numStarted (poolPart ([.pool (.finished i)] ++ h)) = Pool.numStarted (poolPart h) := by
    rw [poolPart_append, numStarted_append]; simp [Pool.numStarted, poolPart, Pool.Event.isStart]
  refine ⟨pool_len HP hp, slen, wlen, ?_, run, idle, held, logger,
    fun hen => pool_cl hp (entry hen) (by simp) (by simp) (by simp), by rw [e3]; exact begun, by rw [e3]; exact complete⟩
  intro j g hj hg
  show p.ws[j]? = _
  rw [hws, List.getElem?_set_ne]
  · exact trial j g hj hg
  · rintro rfl
    rw [hst] at hj; simp at hj; exact hg hj.symm

theorem sinv_search (HP : Pool.Inv n s.pool (poolPart h)) (h2 : LockLevel.FReachable env m hash alg code n s0 dp tm tb s.search (searchPart h))
    (I : SInv n s h) {i : Nat} {ch : LockLevel.FChoice S A} {q : LockLevel.FSt S A R X Y} {e : Option (Search.Event S A R)} {g : Stage}
    (hq : LockLevel.fstep env m hash alg code s.search i ch = some (q, e)) (hst : s.stages[i]? = some g) (hg : g = .ready ∨ g = .running) : SInv n { s with search := q, stages := s.stages.set i (nextStage s.lg e) } (e.toList.map .search ++ h) := by
  obtain ⟨plen, slen, wlen, trial, run, idle, held, logger, entry, begun, complete⟩ := I
  obtain ⟨-, FE⟩ := LockLevel.fstep_eff hq
  obtain ⟨pc, pc', p1, p2, p3, p4, p5, p6⟩ := LockLevel.eff_pc (LockLevel.goesOn_reach h2) FE
  have hlt : i < s.search.ws.length := (List.getElem?_eq_some_iff.1 p1).1
  have hns : (nextStage s.lg e = .running ↔ e ≠ some (.completed i)) := by
    unfold nextStage
    split
    · next v => rw [p6 v rfl]; split <;> simp
    · next hne => simp; rintro rfl; exact hne i rfl
  have hnr : nextStage s.lg e ≠ .ready := by
    unfold nextStage
    split
    · split <;> simp
    · simp
  have hnh : ∀ b, nextStage s.lg e ≠ .logHeld b := by
    intro b
    unfold nextStage
    split
    · split <;> simp
    · simp
  have hnl : nextStage s.lg e = .logWant → s.lg ≠ none := by
    unfold nextStage
    split
    · split
      · next hx => intro _ hn; simp [hn] at hx
      · simp
    · simp
  have hready : g = .ready ↔ e = some (.began i) := by
    rw [← p3]
    constructor
    · rintro rfl
      have := idle i _ hst (by simp)
      rw [p1] at this; simpa using this
    · rintro rfl
      rcases hg with hg | hg
      · exact hg
      · subst hg; exact absurd p1 (run i hst)
  have e3 : poolPart (e.toList.map .search ++ h) = poolPart h := by rw [poolPart_append, poolPart_search]; rfl
  refine ⟨plen, by simpa using slen, ?_, ?_, ?_, ?_, ?_, ?_, entry, ?_, ?_⟩
  · show q.ws.length = n
    rw [p2]; simpa using wlen
  · intro j g' hj hg'
    rcases set_get hj with ⟨rfl, rfl⟩ | ⟨hne, hj⟩
    · exact trial _ g hst (by rcases hg with rfl | rfl <;> simp)
    · exact trial j g' hj hg'
  · intro j hj
    show q.ws[j]? ≠ _
    rw [p2]
    rcases set_get hj with ⟨rfl, hx⟩ | ⟨hne, hj⟩
    · rw [List.getElem?_set_self hlt]
      have := hns.1 hx.symm
      rw [ne_eq, ← p4] at this
      simpa using this
    · rw [List.getElem?_set_ne (Ne.symm hne)]; exact run j hj
  · intro j g' hj hg'
    show q.ws[j]? = _
    rw [p2]
    rcases set_get hj with ⟨rfl, rfl⟩ | ⟨hne, hj⟩
    · rw [List.getElem?_set_self hlt]
      have : pc' = .out .idle := by
        by_contra hx
        exact hg' (hns.2 (fun hy => hx (p4.2 hy)))
      rw [this]
    · rw [List.getElem?_set_ne (Ne.symm hne)]; exact idle j g' hj hg'
  · exact held_set held hst (by rcases hg with rfl | rfl <;> simp) hnh
  · intro j g' hj hg'
    rcases set_get hj with ⟨rfl, rfl⟩ | ⟨hne, hj⟩
    · rcases hg' with hg' | ⟨b, hg'⟩
      · exact hnl hg'
      · exact absurd hg' (hnh b)
    · exact logger j g' hj hg'
  · rw [e3, numBegun_append]
    have : numBegun (e.toList.map (Event.search (S := S) (A := A) (R := R))) = if g = .ready then 1 else 0 := by
      unfold numBegun
      rw [searchPart_search]
      split
      · next hx => rw [hready.1 hx]; rfl
      · next hx =>
        cases e with
        | none => rfl
        | some x =>
          cases x with
          | began v => rw [p5 v rfl] at hready; exact absurd (hready.2 rfl) hx
          | _ => rfl
    rw [this]
    have r1 : (nextStage s.lg e).isReady = false := by
      cases hx : nextStage s.lg e <;> simp_all [Stage.isReady]
    show _ + numBegun h + (s.stages.set i (nextStage s.lg e)).countP Stage.isReady = _
    rcases hg with rfl | rfl
    · have := cnt_off (f := Stage.isReady) hst rfl r1
      rw [if_pos rfl]; omega
    · rw [cnt_same (f := Stage.isReady) hst (by rw [r1]; rfl), if_neg (by simp)]; omega
  · rw [e3, numCompleted_append]
    have : numCompleted (e.toList.map (Event.search (S := S) (A := A) (R := R))) = if nextStage s.lg e = .running then 0 else 1 := by
      unfold numCompleted
      rw [searchPart_search]
      split
      · next hx =>
        have hx := hns.1 hx
        cases e with
        | none => rfl
        | some x =>
          cases x with
          | completed v => rw [p6 v rfl] at hx; exact absurd rfl hx
          | _ => rfl
      · next hx =>
        have : e = some (.completed i) := by
          by_contra hy; exact hx (hns.2 hy)
        rw [this]; rfl
    rw [this]
    have ho : g.isOpen = true := by rcases hg with rfl | rfl <;> rfl
    show _ + numCompleted h + (s.stages.set i (nextStage s.lg e)).countP Stage.isOpen = _
    by_cases hx : nextStage s.lg e = .running
    · rw [cnt_same (f := Stage.isOpen) hst (by rw [ho, hx]; rfl), if_pos hx]; omega
    · have r1 : (nextStage s.lg e).isOpen = false := by
        cases hy : nextStage s.lg e with
        | ready => exact absurd hy hnr
        | running => exact absurd hy hx
        | _ => rfl
      have := cnt_off (f := Stage.isOpen) hst ho r1
      rw [if_neg hx]; omega

theorem sinv_take (HP : Pool.Inv n s.pool (poolPart h)) (h2 : LockLevel.FReachable env m hash alg code n s0 dp tm tb s.search (searchPart h))
    (I : SInv n s h) {i : Nat} {L : Log.Logger} (hst : s.stages[i]? = some .logWant) (hf : s.logLock = none) :
    SInv n
      { s with
        lg := some (L.trialCompleted.shouldLog s.pool.now).2, logLock := some i, completed := s.completed + 1
        stages := s.stages.set i (.logHeld (L.trialCompleted.shouldLog s.pool.now).1) } ([] ++ h) := by
  obtain ⟨plen, slen, wlen, trial, run, idle, held, logger, entry, begun, complete⟩ := I
  have hlt := (List.getElem?_eq_some_iff.1 hst).1
  have c1 := cnt_same (f := Stage.isReady) (q := (.logHeld (L.trialCompleted.shouldLog s.pool.now).1)) hst rfl
  have c2 := cnt_same (f := Stage.isOpen) (q := (.logHeld (L.trialCompleted.shouldLog s.pool.now).1)) hst rfl
  refine ⟨plen, by simpa using slen, wlen, ?_, ?_, ?_, ?_, ?_, entry, ?_, ?_⟩
  · intro j g' hj hg'
    rcases set_get hj with ⟨rfl, rfl⟩ | ⟨hne, hj⟩
    · exact trial _ _ hst (by simp)
    · exact trial j g' hj hg'
  · intro j hj
    rcases set_get hj with ⟨rfl, hx⟩ | ⟨hne, hj⟩
    · simp at hx
    · exact run j hj
  · intro j g' hj hg'
    rcases set_get hj with ⟨rfl, rfl⟩ | ⟨hne, hj⟩
    · exact idle _ _ hst (by simp)
    · exact idle j g' hj hg'
  · intro j
    show some i = some j ↔ _
    constructor
    · intro hx
      simp at hx; subst hx
      exact ⟨_, List.getElem?_set_self hlt⟩
    · rintro ⟨b, hj⟩
      rcases set_get hj with ⟨rfl, -⟩ | ⟨hne, hj⟩
      · rfl
      · have := (held j).2 ⟨b, hj⟩
        rw [hf] at this; simp at this
  · intro j g' hj hg'; simp
  · exact (congrArg (numBegun h + ·) c1).trans begun
  · exact (congrArg (numCompleted h + ·) c2).trans complete

theorem sinv_write (HP : Pool.Inv n s.pool (poolPart h)) (h2 : LockLevel.FReachable env m hash alg code n s0 dp tm tb s.search (searchPart h))
    (I : SInv n s h) {i : Nat} {L : Log.Logger} {x : Log.Entry} {v : Int} (hst : s.stages[i]? = some (.logHeld true)) : SInv n { s with lg := some (L.log s.pool.now v), stages := s.stages.set i (.logHeld false) } ([.logged x] ++ h) := by
  obtain ⟨plen, slen, wlen, trial, run, idle, held, logger, entry, begun, complete⟩ := I
  have hlt := (List.getElem?_eq_some_iff.1 hst).1
  have c1 := cnt_same (f := Stage.isReady) (q := (.logHeld false)) hst rfl
  have c2 := cnt_same (f := Stage.isOpen) (q := (.logHeld false)) hst rfl
  refine ⟨plen, by simpa using slen, wlen, ?_, ?_, ?_, ?_, ?_, entry, ?_, ?_⟩
  · intro j g' hj hg'
    rcases set_get hj with ⟨rfl, rfl⟩ | ⟨hne, hj⟩
    · exact trial _ _ hst (by simp)
    · exact trial j g' hj hg'
  · intro j hj
    rcases set_get hj with ⟨rfl, hx⟩ | ⟨hne, hj⟩
    · simp at hx
    · exact run j hj
  · intro j g' hj hg'
    rcases set_get hj with ⟨rfl, rfl⟩ | ⟨hne, hj⟩
    · exact idle _ _ hst (by simp)
    · exact idle j g' hj hg'
  · intro j
    show s.logLock = some j ↔ _
    rw [held]
    by_cases e : i = j
    · subst e; rw [hst]; simp [List.getElem?_set_self hlt]
    · rw [List.getElem?_set_ne e]
  · intro j g' hj hg'; simp
  · exact (congrArg (numBegun h + ·) c1).trans begun
  · exact (congrArg (numCompleted h + ·) c2).trans complete

theorem sinv_release (HP : Pool.Inv n s.pool (poolPart h)) (h2 : LockLevel.FReachable env m hash alg code n s0 dp tm tb s.search (searchPart h))
    (I : SInv n s h) {i : Nat} {L : Log.Logger} (hst : s.stages[i]? = some (.logHeld false)) : SInv n { s with lg := some L, logLock := none, stages := s.stages.set i .done } ([] ++ h) := by
  obtain ⟨plen, slen, wlen, trial, run, idle, held, logger, entry, begun, complete⟩ := I
  have hlt := (List.getElem?_eq_some_iff.1 hst).1
  have hi := (held i).2 ⟨_, hst⟩
  have c1 := cnt_same (f := Stage.isReady) (q := .done) hst rfl
  have c2 := cnt_same (f := Stage.isOpen) (q := .done) hst rfl
  refine ⟨plen, by simpa using slen, wlen, ?_, ?_, ?_, ?_, ?_, entry, ?_, ?_⟩
  · intro j g' hj hg'
    rcases set_get hj with ⟨rfl, rfl⟩ | ⟨hne, hj⟩
    · exact absurd rfl hg'
    · exact trial j g' hj hg'
  · intro j hj
    rcases set_get hj with ⟨rfl, hx⟩ | ⟨hne, hj⟩
    · simp at hx
    · exact run j hj
  · intro j g' hj hg'
    rcases set_get hj with ⟨rfl, rfl⟩ | ⟨hne, hj⟩
    · exact idle _ _ hst (by simp)
    · exact idle j g' hj hg'
  · intro j
    show none = some j ↔ _
    constructor
    · intro hx; simp at hx
    · rintro ⟨b, hj⟩
      rcases set_get hj with ⟨rfl, hx⟩ | ⟨hne, hj⟩
      · simp at hx
      · have := (held j).2 ⟨b, hj⟩
        rw [hi] at this; simp at this; exact absurd this.symm hne
  · intro j g' hj hg'; simp
  · exact (congrArg (numBegun h + ·) c1).trans begun
  · exact (congrArg (numCompleted h + ·) c2).trans complete

theorem sinv_reach (hr : Reachable env m hash alg code n s0 dp tm tb lg s h) : SInv n s h := by
  refine reach_induct' (P := SInv n) ?_ ?_ hr
  · constructor <;> simp_all [init, Pool.init, LockLevel.finit, List.getElem?_replicate, numBegun, numCompleted, searchPart, poolPart, Pool.numStarted,
      List.countP_replicate, Stage.isReady, Stage.isOpen]
    all_goals grind
  · intro s h l es s' hr I hc E
    obtain ⟨⟨ls, h1⟩, h2⟩ := reach_project hr
    have HP := Pool.inv_exec h1
    cases E with
    | quiet hp g1 g2 g3 g4 g5 => exact sinv_quiet HP h2 I hp g1 g2 g4 g5
    | start hp hw hws => exact sinv_start HP h2 I hp hw hws
    | finish hp hw hst hws => exact sinv_finish HP h2 I hp hst hws
    | search hq hst hg => exact sinv_search HP h2 I hq hst hg
    | take hlg hst hf => exact sinv_take HP h2 I hst hf
    | write hlg hst hf => exact sinv_write HP h2 I hst
    | release hlg hst => exact sinv_release HP h2 I hst
    | enter hcl hen =>
      obtain ⟨plen, slen, wlen, trial, run, idle, held, logger, entry, begun, complete⟩ := I
      exact ⟨plen, slen, wlen, trial, run, idle, held, logger, fun _ => hcl, begun, complete⟩
    | prep hen hlg =>
      obtain ⟨plen, slen, wlen, trial, run, idle, held, logger, entry, begun, complete⟩ := I
      refine ⟨plen, slen, wlen, trial, run, idle, held, ?_, fun _ => entry (by simp [hen]), begun, complete⟩
      intro j g hj hg
      rcases hlg with ⟨hlg, rfl⟩ | ⟨-, L, -, rfl⟩
      · exact absurd hlg (logger j g hj hg)
      · simp
    | @call k lim b p hen hp =>
      obtain ⟨plen, slen, wlen, trial, run, idle, held, logger, entry, begun, complete⟩ := I
      obtain ⟨-, -, -, e⟩ := pool_call hp
      have e3 : Pool.numStarted (poolPart ([.pool (.called k lim)] ++ h)) = Pool.numStarted (poolPart h) := by
        rw [poolPart_append, numStarted_append]; simp [Pool.numStarted, poolPart, Pool.Event.isStart]
      refine ⟨pool_len HP hp, slen, wlen, ?_, run, idle, held, logger, by simp, by rw [e3]; exact begun, by rw [e3]; exact complete⟩
      intro j g hj hg
      show p.ws[j]? = _
      rw [e]
      exact trial j g hj hg

end Verif.Prog
