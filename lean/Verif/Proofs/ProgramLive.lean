import Verif.Proofs.ProgramInv
import Mathlib.Order.WellFounded

/-! # The whole program never gets stuck, and every run of it ends -/

set_option linter.unusedSectionVars false

namespace Verif.Prog

variable {S A R X Y : Type} [DecidableEq S] [DecidableEq A] [Add R] [Zero R]
variable {env : Search.Env S A R} {m : Search.Manager S R} {hash : Int × S → Nat} {alg : Search.Alg S A R X Y} {code : LockLevel.Code S A R X Y}
variable {n : Nat} {s0 : S} {dp tm : Int} {tb : List ((Int × S) × Option Nat)} {lg : Option Log.Logger} {s s' : St S A R X Y}
  {h : List (Event S A R)}

theorem can_of {l : Label S A} (hl : l.isProgress = true) (hs : (step env m hash alg code s l).isSome = true) : CanStep env m hash alg code s := by
  obtain ⟨r, hr⟩ := Option.isSome_iff_exists.1 hs
  exact ⟨l, r, hl, hr⟩

theorem can_search (hc : s.search.crashed = none) {i : Nat} {ch : LockLevel.FChoice S A} (hg : s.stages[i]? = some .ready ∨ s.stages[i]? = some .running)
    {r : LockLevel.FSt S A R X Y × Option (Search.Event S A R)} (hf : LockLevel.fstep env m hash alg code s.search i ch = some r) :
    CanStep env m hash alg code s := by
  refine can_of (l := .search i ch) rfl ?_
  simp only [step, hc, Option.isSome_none, Bool.false_eq_true, if_false, searchStep, hg, if_true, hf, Option.isSome_some]

theorem fstep_idle {f : LockLevel.FSt S A R X Y} {i : Nat} (hc : f.crashed = none) (hw : f.ws[i]? = some (.out .idle)) :
    ∃ r, LockLevel.fstep env m hash alg code f i .go = some r := by
  simp [LockLevel.fstep, hc, hw]

/-- As long as a worker is in a trial, somebody can take a step. -/
theorem can_stage (P : LockLevel.Progresses env m hash alg code n s0 dp tm tb) (hr : Reachable env m hash alg code n s0 dp tm tb lg s h)
    {i : Nat} {g : Stage} (hi : s.stages[i]? = some g) (hg : g ≠ .done) : CanStep env m hash alg code s := by
  have I := sinv_reach hr
  obtain ⟨-, hf⟩ := reach_project hr
  obtain ⟨hc, hd, -, -⟩ := P hf
  by_cases hrun : ∃ j : Nat, s.stages[j]? = some .running
  · obtain ⟨j, hj⟩ := hrun
    have hjl : j < s.search.ws.length := by
      rw [I.wlen, ← I.slen]; exact (List.getElem?_eq_some_iff.1 hj).1
    have hjr := I.run j hj
    have hjp := List.getElem?_eq_getElem hjl
    have : ∃ (w : Nat) (p : LockLevel.Pc S A R X Y) (ch : LockLevel.FChoice S A) (r : _), s.search.ws[w]? = some p ∧ p ≠ .out .idle ∧
        LockLevel.fstep env m hash alg code s.search w ch = some r := by
      by_contra hx
      refine hd ⟨hc, ⟨j, _, hjp, fun e => hjr (by rw [hjp, e])⟩, ?_⟩
      intro w p hw hp ch
      cases hs : LockLevel.fstep env m hash alg code s.search w ch with
      | none => rfl
      | some r => exact absurd ⟨w, p, ch, r, hw, hp, hs⟩ hx
    obtain ⟨w, p, ch, r, hw, hp, hs⟩ := this
    have hwl : w < s.stages.length := by
      rw [I.slen, ← I.wlen]; exact (List.getElem?_eq_some_iff.1 hw).1
    have hwg := List.getElem?_eq_getElem hwl
    have : s.stages[w] = .running := by
      by_contra hx
      have := I.idle w _ hwg hx
      rw [hw] at this; simp at this; exact hp this
    rw [this] at hwg
    exact can_search hc (.inr hwg) hs
  · have hidle : ∀ (w : Nat) pc, s.search.ws[w]? = some pc → pc = .out .idle := by
      intro w pc hw
      have hwl : w < s.stages.length := by
        rw [I.slen, ← I.wlen]; exact (List.getElem?_eq_some_iff.1 hw).1
      have hwg := List.getElem?_eq_getElem hwl
      have := I.idle w _ hwg (fun e => hrun ⟨w, by rw [hwg, e]⟩)
      rw [hw] at this; simpa using this
    have hlog : ∀ {j : Nat} {b : Bool}, s.stages[j]? = some (.logHeld b) → CanStep env m hash alg code s := by
      intro j b hj
      obtain ⟨L, hL⟩ := Option.ne_none_iff_exists'.1 (I.logger j _ hj (.inr ⟨b, rfl⟩))
      cases b with
      | false =>
        refine can_of (l := .log j) rfl ?_
        simp only [step, hc, Option.isSome_none, Bool.false_eq_true, if_false, logStep, hL, hj, Option.isSome_some]
      | true =>
        have hk := LockLevel.quiet_lock (LockLevel.linv_reach hf) (fun w pc hw => ⟨_, hidle w pc hw⟩)
        have hk : s.search.lock (.d s.search.root) = none := by rw [hk]
        refine can_of (l := .log j) rfl ?_
        simp only [step, hc, Option.isSome_none, Bool.false_eq_true, if_false, logStep, hL, hj, hk, if_true, Option.isSome_some]
    cases g with
    | ready =>
      obtain ⟨r, hx⟩ := fstep_idle (env := env) (m := m) (hash := hash) (alg := alg) (code := code) hc (I.idle i _ hi (by simp))
      exact can_search hc (.inl hi) hx
    | running => exact absurd ⟨i, hi⟩ hrun
    | logHeld b => exact hlog hi
    | done => exact absurd rfl hg
    | logWant =>
      cases hk : s.logLock with
      | some j =>
        obtain ⟨b, hj⟩ := (I.held j).1 hk
        exact hlog hj
      | none =>
        obtain ⟨L, hL⟩ := Option.ne_none_iff_exists'.1 (I.logger i _ hi (.inl rfl))
        refine can_of (l := .log i) rfl ?_
        simp only [step, hc, Option.isSome_none, Bool.false_eq_true, if_false, logStep, hL, hi, hk, if_true, Option.isSome_some]

/-- When no worker is in a trial, what the pool can do the program can do. -/
theorem can_pool (hc : s.search.crashed = none) (hd : ∀ (i : Nat) g, s.stages[i]? = some g → g = .done) (hl : s.stages.length = s.pool.ws.length)
    {l : Pool.Label} {r : Pool.St × Option Pool.Event} (hp : l.isProgress = true) (hs : Pool.step s.pool l = some r) : CanStep env m hash alg code s := by
  obtain ⟨p, e⟩ := r
  cases l with
  | client =>
    refine can_of (l := .pool .client) rfl ?_
    simp only [step, hc, Option.isSome_none, Bool.false_eq_true, if_false, poolStep, hs, Option.isSome_some]
  | worker i =>
    have : ∃ r, step env m hash alg code s (.pool (.worker i)) = some r := by
      simp only [step, hc, Option.isSome_none, Bool.false_eq_true, if_false, poolStep, hs]
      split
      · next ht =>
        have hlt : i < s.stages.length := by rw [hl]; exact (List.getElem?_eq_some_iff.1 ht).1
        have := List.getElem?_eq_getElem hlt
        rw [hd i _ this] at this
        simp [this]
      · split <;> simp
    obtain ⟨r, hr⟩ := this
    exact ⟨_, r, rfl, hr⟩
  | _ => simp [Pool.Label.isProgress] at hp

/-- A worker that holds the pool's mutex can go on. -/
theorem pool_holder {p : Pool.St} {g : List Pool.Event} (H : Pool.Inv n p g) {i : Nat} (hk : p.lock = some (.worker i)) :
    ∃ r, Pool.step p (.worker i) = some r := by
  have hlt : i < p.ws.length := by rw [H.len]; exact H.lockB i hk
  have hp := List.getElem?_eq_getElem hlt
  have hL := (H.lockW i _ hp).2 hk
  cases hq : p.ws[i] <;> simp [hq, Pool.WPc.holds] at hp hL
  · cases ha : p.alive <;> simp [Pool.step, hp, Pool.stepWorker, ha]
  · cases ha : p.workLeft <;> simp [Pool.step, hp, Pool.stepWorker, ha]
  · cases ha : p.workLeft <;> simp [Pool.step, hp, Pool.stepWorker, ha]
  · cases ha : p.alive <;> simp [Pool.step, hp, Pool.stepWorker, ha]

/-- A client inside a call is never stuck, unless the time limit has passed. -/
theorem can_inside (P : LockLevel.Progresses env m hash alg code n s0 dp tm tb) (hn : 0 < n)
    (hr : Reachable env m hash alg code n s0 dp tm tb lg s h) (hin : s.inside) (he : s.pool.cl.busy = true → s.pool.expired = false) :
    CanStep env m hash alg code s := by
  by_cases hx : ∃ (i : Nat) (g : Stage), s.stages[i]? = some g ∧ g ≠ .done
  · obtain ⟨i, g, h1, h2⟩ := hx
    exact can_stage P hr h1 h2
  have I := sinv_reach hr
  obtain ⟨⟨ls, hp⟩, hf⟩ := reach_project hr
  have H := Pool.inv_exec hp
  obtain ⟨hc, -, -, -⟩ := P hf
  have hd : ∀ (i : Nat) g, s.stages[i]? = some g → g = .done := by
    intro i g hi
    by_contra hg
    exact hx ⟨i, g, hi, hg⟩
  have hl : s.stages.length = s.pool.ws.length := by rw [I.slen, I.plen]
  have hk : s.logLock = none := by
    cases hk : s.logLock with
    | none => rfl
    | some j =>
      obtain ⟨b, hj⟩ := (I.held j).1 hk
      simpa using hd j _ hj
  cases hen : s.entry with
  | some en =>
    cases en with
    | wantLog k lim b =>
      have : ∃ r, step env m hash alg code s .run = some r := by
        simp only [step, hc, Option.isSome_none, Bool.false_eq_true, if_false, runStep, hen, hk, if_true]
        cases s.lg <;> simp
      obtain ⟨r, hr⟩ := this
      exact ⟨_, r, rfl, hr⟩
    | wantLock k lim b =>
      have hcl := I.entry (by simp [hen])
      cases hlk : s.pool.lock with
      | none =>
        have : ∃ r, step env m hash alg code s .run = some r := by
          simp [step, hc, runStep, hen, Pool.step, hcl, hlk]
        obtain ⟨r, hr⟩ := this
        exact ⟨_, r, rfl, hr⟩
      | some o =>
        cases o with
        | worker i =>
          obtain ⟨r, hs⟩ := pool_holder H hlk
          exact can_pool hc hd hl rfl hs
        | client =>
          have := H.lockC.2 hlk
          rw [hcl] at this; simp at this
  | none =>
    rcases hin with hin | hin | hin
    · exact absurd hen hin
    · obtain ⟨l, r, h1, h2⟩ := Pool.not_stuck_busy H hn hin (he hin)
      exact can_pool hc hd hl h1 h2
    · obtain ⟨l, r, h1, h2⟩ := Pool.not_stuck_dtor H hin
      exact can_pool hc hd hl h1 h2

/-! ## Every run ends -/

def Stage.wt : Stage → Nat
  | .ready => 5
  | .running => 4
  | .logWant => 3
  | .logHeld true => 2
  | .logHeld false => 1
  | .done => 0

def entryWt : Option Entry → Nat
  | none => 0
  | some (.wantLock _ _ _) => 1
  | some (.wantLog _ _ _) => 2

theorem sum_set (l : List Stage) (i : Nat) (p q : Stage) (h : l[i]? = some p) :
    ((l.set i q).map Stage.wt).sum + p.wt = (l.map Stage.wt).sum + q.wt := by
  induction l generalizing i with
  | nil => simp at h
  | cons a l ih =>
    cases i with
    | zero => simp at h; subst h; simp; omega
    | succ i => simp at h; have := ih i h; simp only [List.set_cons_succ, List.map_cons, List.sum_cons]; omega

/-- The steps of the search that do not begin a trial, in reachable states. -/
def Down (env : Search.Env S A R) (m : Search.Manager S R) (hash : Int × S → Nat) (alg : Search.Alg S A R X Y) (code : LockLevel.Code S A R X Y)
    (n : Nat) (s0 : S) (dp tm : Int) (tb : List ((Int × S) × Option Nat)) (f' f : LockLevel.FSt S A R X Y) : Prop :=
  (∃ h, LockLevel.FReachable env m hash alg code n s0 dp tm tb f h) ∧
    ∃ v ch e, LockLevel.fstep env m hash alg code f v ch = some (f', e) ∧ ∀ u, e ≠ some (.began u)

theorem wf_down (P : LockLevel.Progresses env m hash alg code n s0 dp tm tb) : WellFounded (Down env m hash alg code n s0 dp tm tb) := by
  rw [wellFounded_iff_isEmpty_descending_chain]
  constructor
  rintro ⟨g, hg⟩
  obtain ⟨h, hr⟩ := (hg 0).1
  exact (P hr).2.2.2 ⟨g, rfl, fun k => (hg k).2⟩

abbrev Val (S A R X Y : Type) := Nat × Nat × Nat × LockLevel.FSt S A R X Y

def val (s : St S A R X Y) : Val S A R X Y := (entryWt s.entry, Pool.mu s.pool, (s.stages.map Stage.wt).sum, s.search)

abbrev Less (env : Search.Env S A R) (m : Search.Manager S R) (hash : Int × S → Nat) (alg : Search.Alg S A R X Y) (code : LockLevel.Code S A R X Y)
    (n : Nat) (s0 : S) (dp tm : Int) (tb : List ((Int × S) × Option Nat)) : Val S A R X Y → Val S A R X Y → Prop :=
  Prod.Lex (· < ·) (Prod.Lex (· < ·) (Prod.Lex (· < ·) (Down env m hash alg code n s0 dp tm tb)))

theorem wf_less (P : LockLevel.Progresses env m hash alg code n s0 dp tm tb) : WellFounded (Less env m hash alg code n s0 dp tm tb) :=
  WellFounded.prod_lex Nat.lt_wfRel.wf (WellFounded.prod_lex Nat.lt_wfRel.wf (WellFounded.prod_lex Nat.lt_wfRel.wf (wf_down P)))

/-- Every step of the program itself makes the value smaller. -/
theorem less_progress (hr : Reachable env m hash alg code n s0 dp tm tb lg s h) {l : Label S A} {es : List (Event S A R)}
    (hl : l.isProgress = true) (hs : step env m hash alg code s l = some (s', es)) :
    Less env m hash alg code n s0 dp tm tb (val s') (val s) := by
  have I := sinv_reach hr
  obtain ⟨-, hf⟩ := reach_project hr
  have E := (step_eff hs).2
  cases E with
  | quiet hp => exact .right _ (.left _ _ (Pool.mu_progress hl hp))
  | start hp | finish hp => exact .right _ (.left _ _ (Pool.mu_progress rfl hp))
  | enter => simp [Label.isProgress] at hl
  | prep hen =>
    refine .left _ _ ?_
    simp [val, hen, entryWt]
  | call hen =>
    refine .left _ _ ?_
    simp [hen, entryWt]
  | take hlg hst =>
    refine .right _ (.right _ (.left _ _ ?_))
    have hx : ∀ b, (Stage.logHeld b).wt ≤ 2 := by intro b; cases b <;> simp [Stage.wt]
    have hy : Stage.logWant.wt = 3 := rfl
    exact Nat.lt_of_add_lt_add_right (n := 3) (by
      show ((s.stages.set _ _).map Stage.wt).sum + 3 < _
      rw [← hy, sum_set s.stages _ _ _ hst]
      have := hx (Log.Logger.shouldLog (by assumption : Log.Logger).trialCompleted s.pool.now).1
      omega)
  | write hlg hst =>
    refine .right _ (.right _ (.left _ _ ?_))
    have := sum_set s.stages _ _ (.logHeld false) hst
    simp only [Stage.wt] at this ⊢
    omega
  | release hlg hst =>
    refine .right _ (.right _ (.left _ _ ?_))
    have := sum_set s.stages _ _ .done hst
    simp only [Stage.wt] at this ⊢
    omega
  | @search i ch q e g hq hst hg =>
    refine .right _ (.right _ ?_)
    have hsum := sum_set s.stages i _ (nextStage s.lg e) hst
    have hle : (nextStage s.lg e).wt ≤ 4 := by
      unfold nextStage
      split
      · split <;> simp [Stage.wt]
      · simp [Stage.wt]
    have w5 : Stage.ready.wt = 5 := rfl
    have w4 : Stage.running.wt = 4 := rfl
    rcases hg with rfl | rfl
    · refine .left _ _ ?_
      show ((s.stages.set i (nextStage s.lg e)).map Stage.wt).sum < _
      omega
    · by_cases hlt : (nextStage s.lg e).wt < 4
      · refine .left _ _ ?_
        show ((s.stages.set i (nextStage s.lg e)).map Stage.wt).sum < _
        omega
      · have : ((s.stages.set i (nextStage s.lg e)).map Stage.wt).sum = (s.stages.map Stage.wt).sum := by omega
        show Prod.Lex _ _ (_, q) (_, s.search)
        rw [this]
        refine .right _ ⟨⟨_, hf⟩, i, ch, e, hq, ?_⟩
        rintro u rfl
        obtain ⟨-, FE⟩ := LockLevel.fstep_eff hq
        obtain ⟨pc, pc', p1, -, p3, -, p5, -⟩ := LockLevel.eff_pc (LockLevel.goesOn_reach hf) FE
        have := p5 u rfl
        subst this
        exact I.run u hst (by rw [p1, p3.2 rfl])

/-- Ticks of the clock do not change it. -/
theorem val_other {l : Label S A} {es : List (Event S A R)} (h1 : l.isProgress = false) (h2 : l.isSpurious = false) (h3 : l.isCall = false)
    (hs : step env m hash alg code s l = some (s', es)) : val s' = val s := by
  have E := (step_eff hs).2
  cases E with
  | @quiet l p e hp g1 g2 g3 g4 g5 =>
    cases l <;> simp [Label.isProgress, Label.isSpurious, Label.isCall, Pool.Label.isProgress, Pool.Label.isSpurious] at h1 h2 h3 hs
    · simp [Pool.step] at hp; obtain ⟨rfl, rfl⟩ := hp; rfl
    · simp [step, poolStep, hp] at hs
    · exact absurd rfl (g5 _ _ _)
    · simp [step, poolStep, hp] at hs
  | enter => simp [Label.isCall] at h3
  | _ => simp [Label.isProgress, Pool.Label.isProgress] at h1

/-- **Every run ends**: if there are no spurious wake-ups and calls from some point on, a fair run reaches a state in which the program has
nothing left to do. -/
theorem run_ends (P : LockLevel.Progresses env m hash alg code n s0 dp tm tb) (st : Nat → St S A R X Y) (lab : Nat → Label S A)
    (hr : Reachable env m hash alg code n s0 dp tm tb lg (st 0) h)
    (hstep : ∀ k, ∃ es, step env m hash alg code (st k) (lab k) = some (st (k + 1), es)) {N : Nat}
    (hq : ∀ k, N ≤ k → (lab k).isSpurious = false ∧ (lab k).isCall = false)
    (hfair : ∀ N, (∀ k, N ≤ k → CanStep env m hash alg code (st k)) → ∃ k, N ≤ k ∧ (lab k).isProgress = true) :
    ∃ k, N ≤ k ∧ ¬ CanStep env m hash alg code (st k) := by
  by_contra hno
  simp only [not_exists, not_and, not_not] at hno
  have hreach : ∀ k, ∃ g, Reachable env m hash alg code n s0 dp tm tb lg (st k) g := by
    intro k
    induction k with
    | zero => exact ⟨h, hr⟩
    | succ k ih =>
      obtain ⟨g, hg⟩ := ih
      obtain ⟨es, he⟩ := hstep k
      exact ⟨_, reach_snoc hg he⟩
  have hmono : ∀ k, N ≤ k → Relation.ReflTransGen (Less env m hash alg code n s0 dp tm tb) (val (st (k + 1))) (val (st k)) := by
    intro k hk
    obtain ⟨es, he⟩ := hstep k
    obtain ⟨g, hg⟩ := hreach k
    cases hp : (lab k).isProgress with
    | true => exact .single (less_progress hg hp he)
    | false => rw [val_other hp (hq k hk).1 (hq k hk).2 he]
  have hle : ∀ d k, N ≤ k → Relation.ReflTransGen (Less env m hash alg code n s0 dp tm tb) (val (st (k + d))) (val (st k)) := by
    intro d
    induction d with
    | zero => intro k _; exact .refl
    | succ d ih => intro k hk; exact (hmono (k + d) (by omega)).trans (ih k hk)
  have key : ∀ v : Val S A R X Y, ∀ k, N ≤ k → val (st k) = v → False := by
    intro v
    induction v using (wf_less P).transGen.induction with
    | _ v ih =>
      intro k hk hv
      obtain ⟨j, hj, hp⟩ := hfair k (fun i hi => hno i (by omega))
      obtain ⟨es, he⟩ := hstep j
      obtain ⟨g, hg⟩ := hreach j
      have h1 := less_progress hg hp he
      have h2 := hle (j - k) k hk
      have : k + (j - k) = j := by omega
      rw [this, hv] at h2
      exact ih _ (Relation.TransGen.head' h1 h2) (j + 1) (by omega) rfl
  exact key _ N (Nat.le_refl _) rfl

end Verif.Prog
