import Verif.Proofs.ProgramReturn
import Verif.Proofs.ProgramLift
import Verif.Proofs.ProgramLog
import Verif.Props.Pool
import Verif.Props.LockFree
import Verif.Props.LockRefine
import Verif.Spec.LockToy

/-!
# C81: searching with the whole program comes to an end

The theorems `_partial` need an algorithm whose trials make progress at the level of locks (C80): UCT and PUCT, the others without the
transposition table, with the assumptions of C74 on environment and configuration.  Missing is a time limit (false, see C04).
-/

set_option linter.unusedSectionVars false

namespace Verif.Prog

open Verif

section General
variable {S A R X Y : Type} [DecidableEq S] [DecidableEq A] [Add R] [Zero R]
variable {env : Search.Env S A R} {m : Search.Manager S R} {hash : Int × S → Nat} {alg : Search.Alg S A R X Y} {code : LockLevel.Code S A R X Y}
variable {n : Nat} {s0 : S} {dp tm : Int} {tb : List ((Int × S) × Option Nat)} {lg : Option Log.Logger} {s s' : St S A R X Y}
  {h : List (Event S A R)}

/-! ## Calls return -/

/-- **C81** (partial). -/
theorem c81_ends_partial (P : LockLevel.Progresses env m hash alg code n s0 dp tm tb) (hn : 0 < n) :
    Ends env m hash alg code n s0 dp tm tb lg where
  neverStuck _ _ hr hin hl := can_inside P hn hr hin (not_expired hr hl)
  returns _ _ _ hr hin hl F := returns P hn hr hin hl F
  fairRun _ _ hr := fair_run P hr

/-- **C81** (partial).  If the client makes no more calls then the program comes to rest, also with a time limit: at some moment no trial
is running, no thread is inside the tree or the logger, all their mutexes are free, all trials started have been run to their end, and
if the pool still exists and no time limit has been reached then the last call got what it asked for. -/
theorem c81_comes_to_rest_partial (P : LockLevel.Progresses env m hash alg code n s0 dp tm tb) (hn : 0 < n) {st : Nat → St S A R X Y}
    {lab : Nat → Label S A} (hr : Reachable env m hash alg code n s0 dp tm tb lg (st 0) h) (F : FairRun env m hash alg code st lab) {N : Nat}
    (hno : ∀ k, N ≤ k → (lab k).isCall = false) :
    ∃ k g, N ≤ k ∧ Reachable env m hash alg code n s0 dp tm tb lg (st k) g ∧
      (∀ (i : Nat), Pool.inTrial i (poolPart g) = false) ∧ (∀ (w : Nat) pc, (st k).search.ws[w]? = some pc → pc = .out .idle) ∧
      (st k).treeFree ∧ numBegun g = Pool.numStarted (poolPart g) ∧ numCompleted g = Pool.numStarted (poolPart g) ∧
      ((st k).pool.cl = .idle ∨ (st k).pool.cl = .dead ∨ ((st k).pool.cl = .joinWait ∧ (st k).pool.expired = true)) ∧
      ((st k).pool.cl ≠ .dead → (st k).pool.expired = false →
        (Pool.numStarted (Pool.sinceCall (poolPart g)) : Int) = max (Pool.budget (poolPart g)) 0) := by
  obtain ⟨M, hM⟩ := F.spurious
  obtain ⟨k, hk, hstuck⟩ := run_ends P st lab hr F.run (N := max N M)
    (fun k hk => ⟨hM k (by omega), hno k (by omega)⟩) F.fair
  have hreach : ∀ k, ∃ g, Reachable env m hash alg code n s0 dp tm tb lg (st k) g := by
    intro k
    induction k with
    | zero => exact ⟨h, hr⟩
    | succ k ih =>
      obtain ⟨g, hg⟩ := ih
      obtain ⟨es, he⟩ := F.run k
      exact ⟨_, reach_snoc hg he⟩
  obtain ⟨g, hg⟩ := hreach k
  obtain ⟨h1, h2, h3, h4⟩ := stuck_state P hn hg hstuck
  obtain ⟨q1, q2, q3, q4⟩ := quiet_of_done hg h1
  obtain ⟨⟨ls, hp⟩, -⟩ := reach_project hg
  have H := Pool.inv_exec hp
  have hnt : ∀ i : Nat, (st k).pool.ws[i]? ≠ some .trial := by
    intro i hi
    have hlt : i < n := by
      rw [← (sinv_reach hg).plen]; exact (List.getElem?_eq_some_iff.1 hi).1
    rcases h3 i hlt with h | h <;> rw [h] at hi <;> simp at hi
  refine ⟨k, g, by omega, hg, ?_, q1, q2, q3, q4, h4, ?_⟩
  · intro i
    have := mt (H.trial i).2 (hnt i)
    simpa using this
  · intro hd he
    have hwl : (st k).pool.workLeft = false := by
      rcases h3 0 hn with hw | hw
      · rcases H.sleepW 0 hw with h | ⟨b, hb⟩
        · exact h
        · rcases h4 with h | h | ⟨h, -⟩ <;> rw [h] at hb <;> simp at hb
      · have ha := H.exAlive 0 hw
        have : (st k).pool.alive = true := by
          rw [H.aliveC]
          rcases h4 with h | h | ⟨h, -⟩
          · simp [h]
          · exact absurd h hd
          · simp [h]
        rw [ha] at this; simp at this
    simp only [Pool.St.workLeft, he] at hwl
    have h5 := H.rem
    have h6 : (st k).pool.remaining ≤ 0 := by
      by_contra hx
      simp [hx] at hwl
    rcases H.rem0 with h | h <;> omega

/-! ## What holds when `join` has returned -/

/-- **C81.**  When `join` has returned (or nothing has been run yet): every trial that was started has been begun and completed in the
tree, no thread is inside the tree or the logger, and all their mutexes are free. -/
theorem c81_when_joined (hr : Reachable env m hash alg code n s0 dp tm tb lg s h) (hs : Pool.settled (poolPart h) = true) :
    (∀ i, Pool.inTrial i (poolPart h) = false) ∧ (∀ (w : Nat) pc, s.search.ws[w]? = some pc → pc = .out .idle) ∧ s.treeFree ∧
    numBegun h = Pool.numStarted (poolPart h) ∧ numCompleted h = Pool.numStarted (poolPart h) := by
  obtain ⟨⟨ls, hp⟩, -⟩ := reach_project hr
  exact ⟨(Pool.c03_join_quiescent n ls _ _ hp).1 hs, quiet_of_done hr (done_of_settled hr hs)⟩

/-- **C81.**  A `run_trials(N)` that begins when nothing is running, and whose `join` returns before its time limit, completes exactly
`N` trials in the tree. -/
theorem c81_run_completes {h1 h2 : List (Event S A R)} {N : Int} {lim : Option Nat}
    (hr : Reachable env m hash alg code n s0 dp tm tb lg s (.pool .joined :: h2 ++ .pool (.called N lim) :: h1))
    (hno : ∀ N' lim', .pool (.called N' lim') ∉ h2) (hs : Pool.settled (poolPart h1) = true) (he : s.pool.expired = false) :
    (numCompleted (.pool .joined :: h2 ++ .pool (.called N lim) :: h1) : Int) = numCompleted h1 + max N 0 := by
  obtain ⟨⟨ls, hp⟩, -⟩ := reach_project hr
  have hpp : poolPart (.pool .joined :: h2 ++ .pool (.called N lim) :: h1) = .joined :: (poolPart h2 ++ .called N lim :: poolPart h1) := by
    simp [poolPart, List.filterMap_append]
  have hncl : ∀ e ∈ poolPart h2, (!Pool.Event.isCall e) = true := by
    intro e he
    obtain ⟨x, hx, hxe⟩ := List.mem_filterMap.1 he
    cases x with
    | pool y =>
      simp only [Option.some.injEq] at hxe
      subst hxe
      cases y with
      | called N' lim' => exact absurd hx (hno N' lim')
      | _ => rfl
    | _ => simp at hxe
  have hb : ∀ l : List Pool.Event, (∀ e ∈ l, (!Pool.Event.isCall e) = true) → Pool.budget (l ++ .called N lim :: poolPart h1) = N := by
    intro l
    induction l with
    | nil => intro _; rfl
    | cons e l ih =>
      intro hl
      have he := hl e (by simp)
      cases e <;> simp_all [Pool.budget, Pool.Event.isCall]
  have hsc : Pool.sinceCall (poolPart h2 ++ .called N lim :: poolPart h1) = poolPart h2 := by
    rw [Pool.sinceCall, List.takeWhile_append_of_pos hncl]
    simp [Pool.Event.isCall]
  rw [hpp] at hp
  obtain ⟨c1, -, -⟩ := Pool.c02_exact_number_of_trials n ls _ _ hp he
  rw [hsc, hb _ hncl] at c1
  have w := (c81_when_joined hr (by rw [hpp]; rfl)).2.2.2.2
  obtain ⟨s1, hr1⟩ := reach_suffix (a := .pool .joined :: h2 ++ [.pool (.called N lim)]) (b := h1) (by simpa using hr)
  have w1 := (c81_when_joined hr1 hs).2.2.2.2
  rw [w, w1, hpp]
  simp only [Pool.numStarted, List.countP_cons, List.countP_append, Pool.Event.isStart] at c1 ⊢
  simp only [Bool.false_eq_true, if_false, Nat.add_zero]
  push_cast
  omega

/-- **C81.**  A worker that holds the pool's mutex holds no other; one that holds the logger's holds none of the tree's, so it can
take the root's.  The logger is used by one worker at a time. -/
theorem c81_lock_order (hr : Reachable env m hash alg code n s0 dp tm tb lg s h) (i : Nat) :
    (s.hasPool i → ¬ s.hasLog i ∧ ¬ s.hasNode i) ∧ (s.hasLog i → ¬ s.hasNode i) ∧
    (∀ j b b', s.stages[i]? = some (.logHeld b) → s.stages[j]? = some (.logHeld b') → i = j) := by
  have I := sinv_reach hr
  obtain ⟨⟨ls, hp⟩, hf⟩ := reach_project hr
  have H := Pool.inv_exec hp
  have hnode : ∀ g, s.stages[i]? = some g → g ≠ .running → ¬ s.hasNode i := by
    rintro g hg hne ⟨l, hl⟩
    exact no_lock_idle hf (I.idle i g hg hne) l hl
  refine ⟨?_, ?_, ?_⟩
  · intro hi
    have hlt : i < s.pool.ws.length := by rw [H.len]; exact H.lockB i hi
    have hw := List.getElem?_eq_getElem hlt
    have hh := (H.lockW i _ hw).2 hi
    have hnt : s.pool.ws[i]? ≠ some .trial := by
      rw [hw]; intro hx; rw [Option.some.inj hx] at hh; simp [Pool.WPc.holds] at hh
    have hst : ∀ g, s.stages[i]? = some g → g = .done := by
      intro g hg
      by_contra hgd
      exact hnt (I.trial i g hg hgd)
    have hsl : i < s.stages.length := by rw [I.slen, ← H.len]; exact hlt
    have hsg := List.getElem?_eq_getElem hsl
    refine ⟨?_, hnode _ hsg (by rw [hst _ hsg]; simp)⟩
    intro hl
    obtain ⟨b, hb⟩ := (I.held i).1 hl
    simpa using hst _ hb
  · intro hl
    obtain ⟨b, hb⟩ := (I.held i).1 hl
    exact hnode _ hb (by simp)
  · intro j b b' h1 h2
    have e1 := (I.held i).2 ⟨b, h1⟩
    have e2 := (I.held j).2 ⟨b', h2⟩
    rw [e1] at e2; simpa using e2

/-- **C81.**  No race on the size of the run if `run_trials` is called only when `join` has returned since the last one. -/
theorem c81_no_race_partial (hr : Reachable env m hash alg code n s0 dp tm tb lg s h) (hs : Pool.settled (poolPart h) = true)
    (i : Nat) : ¬ (s.writesRunSize ∧ s.readsRunSize i) := by
  rintro ⟨-, h2⟩
  simpa using done_of_settled hr hs i _ h2

/-- **C81.**  Whatever the search can do at the level of locks (C78 – C80), including a crash, it can do inside a blocking `run_trials`. -/
theorem c81_every_run_possible {f : LockLevel.FSt S A R X Y} {hf : List (Search.Event S A R)}
    (hr : LockLevel.FReachable env m hash alg code n s0 dp tm tb f hf) :
    ∃ s h, Reachable env m hash alg code n s0 dp tm tb none s h ∧ s.search = f ∧ searchPart h = hf ∧ s.pool.cl = .joinWait :=
  lift_any hr

/-- **C81.**  If all workers can get stuck then `run_trials` can hang. -/
theorem c81_hangs {f : LockLevel.FSt S A R X Y} {hf : List (Search.Event S A R)} (hn : 0 < n)
    (hr : LockLevel.FReachable env m hash alg code n s0 dp tm tb f hf) (hd : LockLevel.AllStuck env m hash alg code f) :
    Hangs env m hash alg code n s0 dp tm tb := by
  obtain ⟨s, h, hrs, L⟩ := lift_reach true hr hd.1.1 0 (by omega)
  have H := lifted_hung hrs L hd.2
  have hno : ∀ (w : Nat), w < n → ∀ ch, LockLevel.fstep env m hash alg code f w ch = none := by
    intro w hw ch
    have hlt : w < s.search.ws.length := by rw [(sinv_reach hrs).wlen]; exact hw
    rw [L.search] at hlt
    have hg := List.getElem?_eq_getElem hlt
    exact hd.1.2.2 w _ hg (hd.2 w _ hg) ch
  refine ⟨s, h, hrs, .inr (.inl (hung_busy H)), ?_, ?_⟩
  · simp [St.limit, L.entry, L.limit]
  · intro ls s' h' hx
    obtain ⟨H', e1, e2⟩ := hung_exec hn hno ls s h hrs H s' h' hx
    refine ⟨.inr (.inl (hung_busy H')), by rw [H'.search, L.search], e1, ?_⟩
    rintro h0 ⟨l, ⟨s2, es⟩, g1, g2⟩
    have hx2 : execFrom env m hash alg code s h (ls ++ [l]) = some (s2, es ++ h') := by
      rw [execFrom_append, hx]; simp [execFrom, g2]
    have hsp : l.isSpurious = false := by
      cases l with
      | pool l => cases l <;> simp_all [Label.isProgress, Label.isSpurious, Pool.Label.isProgress, Pool.Label.isSpurious]
      | _ => rfl
    have := ((hung_exec hn hno (ls ++ [l]) s h hrs H _ _ hx2).2.2 L.cl (by simp [h0, hsp])).2
    simp [g1] at this

/-- **C81.**  With a logger: the size of the run that the logger is told is that of the last `run_trials`; the logger has counted every completed
trial that is not on its way to the logger; its entries are the old ones, perhaps the entry (0, 0), and those logged. -/
theorem c81_logger {L0 : Log.Logger} (hr : Reachable env m hash alg code n s0 dp tm tb (some L0) s h) :
    s.numTrials = Pool.budget (poolPart h) ∧ s.completed + (s.stages.count .logWant : Nat) = (numCompleted h : Nat) ∧
    ∃ L, s.lg = some L ∧ L.trials = L0.trials + s.completed ∧
      ∃ o, (o = [] ∨ o = [⟨0, 0⟩]) ∧ L.entries = L0.entries ++ o ++ (loggedPart h).reverse := by
  obtain ⟨L, G⟩ := ginv_reach hr
  refine ⟨G.num, ?_, L, G.lg, G.trials, G.entries⟩
  have : s.stages.count .logWant = s.stages.countP Stage.isWant := Search.countP_congr' _ (fun g => by cases g <;> rfl)
  rw [this]; exact G.cnt

/-- **C81.**  When `join` has returned, the logger has counted every trial that was started. -/
theorem c81_logger_when_joined {L0 : Log.Logger} (hr : Reachable env m hash alg code n s0 dp tm tb (some L0) s h)
    (hs : Pool.settled (poolPart h) = true) :
    s.completed = (Pool.numStarted (poolPart h) : Nat) ∧ ∃ L, s.lg = some L ∧ L.trials = L0.trials + (Pool.numStarted (poolPart h) : Nat) := by
  obtain ⟨-, h2, L, h3, h4, -⟩ := c81_logger hr
  have h0 : s.stages.count .logWant = 0 := by
    rw [List.count_eq_zero]
    intro hx
    obtain ⟨i, hi⟩ := List.mem_iff_getElem?.1 hx
    simpa using done_of_settled hr hs i _ hi
  have := (c81_when_joined hr hs).2.2.2.2
  refine ⟨by omega, L, h3, by omega⟩

end General

section Values
variable {S A R X Y : Type} [DecidableEq S] [DecidableEq A] [AddMonoid R]
variable {env : Search.Env S A R} {m : Search.Manager S R} {hash : Int × S → Nat} {alg : Search.Alg S A R X Y} {code : LockLevel.Code S A R X Y}
variable {n : Nat} {s0 : S} {dp tm : Int} {tb : List ((Int × S) × Option Nat)} {lg : Option Log.Logger} {s : St S A R X Y}
  {h : List (Event S A R)}

/-- **C81** (partial: one round of reading in backups, at most one mutex of the table).  When `join` has returned, the tree with its
values is one that whole visits, selections and backups, one after the other, lead to: everything proved about those holds of it. -/
theorem c81_tree_partial (hS : LockLevel.Simulates alg code alg id id 0 0) (hD : code.nD ≤ 1) (hC : code.nC ≤ 1)
    (hm : m.useTable = true → m.numMutexes ≤ 1) (hv : alg.Valid) (htb : Search.Leftover tb)
    (hr : Reachable env m hash alg code n s0 dp tm tb lg s h) (hs : Pool.settled (poolPart h) = true) (hc : s.search.crashed = none) :
    Search.Reachable env m alg n s0 dp tm tb (LockLevel.quietState id id s.search) (searchPart h) :=
  LockLevel.c79_atomic_partial hS hD hC hm hv htb (reach_project hr).2 hc (fun w pc hw => ⟨_, (c81_when_joined hr hs).2.1 w pc hw⟩)

/-- **C81** (partial: at most one mutex of the table).  When `join` has returned, the root has been visited once per trial started. -/
theorem c81_visits_partial (hv : alg.Valid) (hb : ∀ v as ctx a, code.selBlind v as ctx a = true → a ∈ v.actions)
    (hctx : ∀ v ctx a, alg.selCtx v ctx a = ctx) (hm : m.useTable = true → m.numMutexes ≤ 1) (htb : Search.Leftover tb)
    (hr : Reachable env m hash alg code n s0 dp tm tb lg s h) (hs : Pool.settled (poolPart h) = true) (hc : s.search.crashed = none)
    {nd : Search.DNode S A R X} (hd : s.search.dn[s.search.root]? = some nd) :
    nd.visits = alg.initVisits + Pool.numStarted (poolPart h) := by
  obtain ⟨-, w1, -, -, w2⟩ := c81_when_joined hr hs
  rw [LockLevel.c79_root_visits_partial hv hb hctx hm htb (reach_project hr).2 hc w1 hd, ← w2]
  rfl

/-- **C81** (partial: at most one mutex of the table).  The number of visits in an entry of the log, though read while other workers are
inside the tree, is at least the number of trials completed at that time, and at most the number begun (plus the initial visits). -/
theorem c81_logged_visits_partial (hv : alg.Valid) (hb : ∀ v as ctx a, code.selBlind v as ctx a = true → a ∈ v.actions)
    (hctx : ∀ v ctx a, alg.selCtx v ctx a = ctx) (hm : m.useTable = true → m.numMutexes ≤ 1) (htb : Search.Leftover tb)
    {later before : List (Event S A R)} {e : Log.Entry}
    (hr : Reachable env m hash alg code n s0 dp tm tb lg s (later ++ .logged e :: before)) :
    (alg.initVisits + numCompleted before : Nat) ≤ e.visits ∧ e.visits ≤ (alg.initVisits + numBegun before : Nat) ∧ 0 < numCompleted before := by
  obtain ⟨h1, h2, h3, h4⟩ := logged hv hb hctx hm htb hr rfl
  omega

/-- **C81** (partial: at most one mutex of the table).  Later entries have no fewer visits. -/
theorem c81_logged_monotone_partial (hv : alg.Valid) (hb : ∀ v as ctx a, code.selBlind v as ctx a = true → a ∈ v.actions)
    (hctx : ∀ v ctx a, alg.selCtx v ctx a = ctx) (hm : m.useTable = true → m.numMutexes ≤ 1) (htb : Search.Leftover tb)
    {later between before : List (Event S A R)} {e1 e2 : Log.Entry}
    (hr : Reachable env m hash alg code n s0 dp tm tb lg s (later ++ .logged e2 :: between ++ .logged e1 :: before)) :
    e1.visits ≤ e2.visits := by
  obtain ⟨h1, -⟩ := logged hv hb hctx hm htb hr (a := later ++ .logged e2 :: between) rfl
  obtain ⟨h2, -⟩ := logged hv hb hctx hm htb hr (a := later) (b := between ++ .logged e1 :: before) (e := e2) (by simp)
  have : (searchPart (between ++ .logged e1 :: before)).countP (passes 0) =
      (searchPart between).countP (passes 0) + (searchPart before).countP (passes 0) := by
    rw [searchPart_append, List.countP_append]; rfl
  omega

end Values

/-! ## The algorithms -/

section Algorithms
open LockLevel Search Ments Tents Dents Backups
variable {S A : Type} [DecidableEq S] [DecidableEq A] {hash : Int × S → Nat} {n : Nat} {s0 : S} {dp tm : Int}
  {tb : List ((Int × S) × Option Nat)} {lg : Option Log.Logger}

/-- UCT and PUCT, with at most one mutex of the table. -/
theorem c81_uct_partial {𝕜 : Type} [Field 𝕜] [LinearOrder 𝕜] [IsStrictOrderedRing 𝕜] {env : Env S A 𝕜} {m : Manager S 𝕜} {cfg : Uct.Cfg S A 𝕜}
    {lo hi : 𝕜} (U : UctOk cfg env m dp lo hi) (hl : env.Live) (hm : m.useTable = true → m.numMutexes ≤ 1) (htb : Leftover tb)
    (ht : TableOk m tb) (hdp : dp ≤ m.maxDepth) (hn : 0 < n) : Ends env m hash (Uct.uct cfg m) (uctCode cfg) n s0 dp tm tb lg :=
  c81_ends_partial (c80_uct_partial U hl hm htb ht hdp) hn

variable {env : Env S A ℝ} {m : Manager S ℝ} {eps : ℝ} {lr : S → A → ℝ}

/-- MENTS without the table. -/
theorem c81_ments_partial {cfg : Ments.Cfg S A} (G : GoodCfg cfg env) (hl : env.Live) (hlen : ∀ s, (env.actions s).length < 10 ^ 16)
    (heps : 0 ≤ eps) (hu : m.useTable = false) (htb : Leftover tb) (hdp : dp ≤ m.maxDepth) (hn : 0 < n) :
    Ends env m hash (ments eps cfg lr) (mentsCode cfg lr) n s0 dp tm tb lg :=
  c81_ends_partial (c80_ments_partial G hl hlen heps hu htb hdp) hn

/-- RENTS without the table, with a root of depth zero. -/
theorem c81_rents_partial {cfg : Ments.Cfg S A} (G : GoodCfg cfg env) (hnd : ∀ s, (env.actions s).Nodup) (hl : env.Live)
    (hlen : ∀ s, (env.actions s).length < 10 ^ 16) (heps : 0 ≤ eps) (hu : m.useTable = false) (htb : Leftover tb) (hdp : 0 ≤ m.maxDepth)
    (hn : 0 < n) : Ends env m hash (rents eps cfg lr) (rentsCode cfg lr) n s0 0 tm tb lg :=
  c81_ends_partial (c80_rents_partial G hnd hl hlen heps hu htb hdp) hn

/-- TENTS without the table. -/
theorem c81_tents_partial {cfg : Ments.Cfg S A} (G : GoodCfg cfg env) (hnd : ∀ s, (env.actions s).Nodup) (hl : env.Live)
    (hlen : ∀ s, (env.actions s).length < 10 ^ 16) (heps : 0 ≤ eps) (hu : m.useTable = false) (htb : Leftover tb) (hdp : dp ≤ m.maxDepth)
    (hn : 0 < n) : Ends env m hash (tents eps cfg env m lr) (tentsCode cfg lr) n s0 dp tm tb lg :=
  c81_ends_partial (c80_tents_partial G hnd hl hlen heps hu htb hdp) hn

/-- EST without the table. -/
theorem c81_est_partial {cfg : DCfg S A} (G : GoodCfg cfg.toCfg env) (hl : env.Live) (hlen : ∀ s, (env.actions s).length < 10 ^ 16)
    (heps : 0 ≤ eps) (hu : m.useTable = false) (htb : Leftover tb) (hdp : dp ≤ m.maxDepth) (hn : 0 < n) :
    Ends env m hash (est eps cfg env m lr) (estCode cfg lr) n s0 dp tm tb lg :=
  c81_ends_partial (c80_est_partial G hl hlen heps hu htb hdp) hn

/-- DB-MENTS without the table. -/
theorem c81_dbments_partial {cfg : Ments.Cfg S A} (G : GoodCfg cfg env) (hl : env.Live) (hlen : ∀ s, (env.actions s).length < 10 ^ 16)
    (heps : 0 ≤ eps) (hu : m.useTable = false) (htb : Leftover tb) (hdp : dp ≤ m.maxDepth) (hn : 0 < n) :
    Ends env m hash (dbments eps cfg lr) (dbmentsCode cfg lr) n s0 dp tm tb lg :=
  c81_ends_partial (c80_dbments_partial G hl hlen heps hu htb hdp) hn

/-- DENTS without the table, with a positive epsilon. -/
theorem c81_dents_partial {cfg : DCfg S A} (G : GoodCfg cfg.toCfg env) (he : 0 < cfg.epsilon) (hl : env.Live)
    (hlen : ∀ s, (env.actions s).length < 10 ^ 16) (heps : 0 ≤ eps) (hu : m.useTable = false) (htb : Leftover tb) (hdp : dp ≤ m.maxDepth)
    (hn : 0 < n) : Ends env m hash (dents eps cfg env m lr) (dentsCode cfg lr) n s0 dp tm tb lg :=
  c81_ends_partial (c80_dents_partial G he hl hlen heps hu htb hdp) hn

end Algorithms

/-! ## With the table -/

section Table
open LockLevel Search Ments Tents Dents Backups
variable {r eps : ℝ} {lr : Nat → Nat → ℝ} {hash : Int × Nat → Nat}

/-- **C81 is false** of MENTS, RENTS, TENTS and DB-MENTS with the table and two threads, of DENTS, and of EST with DP values. -/
theorem c81_ments_hangs {cfg : Ments.Cfg Nat Nat} (G : GoodCfg cfg (Diamond.env r)) (heps : 0 ≤ eps) :
    Hangs (Diamond.env r) Diamond.mgr hash (ments eps cfg lr) (mentsCode cfg lr) 2 0 0 0 [] := by
  obtain ⟨f, h, h1, h2⟩ := c80_ments_deadlock (hash := hash) (lr := lr) G heps
  exact c81_hangs (by omega) h1 h2

theorem c81_rents_hangs {cfg : Ments.Cfg Nat Nat} (G : GoodCfg cfg (Diamond.env r)) (heps : 0 ≤ eps) :
    Hangs (Diamond.env r) Diamond.mgr hash (rents eps cfg lr) (rentsCode cfg lr) 2 0 0 0 [] := by
  obtain ⟨f, h, h1, h2⟩ := c80_rents_deadlock (hash := hash) (lr := lr) G heps
  exact c81_hangs (by omega) h1 h2

theorem c81_tents_hangs {cfg : Ments.Cfg Nat Nat} (G : GoodCfg cfg (Diamond.env r)) (heps : 0 ≤ eps) :
    Hangs (Diamond.env r) Diamond.mgr hash (tents eps cfg (Diamond.env r) Diamond.mgr lr) (tentsCode cfg lr) 2 0 0 0 [] := by
  obtain ⟨f, h, h1, h2⟩ := c80_tents_deadlock (hash := hash) (lr := lr) G heps
  exact c81_hangs (by omega) h1 h2

theorem c81_dbments_hangs {cfg : Ments.Cfg Nat Nat} (G : GoodCfg cfg (Diamond.env r)) (heps : 0 ≤ eps) :
    Hangs (Diamond.env r) Diamond.mgr hash (dbments eps cfg lr) (dbmentsCode cfg lr) 2 0 0 0 [] := by
  obtain ⟨f, h, h1, h2⟩ := c80_dbments_deadlock (hash := hash) (lr := lr) G heps
  exact c81_hangs (by omega) h1 h2

theorem c81_dents_hangs {cfg : DCfg Nat Nat} (G : GoodCfg cfg.toCfg (Diamond.env r)) (he : 0 < cfg.epsilon) (heps : 0 ≤ eps) :
    Hangs (Diamond.env r) Diamond.mgr hash (dents eps cfg (Diamond.env r) Diamond.mgr lr) (dentsCode cfg lr) 2 0 0 0 [] := by
  obtain ⟨f, h, h1, h2⟩ := c80_dents_deadlock (hash := hash) (lr := lr) G he heps
  exact c81_hangs (by omega) h1 h2

theorem c81_est_hangs {cfg : DCfg Nat Nat} (G : GoodCfg cfg.toCfg (Diamond.env r)) (hd : cfg.useDp = true) (heps : 0 ≤ eps) :
    Hangs (Diamond.env r) Diamond.mgr hash (est eps cfg (Diamond.env r) Diamond.mgr lr) (estCode cfg lr) 2 0 0 0 [] := by
  obtain ⟨f, h, h1, h2⟩ := c80_est_deadlock (hash := hash) (lr := lr) G hd heps
  exact c81_hangs (by omega) h1 h2

end Table

/-! ## The size of the run, and examples -/

namespace Toy
open LockLevel

/-- Trials that stop at the root. -/
def mgr : Search.Manager Nat Int := { Search.Toy.mgr false false 0 with maxDepth := 0 }

/-- A logger that logs every trial if `d = 1`. -/
def lgr (d : Int) : Log.Logger := (Log.newLogger 0 0 0 none).setTrialsDelta d

/-- Reachable with one worker. -/
def R (d : Int) (s : St Nat Nat Int Unit Unit) (h : List (Event Nat Nat Int)) : Prop :=
  Reachable Search.Toy.env mgr Toy.hash Search.Toy.alg Toy.code 1 0 0 0 [] (some (lgr d)) s h

/-- Evaluate a schedule and check a decidable property of the outcome. -/
theorem run (d : Int) (ls : List (Label Nat Nat)) (P : St Nat Nat Int Unit Unit → List (Event Nat Nat Int) → Bool)
    (h : ((execFrom Search.Toy.env mgr Toy.hash Search.Toy.alg Toy.code
      (init Search.Toy.env mgr Search.Toy.alg 1 0 0 0 [] (some (lgr d))) [] ls).any fun p => P p.1 p.2) = true) :
    ∃ s h, R d s h ∧ P s h = true := by
  cases hf : execFrom Search.Toy.env mgr Toy.hash Search.Toy.alg Toy.code
      (init Search.Toy.env mgr Search.Toy.alg 1 0 0 0 [] (some (lgr d))) [] ls with
  | none => rw [hf] at h; simp at h
  | some p => rw [hf] at h; exact ⟨p.1, p.2, ⟨ls, hf⟩, by simpa using h⟩

/-- `run_trials(1)`; the worker wakes up and runs the trial up to `try_log`. -/
def trial (blocking : Bool) : List (Label Nat Nat) :=
  [.enter 1 none blocking, .run, .run, .pool .client] ++ List.replicate 4 (.pool (.worker 0)) ++ List.replicate 6 (.search 0 .go)

end Toy

/-- **C81: a race.**  The client calls `run_trials` again while a trial of the first run is on its way to the logger: the client may
write the size of the run while the worker reads it. -/
theorem c81_run_size_race : ∃ s h, Toy.R 2 s h ∧ s.writesRunSize ∧ s.readsRunSize 0 := by
  obtain ⟨s, h, hr, hp⟩ := Toy.run 2 (Toy.trial false ++ [.enter 5 none false, .run, .log 0])
    (fun s _ => decide (s.entry = some (.wantLock 5 none false)) && decide (s.pool.lock = none) && decide (s.stages = [.logHeld false]))
    (by decide +kernel)
  simp only [Bool.and_eq_true, decide_eq_true_eq] at hp
  exact ⟨s, h, hr, ⟨5, none, false, hp.1.1, hp.1.2⟩, by simp [St.readsRunSize, hp.2]⟩

/-- A worker that holds the logger's mutex and is about to read the root. -/
example : ∃ s h, Toy.R 1 s h ∧ s.hasLog 0 ∧ s.stages[0]? = some (.logHeld true) := by
  obtain ⟨s, h, hr, hp⟩ := Toy.run 1 (Toy.trial true ++ [.log 0])
    (fun s _ => decide (s.logLock = some 0) && decide (s.stages = [.logHeld true])) (by decide +kernel)
  simp only [Bool.and_eq_true, decide_eq_true_eq] at hp
  exact ⟨s, h, hr, hp.1, by simp [hp.2]⟩

/-- A run of one trial with a logger, from the call to the return of `join`. -/
example : ∃ s h, Toy.R 1 s (.pool .joined :: h ++ .pool (.called 1 none) :: []) ∧ (∀ N lim, .pool (.called N lim) ∉ h) ∧
    s.pool.expired = false ∧ numCompleted h = 1 ∧ s.rootVisits = 1 ∧ .logged ⟨0, 1⟩ ∈ h := by
  obtain ⟨s, h, hr, hp⟩ := Toy.run 1
    (Toy.trial true ++ [.log 0, .log 0, .log 0] ++ List.replicate 5 (.pool (.worker 0)) ++ List.replicate 2 (.pool .client))
    (fun s h => decide (h = [.pool .joined, .pool (.finished 0), .logged ⟨0, 1⟩, .search (.completed 0), .search (.ended 0 0 100),
      .search (.began 0), .pool (.started 0), .pool (.called 1 none)]) && decide (s.pool.expired = false) && decide (s.rootVisits = 1))
    (by decide +kernel)
  simp only [Bool.and_eq_true, decide_eq_true_eq] at hp
  obtain ⟨⟨rfl, h1⟩, h2⟩ := hp
  exact ⟨s, [.pool (.finished 0), .logged ⟨0, 1⟩, .search (.completed 0), .search (.ended 0 0 100), .search (.began 0), .pool (.started 0)],
    hr, by simp, h1, by decide, h2, by simp⟩

/-- The logger with two entries after two trials; the assumptions of `c81_logged_monotone_partial` are met. -/
example : Search.Toy.alg.Valid ∧ (∀ v as ctx a, LockLevel.Toy.code.selBlind v as ctx a = true → a ∈ v.actions) ∧
    ∃ s a b c e1 e2, Toy.R 1 s (a ++ .logged e2 :: b ++ .logged e1 :: c) ∧ e1.visits = 1 ∧ e2.visits = 2 := by
  refine ⟨Search.Toy.alg_valid, ?_, ?_⟩
  · simp [LockLevel.Toy.code]
  · obtain ⟨s, h, hr, hp⟩ := Toy.run 1
      ([.enter 2 none true, .run, .run, .pool .client] ++ List.replicate 4 (.pool (.worker 0)) ++ List.replicate 6 (.search 0 .go) ++
        List.replicate 3 (.log 0) ++ List.replicate 5 (.pool (.worker 0)) ++ List.replicate 6 (.search 0 .go) ++ List.replicate 3 (.log 0))
      (fun _ h => decide (h = [.logged ⟨0, 2⟩, .search (.completed 0), .search (.ended 0 0 100), .search (.began 0), .pool (.started 0),
        .pool (.finished 0), .logged ⟨0, 1⟩, .search (.completed 0), .search (.ended 0 0 100), .search (.began 0), .pool (.started 0),
        .pool (.called 2 none)]))
      (by decide +kernel)
    simp only [decide_eq_true_eq] at hp
    subst hp
    exact ⟨s, [], [.search (.completed 0), .search (.ended 0 0 100), .search (.began 0), .pool (.started 0),
      .pool (.finished 0)], _, _, _, hr, rfl, rfl⟩

section
open LockLevel Search Ments

/-- On the same environment `run_trials` with MENTS can hang with the table, and always returns without. -/
example : Hangs (Diamond.env (1 : ℝ)) Diamond.mgr (fun _ => 0) (ments 0 plainCfg fun _ _ => 1) (mentsCode plainCfg fun _ _ => 1) 2 0 0 0 [] ∧
    Ends (Diamond.env (1 : ℝ)) { Diamond.mgr with useTable := false } (fun _ => 0) (ments 0 plainCfg fun _ _ => 1)
      (mentsCode plainCfg fun _ _ => 1) 2 0 0 0 [] (some (Toy.lgr 1)) :=
  ⟨c81_ments_hangs plainGood le_rfl,
   c81_ments_partial plainGood Diamond.live diamond_len le_rfl rfl (by simp [Leftover]) (by simp [Diamond.mgr]) (by omega)⟩

end

end Verif.Prog
