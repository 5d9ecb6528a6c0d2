import Verif.Proofs.LockSelect
import Verif.Proofs.LockFaithful
import Verif.Proofs.LockDents
import Verif.Proofs.LockDeadlock
import Verif.Spec.LockToy
import Verif.Props.Live

/-! # C80: at the level of locks a search never gets stuck (without the transposition table), and loses no run -/

namespace Verif.LockLevel

open Verif.Search Verif.Ments Verif.Tents Verif.Dents Verif.Backups

set_option linter.unusedSectionVars false

section General
variable {S A R X Y X' Y' : Type} [DecidableEq S] [DecidableEq A] [AddMonoid R]
  {env : Env S A R} {m : Manager S R} {hash : Int × S → Nat} {code : Code S A R X Y} {alg : Alg S A R X Y} {alg' : Alg S A R X' Y'}
  {π : X → X'} {ρ : Y → Y'} {jD jC : Nat} {f : FSt S A R X Y} {k : Nat} {s0 : S} {dp tm : Int} {tb : List ((Int × S) × Option Nat)}
  {h : List (Event S A R)}

/-- **C80**.  Every run of whole blocks can be executed with the locks, with the same history and the same final state. -/
theorem c80_every_run_possible (hF : Faithful alg code) (hv : alg.Valid) (htb : Leftover tb) {s : St S A R X Y}
    (hr : Reachable env m alg k s0 dp tm tb s h) (hc : s.crashed = none) : FReachable env m hash alg code k s0 dp tm tb (ofSt s) h := by
  obtain ⟨ls, hx⟩ := hr
  exact complete hF hv htb ls hx hc

/-- ... and every crash. -/
theorem c80_every_crash_possible (hF : Faithful alg code) (hv : alg.Valid) (htb : Leftover tb) {s : St S A R X Y}
    (hr : Reachable env m alg k s0 dp tm tb s h) {x : Err} (hx : s.crashed = some x) :
    ∃ f, FReachable env m hash alg code k s0 dp tm tb f h ∧ f.crashed = some x := complete_crash hF hv htb hr hx

/-- With at most one round of reading the children, the states between the blocks are the same, with and without the locks (at most
one mutex of the table). -/
theorem c80_same_states_partial (hS : Simulates alg code alg id id 0 0) (hD : code.nD ≤ 1) (hC : code.nC ≤ 1)
    (hm : m.useTable = true → m.numMutexes ≤ 1) (hv : alg.Valid) (htb : Leftover tb) {s : St S A R X Y} (hc : s.crashed = none) :
    FReachable env m hash alg code k s0 dp tm tb (ofSt s) h ↔ Reachable env m alg k s0 dp tm tb s h := by
  constructor
  · intro hr
    obtain ⟨I, s', h', hr', H, -, hh⟩ := (main_reach hS hm hv htb hr).alive hc
    have hq : Quiet (ofSt s) := by
      intro w p hp
      simp only [ofSt, List.getElem?_map, Option.map_eq_some_iff] at hp
      obtain ⟨q, -, rfl⟩ := hp
      exact ⟨q, rfl⟩
    have e := quiet_eq I H hc hq
    rw [hh (by omega) (by omega)] at hr'
    have : quietState id id (ofSt s) = s := by
      obtain ⟨root, dn, cn, table, ws, ctxs, crashed⟩ := s
      have e1 : (mapD id : DNode S A R X → _) = id := by funext x; rfl
      have e2 : (mapC id : CNode S A R Y → _) = id := by funext x; rfl
      simp only at hc; subst hc
      simp [quietState, ofSt, e1, e2, List.filterMap_map]
      exact List.filterMap_some
    rw [e, this] at hr'
    exact hr'
  · exact fun hr => c80_every_run_possible (faithful_of hS) hv htb hr hc

/-- No worker crashes if the table, if any, is fresh and has one mutex. -/
theorem c80_no_crash_partial (hS : Simulates alg code alg' π ρ jD jC) (hm : m.useTable = true → m.numMutexes ≤ 1) (hv : alg'.Valid)
    (htb : Leftover tb) (ht : TableOk m tb) (hr : FReachable env m hash alg code k s0 dp tm tb f h) : f.crashed = none :=
  fsafe hS hm hv htb ht hr

/-- **C80** (partial: no table, or one mutex for it and backups of chance nodes that lock no child).  Mutexes alone never block the
search: if some worker is inside a block then some worker inside a block does not wait for a mutex. -/
theorem c80_somebody_runs_partial (hS : Simulates alg code alg' π ρ jD jC) (hm : m.useTable = true → m.numMutexes ≤ 1)
    (hT : m.useTable = true → code.nC = 0) (hv : alg'.Valid) (htb : Leftover tb) (hr : FReachable env m hash alg code k s0 dp tm tb f h)
    (hc : f.crashed = none) {w : Nat} {pc : Pc S A R X Y} (hw : f.ws[w]? = some pc) (hin : ∀ p, pc ≠ .out p) :
    ∃ (v : Nat) (pv : Pc S A R X Y), f.ws[v]? = some pv ∧ (∀ p, pv ≠ .out p) ∧ ¬ Waiting f pv := by
  obtain ⟨I, s, h', hr', H, -⟩ := (main_reach hS hm hv htb hr).alive hc
  exact some_not_waiting I (heldOk_reach hr) H (reach_both hv htb hr').1 hT hw hin

/-- **C80** (partial, as above).  The search never deadlocks: as long as a trial is running, some worker can take a step that does
not begin a trial. -/
theorem c80_never_stuck_partial (hS : Simulates alg code alg' π ρ jD jC) (hm : m.useTable = true → m.numMutexes ≤ 1)
    (hT : m.useTable = true → code.nC = 0) (hv : alg'.Valid) (htb : Leftover tb) (ht : TableOk m tb) (hl : env.Live)
    (hsel : FSelects env m hash alg code k s0 dp tm tb) (hdp : dp ≤ m.maxDepth) (hr : FReachable env m hash alg code k s0 dp tm tb f h)
    {w : Nat} {pc : Pc S A R X Y} (hw : f.ws[w]? = some pc) (hpc : pc ≠ .out .idle) :
    ∃ v ch f' e, fstep env m hash alg code f v ch = some (f', e) ∧ ∀ u, e ≠ some (.began u) := by
  obtain ⟨v, ch, f', e, h1, h2, -⟩ := progress hS hm hT hv htb ht hl hsel hdp hr hw hpc
  exact ⟨v, ch, f', e, h1, h2⟩

theorem c80_no_deadlock_partial (hS : Simulates alg code alg' π ρ jD jC) (hm : m.useTable = true → m.numMutexes ≤ 1)
    (hT : m.useTable = true → code.nC = 0) (hv : alg'.Valid) (htb : Leftover tb) (ht : TableOk m tb) (hl : env.Live)
    (hsel : FSelects env m hash alg code k s0 dp tm tb) (hdp : dp ≤ m.maxDepth) (hr : FReachable env m hash alg code k s0 dp tm tb f h) :
    ¬ Deadlocked env m hash alg code f := by
  rintro ⟨hcr, ⟨w, pc, hw, hpc⟩, hall⟩
  obtain ⟨v, ch, f', e, h1, h2⟩ := c80_never_stuck_partial hS hm hT hv htb ht hl hsel hdp hr hw hpc
  obtain ⟨pv, hpv⟩ : ∃ pv, f.ws[v]? = some pv := by
    cases hx : f.ws[v]? with
    | some pv => exact ⟨pv, rfl⟩
    | none => simp [fstep, hcr, hx] at h1
  by_cases hi : pv = .out .idle
  · subst hi
    unfold fstep at h1
    simp only [hcr, hpv, Option.isSome_none, Bool.false_eq_true, if_false] at h1
    cases ch with
    | go => simp at h1; exact h2 v h1.2.symm
    | _ => simp at h1
  · rw [hall v pv hpv hi ch] at h1; cases h1

/-- **C80** (partial, as above).  From every reachable state the workers can finish their trials. -/
theorem c80_can_finish_partial (hS : Simulates alg code alg' π ρ jD jC) (hm : m.useTable = true → m.numMutexes ≤ 1)
    (hT : m.useTable = true → code.nC = 0) (hv : alg'.Valid) (htb : Leftover tb) (ht : TableOk m tb) (hl : env.Live)
    (hsel : FSelects env m hash alg code k s0 dp tm tb) (hdp : dp ≤ m.maxDepth) (hr : FReachable env m hash alg code k s0 dp tm tb f h) :
    ∃ f' ext, FinishesTo env m hash alg code f h f' ext ∧ ∀ (w : Nat) pc, f'.ws[w]? = some pc → pc = .out .idle :=
  can_finish hS hm hT hv htb ht hl hsel hdp hr

/-- **C80** (partial: at most one mutex of the table).  Whatever the schedule: a search that begins no new trial comes to an end.
With `c80_never_stuck_partial`: it ends when all trials are over. -/
theorem c80_every_schedule_ends_partial (hS : Simulates alg code alg' π ρ jD jC) (hm : m.useTable = true → m.numMutexes ≤ 1)
    (hv : alg'.Valid) (htb : Leftover tb) (hdp : dp ≤ m.maxDepth) (hr : FReachable env m hash alg code k s0 dp tm tb f h) :
    ¬ ∃ g : ℕ → FSt S A R X Y, g 0 = f ∧
      ∀ n, ∃ v ch e, fstep env m hash alg code (g n) v ch = some (g (n + 1), e) ∧ ∀ u, e ≠ some (.began u) := by
  rintro ⟨g, rfl, hg⟩
  exact no_infinite hS hm hv htb hdp g hr hg

end General

/-! ## The algorithms -/

theorem progresses_of {S A R X Y X' Y' : Type} [DecidableEq S] [DecidableEq A] [AddMonoid R] {env : Env S A R} {m : Manager S R} {hash : Int × S → Nat}
    {code : Code S A R X Y} {alg : Alg S A R X Y} {alg' : Alg S A R X' Y'} {π : X → X'} {ρ : Y → Y'} {jD jC k : Nat} {s0 : S} {dp tm : Int}
    {tb : List ((Int × S) × Option Nat)} (hS : Simulates alg code alg' π ρ jD jC) (hm : m.useTable = true → m.numMutexes ≤ 1)
    (hT : m.useTable = true → code.nC = 0) (hv : alg'.Valid) (htb : Leftover tb) (ht : TableOk m tb) (hl : env.Live)
    (hsel : FSelects env m hash alg code k s0 dp tm tb) (hdp : dp ≤ m.maxDepth) : Progresses env m hash alg code k s0 dp tm tb :=
  fun hr => ⟨fsafe hS hm hv htb ht hr, c80_no_deadlock_partial hS hm hT hv htb ht hl hsel hdp hr,
    c80_can_finish_partial hS hm hT hv htb ht hl hsel hdp hr, c80_every_schedule_ends_partial hS hm hv htb hdp hr⟩

section Algorithms
variable {S A : Type} [DecidableEq S] [DecidableEq A] {hash : Int × S → Nat} {k : Nat} {s0 : S} {dp tm : Int}
  {tb : List ((Int × S) × Option Nat)}

/-- UCT and PUCT, also with a table that has one mutex. -/
theorem c80_uct_partial {𝕜 : Type} [Field 𝕜] [LinearOrder 𝕜] [IsStrictOrderedRing 𝕜] {env : Env S A 𝕜} {m : Manager S 𝕜} {cfg : Uct.Cfg S A 𝕜}
    {lo hi : 𝕜} (U : UctOk cfg env m dp lo hi) (hl : env.Live) (hm : m.useTable = true → m.numMutexes ≤ 1) (htb : Leftover tb)
    (ht : TableOk m tb) (hdp : dp ≤ m.maxDepth) : Progresses env m hash (Uct.uct cfg m) (uctCode cfg) k s0 dp tm tb :=
  progresses_of (uct_simulates cfg m) hm (by simp [uctCode]) (Uct.uct_valid cfg m) htb ht hl
    (fselects_self (uct_simulates cfg m) hm (Uct.uct_valid cfg m) htb (c74_uct_selects U hl htb)) hdp

variable {env : Env S A ℝ} {m : Manager S ℝ} {eps : ℝ} {lr : S → A → ℝ}

/-- MENTS without the table. -/
theorem c80_ments_partial {cfg : Ments.Cfg S A} (G : GoodCfg cfg env) (hl : env.Live) (hlen : ∀ s, (env.actions s).length < 10 ^ 16)
    (heps : 0 ≤ eps) (hu : m.useTable = false) (htb : Leftover tb) (hdp : dp ≤ m.maxDepth) :
    Progresses env m hash (ments eps cfg lr) (mentsCode cfg lr) k s0 dp tm tb :=
  have hm : m.useTable = true → m.numMutexes ≤ 1 := by simp [hu]
  progresses_of (ments_simulates eps cfg lr) hm (by simp [hu]) (ments_valid eps cfg lr) htb (by simp [TableOk, hu]) hl
    (fselects_self (ments_simulates eps cfg lr) hm (ments_valid eps cfg lr) htb (c74_ments_selects G hl hlen htb heps)) hdp

/-- RENTS without the table, with a root of depth zero. -/
theorem c80_rents_partial {cfg : Ments.Cfg S A} (G : GoodCfg cfg env) (hnd : ∀ s, (env.actions s).Nodup) (hl : env.Live)
    (hlen : ∀ s, (env.actions s).length < 10 ^ 16) (heps : 0 ≤ eps) (hu : m.useTable = false) (htb : Leftover tb) (hdp : 0 ≤ m.maxDepth) :
    Progresses env m hash (rents eps cfg lr) (rentsCode cfg lr) k s0 0 tm tb :=
  have hm : m.useTable = true → m.numMutexes ≤ 1 := by simp [hu]
  progresses_of (rents_simulates eps cfg lr) hm (by simp [hu]) (rents_valid eps cfg lr) htb (by simp [TableOk, hu]) hl
    (fselects_self (rents_simulates eps cfg lr) hm (rents_valid eps cfg lr) htb (c74_rents_selects G hnd hl hlen htb heps)) hdp

/-- TENTS without the table. -/
theorem c80_tents_partial {cfg : Ments.Cfg S A} (G : GoodCfg cfg env) (hnd : ∀ s, (env.actions s).Nodup) (hl : env.Live)
    (hlen : ∀ s, (env.actions s).length < 10 ^ 16) (heps : 0 ≤ eps) (hu : m.useTable = false) (htb : Leftover tb) (hdp : dp ≤ m.maxDepth) :
    Progresses env m hash (tents eps cfg env m lr) (tentsCode cfg lr) k s0 dp tm tb :=
  have hm : m.useTable = true → m.numMutexes ≤ 1 := by simp [hu]
  progresses_of (tents_simulates eps cfg env m lr) hm (by simp [hu]) (tents_valid eps cfg env m lr) htb (by simp [TableOk, hu]) hl
    (fselects_self (tents_simulates eps cfg env m lr) hm (tents_valid eps cfg env m lr) htb (c74_tents_selects G hnd hl hlen htb heps)) hdp

/-- EST without the table. -/
theorem c80_est_partial {cfg : DCfg S A} (G : GoodCfg cfg.toCfg env) (hl : env.Live) (hlen : ∀ s, (env.actions s).length < 10 ^ 16)
    (heps : 0 ≤ eps) (hu : m.useTable = false) (htb : Leftover tb) (hdp : dp ≤ m.maxDepth) :
    Progresses env m hash (est eps cfg env m lr) (estCode cfg lr) k s0 dp tm tb :=
  have hm : m.useTable = true → m.numMutexes ≤ 1 := by simp [hu]
  progresses_of (est_simulates eps cfg env m lr) hm (by simp [hu]) (est_valid eps cfg env m lr) htb (by simp [TableOk, hu]) hl
    (fselects_self (est_simulates eps cfg env m lr) hm (est_valid eps cfg env m lr) htb (c74_est_selects G hl hlen htb heps)) hdp

/-- DB-MENTS without the table. -/
theorem c80_dbments_partial {cfg : Ments.Cfg S A} (G : GoodCfg cfg env) (hl : env.Live) (hlen : ∀ s, (env.actions s).length < 10 ^ 16)
    (heps : 0 ≤ eps) (hu : m.useTable = false) (htb : Leftover tb) (hdp : dp ≤ m.maxDepth) :
    Progresses env m hash (dbments eps cfg lr) (dbmentsCode cfg lr) k s0 dp tm tb :=
  have hm : m.useTable = true → m.numMutexes ≤ 1 := by simp [hu]
  progresses_of (dbments_soft eps cfg lr) hm (by simp [hu]) (ments_valid eps cfg lr) htb (by simp [TableOk, hu]) hl
    (fselects_of (dbments_soft eps cfg lr) hm (ments_valid eps cfg lr) htb
      (fun v ctx a h => ⟨a, by
        have h : selectable eps cfg (mentsQ cfg id (mapV DB.soft DB.soft v)) (mapV DB.soft DB.soft v) a = true := h
        rw [mentsQ_map cfg DB.soft DB.soft DB.soft id (fun _ => rfl), selectable_map] at h
        exact h⟩)
      (c74_ments_selects G hl hlen htb heps)) hdp

/-- DENTS without the table: as far as the mutexes go. -/
theorem c80_dents_somebody_runs_partial {cfg : DCfg S A} {f : FSt S A ℝ DX DY} {h : List (Event S A ℝ)} (hu : m.useTable = false)
    (htb : Leftover tb) (hr : FReachable env m hash (dents eps cfg env m lr) (dentsCode cfg lr) k s0 dp tm tb f h) {w : Nat}
    {pc : Pc S A ℝ DX DY} (hw : f.ws[w]? = some pc) (hin : ∀ p, pc ≠ .out p) :
    ∃ (v : Nat) (pv : Pc S A ℝ DX DY), f.ws[v]? = some pv ∧ (∀ p, pv ≠ .out p) ∧ ¬ Waiting f pv := by
  have hm : m.useTable = true → m.numMutexes ≤ 1 := by simp [hu]
  cases hd : cfg.useDp with
  | true =>
    exact c80_somebody_runs_partial (dents_dp eps cfg env m lr hd) hm (by simp [hu]) (dpPart_valid lr) htb hr
      (fsafe (dents_dp eps cfg env m lr hd) hm (dpPart_valid lr) htb (by simp [TableOk, hu]) hr) hw hin
  | false =>
    exact c80_somebody_runs_partial (dents_emp eps cfg env m lr hd) hm (by simp [hu]) empPart_valid htb hr
      (fsafe (dents_emp eps cfg env m lr hd) hm empPart_valid htb (by simp [TableOk, hu]) hr) hw hin

/-- DENTS without the table, with a positive epsilon. -/
theorem c80_dents_partial {cfg : DCfg S A} (G : GoodCfg cfg.toCfg env) (he : 0 < cfg.epsilon) (hl : env.Live)
    (hlen : ∀ s, (env.actions s).length < 10 ^ 16) (heps : 0 ≤ eps) (hu : m.useTable = false) (htb : Leftover tb) (hdp : dp ≤ m.maxDepth) :
    Progresses env m hash (dents eps cfg env m lr) (dentsCode cfg lr) k s0 dp tm tb := by
  have hm : m.useTable = true → m.numMutexes ≤ 1 := by simp [hu]
  intro f h hr
  cases hd : cfg.useDp with
  | true =>
    exact progresses_of (dents_dp eps cfg env m lr hd) hm (by simp [hu]) (dpPart_valid lr) htb (by simp [TableOk, hu]) hl
      (dents_fselects G he hl hlen heps hm htb) hdp hr
  | false =>
    exact progresses_of (dents_emp eps cfg env m lr hd) hm (by simp [hu]) empPart_valid htb (by simp [TableOk, hu]) hl
      (dents_fselects G he hl hlen heps hm htb) hdp hr

/-- DENTS with a positive epsilon: although its backups are not atomic, all values and entropies are numbers in every state that can be
reached at the level of locks (for whole blocks: `c57_finite_partial`). -/
theorem c80_dents_finite_partial {cfg : DCfg S A} (G : GoodCfg cfg.toCfg env) (he : 0 < cfg.epsilon)
    (hm : m.useTable = true → m.numMutexes ≤ 1) (htb : Leftover tb) {f : FSt S A ℝ DX DY} {h : List (Event S A ℝ)}
    (hr : FReachable env m hash (dents eps cfg env m lr) (dentsCode cfg lr) k s0 dp tm tb f h) (hcr : f.crashed = none) :
    (∀ (d : Nat) nd, f.dn[d]? = some nd →
      (∃ r, estimate cfg nd.x.dp nd.x.emp = some r) ∧ (∃ r, nd.x.ent.loc = some r) ∧ ∃ r, nd.x.ent.sub = some r) ∧
    (∀ (c : Nat) nc, f.cn[c]? = some nc → (∃ r, estimate cfg nc.y.dp nc.y.emp = some r) ∧ ∃ r, nc.y.ent.sub = some r) :=
  have L := dents_data_reach G he hm htb hr hcr
  ⟨fun d nd hd => L.d d nd hd, fun c nc hc => L.c c nc hc⟩

/-- Every run of DB-MENTS and of DENTS in whole blocks is possible with the locks (for the other algorithms: `faithful_of`). -/
theorem c80_dbments_runs {cfg : Ments.Cfg S A} (htb : Leftover tb) {s : St S A ℝ DB DB} {h : List (Event S A ℝ)}
    (hr : Reachable env m (dbments eps cfg lr) k s0 dp tm tb s h) (hc : s.crashed = none) :
    FReachable env m hash (dbments eps cfg lr) (dbmentsCode cfg lr) k s0 dp tm tb (ofSt s) h :=
  c80_every_run_possible (dbments_faithful eps cfg lr) (dbments_valid eps cfg lr) htb hr hc

theorem c80_dents_runs {cfg : DCfg S A} (htb : Leftover tb) {s : St S A ℝ DX DY} {h : List (Event S A ℝ)}
    (hr : Reachable env m (dents eps cfg env m lr) k s0 dp tm tb s h) (hc : s.crashed = none) :
    FReachable env m hash (dents eps cfg env m lr) (dentsCode cfg lr) k s0 dp tm tb (ofSt s) h :=
  c80_every_run_possible (dents_faithful eps cfg env m lr) (dents_valid eps cfg env m lr) htb hr hc

end Algorithms

/-! ## With the table -/

/-- The restriction is needed: with the table every algorithm whose backups of chance nodes lock the children can deadlock, in an
environment of five states with one action each and with two workers. -/
theorem c80_table_deadlock {R X Y : Type} [AddMonoid R] {alg : Alg Nat Nat R X Y} {code : Code Nat Nat R X Y} {r : R}
    (hF : Faithful alg code) (hv : alg.Valid) (hn : code.nC ≠ 0) (hs : Selects (Diamond.env r) Diamond.mgr alg 2 0 0 0 [])
    (hash : Int × Nat → Nat) :
    ∃ f h, FReachable (Diamond.env r) Diamond.mgr hash alg code 2 0 0 0 [] f h ∧ AllStuck (Diamond.env r) Diamond.mgr hash alg code f :=
  Diamond.deadlocks hF hv hn hs hash

section
variable {r eps : ℝ} {lr : Nat → Nat → ℝ} {hash : Int × Nat → Nat}

theorem diamond_len : ∀ s, ((Diamond.env r).actions s).length < 10 ^ 16 := fun s => lt_of_le_of_lt (Diamond.single s) (by norm_num)

theorem diamond_nodup : ∀ s, ((Diamond.env r).actions s).Nodup := by intro s; simp only [Diamond.env]; split <;> simp

/-- MENTS, RENTS, TENTS and DB-MENTS with the table can deadlock, whatever the configuration. -/
theorem c80_ments_deadlock {cfg : Ments.Cfg Nat Nat} (G : GoodCfg cfg (Diamond.env r)) (heps : 0 ≤ eps) : ∃ f h,
    FReachable (Diamond.env r) Diamond.mgr hash (ments eps cfg lr) (mentsCode cfg lr) 2 0 0 0 [] f h ∧
    AllStuck (Diamond.env r) Diamond.mgr hash (ments eps cfg lr) (mentsCode cfg lr) f :=
  c80_table_deadlock (faithful_of (ments_simulates eps cfg lr)) (ments_valid eps cfg lr) (by simp [mentsCode])
    (c74_ments_selects G Diamond.live diamond_len (by simp [Leftover]) heps) hash

theorem c80_rents_deadlock {cfg : Ments.Cfg Nat Nat} (G : GoodCfg cfg (Diamond.env r)) (heps : 0 ≤ eps) : ∃ f h,
    FReachable (Diamond.env r) Diamond.mgr hash (rents eps cfg lr) (rentsCode cfg lr) 2 0 0 0 [] f h ∧
    AllStuck (Diamond.env r) Diamond.mgr hash (rents eps cfg lr) (rentsCode cfg lr) f :=
  c80_table_deadlock (faithful_of (rents_simulates eps cfg lr)) (rents_valid eps cfg lr) (by simp [rentsCode])
    (c74_rents_selects G diamond_nodup Diamond.live diamond_len (by simp [Leftover]) heps) hash

theorem c80_tents_deadlock {cfg : Ments.Cfg Nat Nat} (G : GoodCfg cfg (Diamond.env r)) (heps : 0 ≤ eps) : ∃ f h,
    FReachable (Diamond.env r) Diamond.mgr hash (tents eps cfg (Diamond.env r) Diamond.mgr lr) (tentsCode cfg lr) 2 0 0 0 [] f h ∧
    AllStuck (Diamond.env r) Diamond.mgr hash (tents eps cfg (Diamond.env r) Diamond.mgr lr) (tentsCode cfg lr) f :=
  c80_table_deadlock (faithful_of (tents_simulates eps cfg _ _ lr)) (tents_valid eps cfg _ _ lr) (by simp [tentsCode])
    (c74_tents_selects G diamond_nodup Diamond.live diamond_len (by simp [Leftover]) heps) hash

theorem c80_dbments_deadlock {cfg : Ments.Cfg Nat Nat} (G : GoodCfg cfg (Diamond.env r)) (heps : 0 ≤ eps) : ∃ f h,
    FReachable (Diamond.env r) Diamond.mgr hash (dbments eps cfg lr) (dbmentsCode cfg lr) 2 0 0 0 [] f h ∧
    AllStuck (Diamond.env r) Diamond.mgr hash (dbments eps cfg lr) (dbmentsCode cfg lr) f :=
  c80_table_deadlock (dbments_faithful eps cfg lr) (dbments_valid eps cfg lr) (by simp [dbmentsCode])
    (c74_dbments_selects G Diamond.live diamond_len (by simp [Leftover]) heps) hash

/-- DENTS (with a positive epsilon) and EST with DP values too. -/
theorem c80_dents_deadlock {cfg : DCfg Nat Nat} (G : GoodCfg cfg.toCfg (Diamond.env r)) (he : 0 < cfg.epsilon) (heps : 0 ≤ eps) : ∃ f h,
    FReachable (Diamond.env r) Diamond.mgr hash (dents eps cfg (Diamond.env r) Diamond.mgr lr) (dentsCode cfg lr) 2 0 0 0 [] f h ∧
    AllStuck (Diamond.env r) Diamond.mgr hash (dents eps cfg (Diamond.env r) Diamond.mgr lr) (dentsCode cfg lr) f :=
  c80_table_deadlock (dents_faithful eps cfg _ _ lr) (dents_valid eps cfg _ _ lr) (by simp only [dentsCode]; split <;> omega)
    (c74_dents_selects_partial G he Diamond.live diamond_len (by simp [Leftover]) heps) hash

theorem c80_est_deadlock {cfg : DCfg Nat Nat} (G : GoodCfg cfg.toCfg (Diamond.env r)) (hd : cfg.useDp = true) (heps : 0 ≤ eps) : ∃ f h,
    FReachable (Diamond.env r) Diamond.mgr hash (est eps cfg (Diamond.env r) Diamond.mgr lr) (estCode cfg lr) 2 0 0 0 [] f h ∧
    AllStuck (Diamond.env r) Diamond.mgr hash (est eps cfg (Diamond.env r) Diamond.mgr lr) (estCode cfg lr) f :=
  c80_table_deadlock (faithful_of (est_simulates eps cfg _ _ lr)) (est_valid eps cfg _ _ lr) (by simp [estCode, hd])
    (c74_est_selects G Diamond.live diamond_len (by simp [Leftover]) heps) hash

end

/-! ## Examples -/

/-- A configuration without a prior. -/
noncomputable def plainCfg : Ments.Cfg Nat Nat :=
  { temp := 1, priorWeight := 0, epsilon := 1 / 2, rootEpsilon := -1, maxExplore := 1, decay := none, minTemp := 1 / 10 ^ 6,
    scale := 1, rootScale := -1, defaultQ := 0, shift := false, offset := 0, threshold := 0, mostVisited := false, prior := none,
    low := -10 ^ 308 }

theorem plainGood {env : Env Nat Nat ℝ} : GoodCfg plainCfg env where
  temp := by simp [plainCfg]
  eps := by simp [plainCfg]
  max0 := by simp [plainCfg]
  max1 := by simp [plainCfg]
  weight := by simp [plainCfg]; exact Real.log_nonneg (by norm_num)
  some h := by simp [plainCfg] at h
  total f hf := by simp [plainCfg] at hf
  prior0 f hf := by simp [plainCfg] at hf
  prior1 f hf := by simp [plainCfg] at hf

/-- On the same environment MENTS deadlocks with the table, and makes progress without it. -/
example : (∃ f h, FReachable (Diamond.env (1 : ℝ)) Diamond.mgr (fun _ => 0) (ments 0 plainCfg fun _ _ => 1) (mentsCode plainCfg fun _ _ => 1) 2 0 0 0 [] f h ∧
      AllStuck (Diamond.env (1 : ℝ)) Diamond.mgr (fun _ => 0) (ments 0 plainCfg fun _ _ => 1) (mentsCode plainCfg fun _ _ => 1) f) ∧
    Progresses (Diamond.env (1 : ℝ)) { Diamond.mgr with useTable := false } (fun _ => 0) (ments 0 plainCfg fun _ _ => 1)
      (mentsCode plainCfg fun _ _ => 1) 2 0 0 0 [] :=
  ⟨c80_ments_deadlock plainGood le_rfl,
   c80_ments_partial plainGood Diamond.live diamond_len le_rfl rfl (by simp [Leftover]) (by simp [Diamond.mgr])⟩

/-- The default configuration of DENTS with DP values and that epsilon. -/
noncomputable def plainDCfg : DCfg Nat Nat :=
  { plainCfg with valueDecay := none, valueInit := 1, valueMin := 1 / 10 ^ 6, valueScale := 1, valueRootScale := -1, useDp := true }

/-- DENTS likewise. -/
example : (∃ f h, FReachable (Diamond.env (1 : ℝ)) Diamond.mgr (fun _ => 0) (dents 0 plainDCfg (Diamond.env 1) Diamond.mgr fun _ _ => 1)
        (dentsCode plainDCfg fun _ _ => 1) 2 0 0 0 [] f h ∧
      AllStuck (Diamond.env (1 : ℝ)) Diamond.mgr (fun _ => 0) (dents 0 plainDCfg (Diamond.env 1) Diamond.mgr fun _ _ => 1)
        (dentsCode plainDCfg fun _ _ => 1) f) ∧
    Progresses (Diamond.env (1 : ℝ)) { Diamond.mgr with useTable := false } (fun _ => 0)
      (dents 0 plainDCfg (Diamond.env 1) { Diamond.mgr with useTable := false } fun _ _ => 1)
      (dentsCode plainDCfg fun _ _ => 1) 2 0 0 0 [] :=
  have he : 0 < plainDCfg.epsilon := by simp [plainDCfg, plainCfg]
  ⟨c80_dents_deadlock (cfg := plainDCfg) plainGood he le_rfl,
   c80_dents_partial (cfg := plainDCfg) plainGood he Diamond.live diamond_len le_rfl rfl (by simp [Leftover]) (by simp [Diamond.mgr])⟩

/-- A state in which worker 1 waits for a child that worker 0 is inside: worker 0 does not wait. -/
example : ∃ f h, FReachable Search.Toy.env (Search.Toy.mgr false false 0) Toy.hash Search.Toy.alg Toy.codeR 2 0 0 0 [] f h ∧
    f.ws = [.own (.samp 0 0 0 [] [] false), .lockD (.sel 0 [] [] false) [] [] [0]] ∧ f.crashed = none ∧
    f.lock (.c 0) = some 0 := by
  obtain ⟨f, h, hr, hp⟩ := Toy.run (cd := Toy.codeR) (table := false) (mutexes := 0)
    ([(0, .go), (1, .go), (0, .go), (0, .go), (0, .order []), (0, .go), (0, .act 0), (0, .go), (0, .go), (0, .go), (0, .go), (1, .go), (1, .go),
      (1, .order [0])])
    (fun f _ => decide (f.crashed = none) && decide (f.lock (.c 0) = some 0) &&
      decide (f.ws = [.own (.samp 0 0 0 [] [] false), .lockD (.sel 0 [] [] false) [] [] [0]])) (by decide +kernel)
  simp only [Bool.and_eq_true, decide_eq_true_eq] at hp
  exact ⟨f, h, hr, hp.2, hp.1.1, hp.1.2⟩

end Verif.LockLevel
