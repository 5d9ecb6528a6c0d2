import Verif.Proofs.LockTorn
import Verif.Proofs.LockMain
import Verif.Spec.LockToy
import Verif.Props.Search

/-! # C79: node locks make visits, selections and backups atomic -/

namespace Verif.LockLevel

open Verif.Search Verif.Ments Verif.Tents Verif.Dents Verif.Backups

set_option linter.unusedSectionVars false

section General
variable {S A R X Y X' Y' : Type} [DecidableEq S] [DecidableEq A] [AddMonoid R]
  {env : Env S A R} {m : Manager S R} {hash : Int × S → Nat} {code : Code S A R X Y} {alg : Alg S A R X Y} {alg' : Alg S A R X' Y'}
  {π : X → X'} {ρ : Y → Y'} {jD jC : Nat} {f : FSt S A R X Y} {k : Nat} {s0 : S} {dp tm : Int} {tb : List ((Int × S) × Option Nat)}
  {h : List (Event S A R)}

/-- **C79** (partial: at most one table mutex).  Workers interleave at single lock operations and single memory accesses.  If the
backups of an algorithm lock and read the children at most once, then whenever no worker is inside a block the search is in a state,
with a history, that it also gets to by executing whole blocks one after the other. -/
theorem c79_atomic_partial (hS : Simulates alg code alg id id 0 0) (hD : code.nD ≤ 1) (hC : code.nC ≤ 1)
    (hm : m.useTable = true → m.numMutexes ≤ 1) (hv : alg.Valid) (htb : Leftover tb)
    (hr : FReachable env m hash alg code k s0 dp tm tb f h) (hcr : f.crashed = none) (hq : Quiet f) :
    Reachable env m alg k s0 dp tm tb (quietState id id f) h := by
  obtain ⟨I, s, h', hr', H, -, hh⟩ := (main_reach hS hm hv htb hr).alive hcr
  rw [← quiet_eq I H hcr hq, ← hh (by omega) (by omega)]
  exact hr'

/-- With several rounds of reading in a backup, this holds of the parts of the nodes' data that depend on one of the rounds only; the
blocks of one worker come in the same order. -/
theorem c79_parts_atomic_partial (hS : Simulates alg code alg' π ρ jD jC) (hm : m.useTable = true → m.numMutexes ≤ 1) (hv : alg'.Valid)
    (htb : Leftover tb) (hr : FReachable env m hash alg code k s0 dp tm tb f h) (hcr : f.crashed = none) (hq : Quiet f) :
    ∃ h', Reachable env m alg' k s0 dp tm tb (quietState π ρ f) h' ∧ ∀ w, eventsOf w h' = eventsOf w h := by
  obtain ⟨I, s, h', hr', H, hev, -⟩ := (main_reach hS hm hv htb hr).alive hcr
  refine ⟨h', quiet_eq I H hcr hq ▸ hr', fun w => ?_⟩
  rw [hev w]
  have : pendOf jD jC f w = [] := by
    cases hw : f.ws[w]? with
    | none => simp [pendOf, hw]
    | some pc => obtain ⟨q, rfl⟩ := hq w pc hw; rw [pendOf_at hw]; rfl
  rw [this]; rfl

/-- Histories with the same events per worker are rearrangements of each other. -/
theorem c79_rearranged {h h' : List (Event S A R)} (he : ∀ w, eventsOf w h' = eventsOf w h) : h'.Perm h := by
  classical
  rw [List.perm_iff_count]
  intro e
  have key : ∀ l : List (Event S A R), l.count e = (eventsOf e.worker l).count e := by
    intro l
    unfold eventsOf
    rw [List.count_filter (by simp)]
  rw [key h', key h, he]

/-- At any moment, also with other workers inside blocks: there is a state of the coarse search that has the same nodes, and the same
contents in all nodes that nobody has locked. -/
theorem c79_unlocked_nodes_partial (hS : Simulates alg code alg' π ρ jD jC) (hm : m.useTable = true → m.numMutexes ≤ 1) (hv : alg'.Valid)
    (htb : Leftover tb) (hr : FReachable env m hash alg code k s0 dp tm tb f h) (hcr : f.crashed = none) :
    ∃ s h', Reachable env m alg' k s0 dp tm tb s h' ∧ s.dn.length = f.dn.length ∧ s.cn.length = f.cn.length ∧
      (∀ (i : Nat) nd, f.dn[i]? = some nd → f.lock (.d i) = none → s.dn[i]? = some (mapD π nd)) ∧
      (∀ (i : Nat) nc, f.cn[i]? = some nc → f.lock (.c i) = none → s.cn[i]? = some (mapC ρ nc)) := by
  obtain ⟨I, s, h', hr', H, -, -⟩ := (main_reach hS hm hv htb hr).alive hcr
  refine ⟨s, h', hr', H.dlen, H.clen, ?_, ?_⟩
  · intro i nd hd hl
    obtain ⟨nd', hd'⟩ := dn_get H hd
    rw [hd', H.dfree i nd nd' hd hd' hl]
  · intro i nc hd hl
    obtain ⟨nc', hd'⟩ := cn_get H hd
    rw [hd', H.cfree i nc nc' hd hd' hl]

/-- A crash at the level of locks is a crash of the coarse search, of the same kind. -/
theorem c79_crashes_partial (hS : Simulates alg code alg' π ρ jD jC) (hm : m.useTable = true → m.numMutexes ≤ 1) (hv : alg'.Valid)
    (htb : Leftover tb) (hr : FReachable env m hash alg code k s0 dp tm tb f h) {x : Err} (hx : f.crashed = some x) :
    ∃ s h', Reachable env m alg' k s0 dp tm tb s h' ∧ s.crashed = some x := by
  obtain ⟨s, h', h1, h2, -⟩ := (main_reach hS hm hv htb hr).dead x hx
  exact ⟨s, h', h1, h2⟩

/-- The algorithm that may select any valid action and has no data. -/
def anyAlg (n : Nat) : Alg S A R Unit Unit where
  initVisits := n
  initD _ _ _ _ := ()
  initC _ _ _ _ := ()
  visitD _ _ := ()
  visitC _ := ()
  canSelect v _ a := decide (a ∈ v.actions)
  backupD _ _ _ := ()
  backupC _ _ _ _ _ := ()

theorem anyAlg_valid (n : Nat) : (anyAlg n : Alg S A R Unit Unit).Valid := by intro v ctx a h; simpa [anyAlg] using h

/-- Whatever the algorithm computes, and however often its backups read the children: nodes, children, visit counts and the table are those of a run of whole
blocks. -/
theorem c79_tree_atomic_partial (hv : alg.Valid) (hb : ∀ v as ctx a, code.selBlind v as ctx a = true → a ∈ v.actions)
    (hctx : ∀ v ctx a, alg.selCtx v ctx a = ctx) (hm : m.useTable = true → m.numMutexes ≤ 1) (htb : Leftover tb)
    (hr : FReachable env m hash alg code k s0 dp tm tb f h) (hcr : f.crashed = none) (hq : Quiet f) :
    ∃ h', Reachable env m (anyAlg alg.initVisits) k s0 dp tm tb (quietState (fun _ => ()) (fun _ => ()) f) h' ∧
      ∀ w, eventsOf w h' = eventsOf w h := by
  refine c79_parts_atomic_partial (alg := alg) (code := code) (jD := 0) (jC := 0) ?_ hm (anyAlg_valid _) htb hr hcr hq
  exact
    { initVisits := rfl
      initD := fun _ _ _ _ => rfl
      initC := fun _ _ _ _ => rfl
      visitD := fun _ _ => rfl
      visitC := fun _ => rfl
      select := fun v ctx a h => ⟨by simpa [anyAlg, mapV] using hv v ctx a h, by rw [hctx]; rfl⟩
      blind := fun v kids ctx a _ h => ⟨by simpa [anyAlg, mapV] using hb _ _ _ _ h, by rw [hctx]; rfl⟩
      roundD := by omega
      resD := fun _ _ _ _ _ _ _ _ => rfl
      roundC := by omega
      resC := fun _ _ _ _ _ _ _ _ => rfl }

/-- For example (see C13): when all trials are over, the root has been visited once per trial. -/
theorem c79_root_visits_partial (hv : alg.Valid) (hb : ∀ v as ctx a, code.selBlind v as ctx a = true → a ∈ v.actions)
    (hctx : ∀ v ctx a, alg.selCtx v ctx a = ctx) (hm : m.useTable = true → m.numMutexes ≤ 1) (htb : Leftover tb)
    (hr : FReachable env m hash alg code k s0 dp tm tb f h) (hcr : f.crashed = none)
    (hq : ∀ (w : Nat) p, f.ws[w]? = some p → p = .out .idle) {nd : DNode S A R X} (hd : f.dn[f.root]? = some nd) :
    nd.visits = alg.initVisits + trialsCompleted h := by
  obtain ⟨h', hr', he⟩ := c79_tree_atomic_partial hv hb hctx hm htb hr hcr (fun w p hp => ⟨_, hq w p hp⟩)
  have := (c13_root_visits (anyAlg_valid _) htb hr' (by
    intro v p hp
    obtain ⟨pc, h1, h2⟩ := List.mem_filterMap.1 (List.mem_of_getElem? hp)
    obtain ⟨w, hw⟩ := List.mem_iff_getElem?.1 h1
    rw [hq w pc hw] at h2
    simpa [Pc.between] using h2.symm)).1
  have hvis : visitsD (quietState (fun _ => ()) (fun _ => ()) f : St S A R Unit Unit) f.root = nd.visits := by
    simp [visitsD, quietState, hd, mapD]
  have hc : trialsCompleted h' = trialsCompleted h := by
    unfold trialsCompleted
    exact (c79_rearranged he).countP_eq _
  rw [← hvis, ← hc]
  exact this

end General

/-! ## The algorithms -/

section Algorithms
variable {S A : Type} [DecidableEq S] [DecidableEq A] {hash : Int × S → Nat} {k : Nat} {s0 : S} {dp tm : Int}
  {tb : List ((Int × S) × Option Nat)}

/-- UCT and PUCT. -/
theorem c79_uct_partial {𝕜 : Type} [Field 𝕜] [LinearOrder 𝕜] [IsStrictOrderedRing 𝕜] {env : Env S A 𝕜} {m : Manager S 𝕜} {cfg : Uct.Cfg S A 𝕜}
    {f : FSt S A 𝕜 _ _} {h : List (Event S A 𝕜)} (hm : m.useTable = true → m.numMutexes ≤ 1) (htb : Leftover tb)
    (hr : FReachable env m hash (Uct.uct cfg m) (uctCode cfg) k s0 dp tm tb f h) (hcr : f.crashed = none) (hq : Quiet f) :
    Reachable env m (Uct.uct cfg m) k s0 dp tm tb (quietState id id f) h :=
  c79_atomic_partial (uct_simulates cfg m) (by simp [uctCode]) (by simp [uctCode]) hm (Uct.uct_valid cfg m) htb hr hcr hq

variable {env : Env S A ℝ} {m : Manager S ℝ} {eps : ℝ} {lr : S → A → ℝ} {h : List (Event S A ℝ)}

/-- MENTS. -/
theorem c79_ments_partial {cfg : Ments.Cfg S A} {f : FSt S A ℝ _ _} (hm : m.useTable = true → m.numMutexes ≤ 1) (htb : Leftover tb)
    (hr : FReachable env m hash (ments eps cfg lr) (mentsCode cfg lr) k s0 dp tm tb f h) (hcr : f.crashed = none) (hq : Quiet f) :
    Reachable env m (ments eps cfg lr) k s0 dp tm tb (quietState id id f) h :=
  c79_atomic_partial (ments_simulates eps cfg lr) (by simp [mentsCode]) (by simp [mentsCode]) hm (ments_valid eps cfg lr) htb hr hcr hq

/-- RENTS. -/
theorem c79_rents_partial {cfg : Ments.Cfg S A} {f : FSt S A ℝ _ _} (hm : m.useTable = true → m.numMutexes ≤ 1) (htb : Leftover tb)
    (hr : FReachable env m hash (rents eps cfg lr) (rentsCode cfg lr) k s0 dp tm tb f h) (hcr : f.crashed = none) (hq : Quiet f) :
    Reachable env m (rents eps cfg lr) k s0 dp tm tb (quietState id id f) h :=
  c79_atomic_partial (rents_simulates eps cfg lr) (by simp [rentsCode]) (by simp [rentsCode]) hm (rents_valid eps cfg lr) htb hr hcr hq

/-- TENTS. -/
theorem c79_tents_partial {cfg : Ments.Cfg S A} {f : FSt S A ℝ _ _} (hm : m.useTable = true → m.numMutexes ≤ 1) (htb : Leftover tb)
    (hr : FReachable env m hash (tents eps cfg env m lr) (tentsCode cfg lr) k s0 dp tm tb f h) (hcr : f.crashed = none) (hq : Quiet f) :
    Reachable env m (tents eps cfg env m lr) k s0 dp tm tb (quietState id id f) h :=
  c79_atomic_partial (tents_simulates eps cfg env m lr) (by simp [tentsCode]) (by simp [tentsCode]) hm (tents_valid eps cfg env m lr) htb
    hr hcr hq

/-- EST. -/
theorem c79_est_partial {cfg : DCfg S A} {f : FSt S A ℝ _ _} (hm : m.useTable = true → m.numMutexes ≤ 1) (htb : Leftover tb)
    (hr : FReachable env m hash (est eps cfg env m lr) (estCode cfg lr) k s0 dp tm tb f h) (hcr : f.crashed = none) (hq : Quiet f) :
    Reachable env m (est eps cfg env m lr) k s0 dp tm tb (quietState id id f) h :=
  c79_atomic_partial (est_simulates eps cfg env m lr) (by simp only [estCode]; split <;> omega)
    (by simp only [estCode]; split <;> omega) hm (est_valid eps cfg env m lr) htb
    hr hcr hq

/-- DB-MENTS: the soft values are those of a run of MENTS. -/
theorem c79_dbments_soft_partial {cfg : Ments.Cfg S A} {f : FSt S A ℝ _ _} (hm : m.useTable = true → m.numMutexes ≤ 1) (htb : Leftover tb)
    (hr : FReachable env m hash (dbments eps cfg lr) (dbmentsCode cfg lr) k s0 dp tm tb f h) (hcr : f.crashed = none) (hq : Quiet f) :
    ∃ h', Reachable env m (ments eps cfg lr) k s0 dp tm tb (quietState DB.soft DB.soft f) h' ∧ ∀ w, eventsOf w h' = eventsOf w h :=
  c79_parts_atomic_partial (dbments_soft eps cfg lr) hm (ments_valid eps cfg lr) htb hr hcr hq

/-- DB-MENTS: the DP values are those of a run with DP backups. -/
theorem c79_dbments_dp_partial {cfg : Ments.Cfg S A} {f : FSt S A ℝ _ _} (hm : m.useTable = true → m.numMutexes ≤ 1) (htb : Leftover tb)
    (hr : FReachable env m hash (dbments eps cfg lr) (dbmentsCode cfg lr) k s0 dp tm tb f h) (hcr : f.crashed = none) (hq : Quiet f) :
    ∃ h', Reachable env m (dpPart lr) k s0 dp tm tb (quietState DB.dp DB.dp f) h' ∧ ∀ w, eventsOf w h' = eventsOf w h :=
  c79_parts_atomic_partial (dbments_dp eps cfg lr) hm (dpPart_valid lr) htb hr hcr hq

/-- DENTS with DP values. -/
theorem c79_dents_dp_partial {cfg : DCfg S A} {f : FSt S A ℝ _ _} (hu : cfg.useDp = true) (hm : m.useTable = true → m.numMutexes ≤ 1)
    (htb : Leftover tb) (hr : FReachable env m hash (dents eps cfg env m lr) (dentsCode cfg lr) k s0 dp tm tb f h) (hcr : f.crashed = none)
    (hq : Quiet f) :
    ∃ h', Reachable env m (dpPart lr) k s0 dp tm tb (quietState DX.dp DY.dp f) h' ∧ ∀ w, eventsOf w h' = eventsOf w h :=
  c79_parts_atomic_partial (dents_dp eps cfg env m lr hu) hm (dpPart_valid lr) htb hr hcr hq

/-- DENTS with empirical averages. -/
theorem c79_dents_emp_partial {cfg : DCfg S A} {f : FSt S A ℝ _ _} (hu : cfg.useDp = false) (hm : m.useTable = true → m.numMutexes ≤ 1)
    (htb : Leftover tb) (hr : FReachable env m hash (dents eps cfg env m lr) (dentsCode cfg lr) k s0 dp tm tb f h) (hcr : f.crashed = none)
    (hq : Quiet f) :
    ∃ h', Reachable env m empPart k s0 dp tm tb (quietState DX.emp DY.emp f) h' ∧ ∀ w, eventsOf w h' = eventsOf w h :=
  c79_parts_atomic_partial (dents_emp eps cfg env m lr hu) hm empPart_valid htb hr hcr hq

end Algorithms

/-- The restriction to one round of reading is needed: DB-MENTS locks and reads the children twice in a backup
(dbments_chance_node.cpp:39-40).  On a chain of three states with reward 1 there is a run of two workers, without any table, at whose end
nobody is inside a block and the backed up node of the first action has soft value 1 and DP value 2.  If blocks were atomic both values would always be the
same. -/
theorem c79_dbments_not_atomic {eps : ℝ} (he : 0 ≤ eps) : ∃ f h,
    FReachable (Chain.env 1) Chain.mgr Chain.hash (dbments eps Chain.cfg Chain.lr) (dbmentsCode Chain.cfg Chain.lr) 2 0 0 0 [] f h ∧
    Quiet f ∧ f.crashed = none ∧ ((f.cn[0]?).map fun nc => (nc.y.soft.val, nc.y.dp.val)) = some (some 1, some 2) ∧
    ¬ ∃ h', Reachable (Chain.env 1) Chain.mgr (dbments eps Chain.cfg Chain.lr) 2 0 0 0 [] (quietState id id f) h' := by
  obtain ⟨f, h, nc, h1, h2, h3, h4, h5, h6, h7⟩ := Chain.torn he
  exact ⟨f, h, h1, h2, h3, by simp [h4, h5, h6], Chain.torn_new (by simp [Leftover]) h4 h5 h6 h7⟩

/-- On the chain, executing whole blocks, the soft value and the DP value of a backed up node are the same. -/
theorem c79_chain_values_agree {eps : ℝ} {k : Nat} {st : St Nat Nat ℝ DB DB} {h : List (Event Nat Nat ℝ)}
    (hr : Reachable (Chain.env 1) Chain.mgr (dbments eps Chain.cfg Chain.lr) k 0 0 0 [] st h) {c : Nat} {nc : CNode Nat Nat ℝ DB}
    (hc : st.cn[c]? = some nc) (hn : nc.y.dp.n ≠ 0) : nc.y.soft.val = nc.y.dp.val := by
  obtain ⟨v, h1, h2⟩ := ((Chain.agree_reach (by simp [Leftover]) hr).c c nc hc).1 hn
  rw [h1, h2]

/-! ## Examples -/

/-- The toy algorithm's code, with one round of reading per backup. -/
theorem toy_simulates : Simulates Search.Toy.alg Toy.codeR Search.Toy.alg id id 0 0 where
  initVisits := rfl
  initD _ _ _ _ := rfl
  initC _ _ _ _ := rfl
  visitD _ _ := rfl
  visitC _ := rfl
  select v _ _ h := ⟨h, rfl⟩
  blind _ _ _ _ _ h := by simp [Toy.codeR] at h
  roundD := .inl (by simp [Toy.codeR])
  resD _ _ _ _ _ _ _ _ := rfl
  roundC := .inl (by simp [Toy.codeR])
  resC _ _ _ _ _ _ _ _ := rfl

/-- One worker goes through a chance node's block while the other one is inside the root's block; a table with one mutex, at the end nobody is inside a block. -/
example : ∃ f h, FReachable Search.Toy.env (Search.Toy.mgr false true 1) Toy.hash Search.Toy.alg Toy.codeR 2 0 0 0 [] f h ∧
    f.ws.filterMap Pc.between = [.sel 1 [(0, 0)] [1] true, .samp 0 1 1 [] [] false] ∧
    Reachable Search.Toy.env (Search.Toy.mgr false true 1) Search.Toy.alg 2 0 0 0 [] (quietState id id f) h := by
  obtain ⟨f, h, hr, hp⟩ := Toy.run (cd := Toy.codeR) (table := true) (mutexes := 1)
    ([(0, .go), (1, .go), (0, .go), (0, .go), (0, .order []), (0, .go), (0, .act 0), (0, .go), (0, .go), (0, .go), (1, .go), (1, .go),
      (1, .order [0]), (0, .go), (0, .go), (0, .obs 1)] ++ List.replicate 6 (0, .go) ++
     [(1, .go), (1, .go), (1, .go), (1, .act 1), (1, .go), (1, .go), (1, .go), (1, .go)])
    (fun f _ => decide (f.crashed = none) &&
      decide (f.ws = [.out (.sel 1 [(0, 0)] [1] true), .out (.samp 0 1 1 [] [] false)])) (by decide +kernel)
  simp only [Bool.and_eq_true, decide_eq_true_eq] at hp
  refine ⟨f, h, hr, by rw [hp.2]; rfl, ?_⟩
  refine c79_atomic_partial toy_simulates (by simp [Toy.codeR]) (by simp [Toy.codeR]) (by simp [Search.Toy.mgr]) Search.Toy.alg_valid
    (by simp [Leftover]) hr hp.1 ?_
  intro w p hw
  rw [hp.2] at hw
  rcases w with _ | _ | w <;> simp at hw
  · exact ⟨_, hw.symm⟩
  · exact ⟨_, hw.symm⟩

end Verif.LockLevel
