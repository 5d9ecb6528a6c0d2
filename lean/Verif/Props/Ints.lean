import Verif.Proofs.Ints
import Verif.Props.Pool
import Verif.Props.Live
import Verif.Spec.UctToy

/-!
# C92: counters do not overflow, up to 2^31 trials

`FitsInt`, `IsCounter`, `DNode.ints` and `CNode.ints` are defined in `Verif.Spec.Ints`.
-/

set_option linter.unusedSectionVars false
set_option linter.unusedSimpArgs false

namespace Verif.Search

section
variable {S A R X Y : Type} [DecidableEq S] [DecidableEq A] [AddMonoid R]
variable {env : Env S A R} {m : Manager S R} {alg : Alg S A R X Y} {k : Nat} {s0 : S} {dp tm : Int}
  {tb : List ((Int × S) × Option Nat)} {st : St S A R X Y} {h : List (Event S A R)}

theorem depth_bounds (hv : alg.Valid) (htb : Leftover tb) (hr : Reachable env m alg k s0 dp tm tb st h) (hdp : dp ≤ m.maxDepth) {d : Nat} {nd : DNode S A R X}
    (hd : st.dn[d]? = some nd) : dp ≤ nd.depth ∧ nd.depth ≤ m.maxDepth ∧ nd.time - nd.depth = tm - dp := by
  have h1 := (reach_inv hv htb hr).tree.heap.dTime d nd.skel (by simp [hd])
  exact ⟨h1.2, c09_depth_limit hv htb hr hdp hd, h1.1⟩

/-- C92.  As long as the trials begun on a tree (plus the pseudo trials) stay below 2^31 - 3, everything computed from the counters of a decision node fits an `int`;
depths and timesteps are limited by `max_depth`. -/
theorem c92_decision_ints (hv : alg.Valid) (htb : Leftover tb) (hr : Reachable env m alg k s0 dp tm tb st h) (hdp : dp ≤ m.maxDepth)
    (h0 : FitsInt dp) (h1 : FitsInt (m.maxDepth + 1)) (h2 : FitsInt tm) (h3 : FitsInt (tm + (m.maxDepth - dp) + 1))
    (hn : FitsInt (alg.initVisits + trialsBegun h + 3)) {d : Nat} {nd : DNode S A R X} (hd : st.dn[d]? = some nd) : ∀ z ∈ nd.ints, FitsInt z := by
  have g1 := c13_visits_at_most_trials hv htb hr hd
  obtain ⟨g2, g3, g4⟩ := depth_bounds hv htb hr hdp hd
  unfold FitsInt at *
  intro z hz
  simp only [DNode.ints, List.mem_cons, List.not_mem_nil, or_false] at hz
  rcases hz with rfl | rfl | rfl | rfl | rfl | rfl | rfl <;> omega

/-- C92 for chance nodes. -/
theorem c92_chance_ints (hv : alg.Valid) (htb : Leftover tb) (hr : Reachable env m alg k s0 dp tm tb st h) (hdp : dp ≤ m.maxDepth)
    (h0 : FitsInt dp) (h1 : FitsInt (m.maxDepth + 1)) (h2 : FitsInt tm) (h3 : FitsInt (tm + (m.maxDepth - dp) + 1))
    (hn : FitsInt (trialsBegun h + 1)) {c : Nat} {nc : CNode S A R Y} (hc : st.cn[c]? = some nc) : ∀ z ∈ nc.ints, FitsInt z := by
  have g1 := via_le hv htb hr hc
  rw [← (reach_both hv htb hr).2.v2 c nc hc] at g1
  obtain ⟨d, hcc⟩ := (c14_parents hv htb hr).2.1 c nc hc
  obtain ⟨nd, nc', e1, e2, _, _, e3, e4⟩ := c14_chance_child hv htb hr hcc
  rw [hc] at e2
  obtain rfl := Option.some.inj e2
  obtain ⟨g2, g3, g4⟩ := depth_bounds hv htb hr hdp e1
  unfold FitsInt at *
  intro z hz
  simp only [CNode.ints, List.mem_cons, List.not_mem_nil, or_false] at hz
  rcases hz with rfl | rfl | rfl | rfl | rfl | rfl <;> omega

/-- C92.  The counters of the algorithms (`num_backups`) are at most the trials begun, plus what they start with. -/
theorem c92_counters {cd : X → Nat} {cc : Y → Nat} {c0 : Nat} (H : IsCounter alg cd cc c0) (hv : alg.Valid) (htb : Leftover tb)
    (hr : Reachable env m alg k s0 dp tm tb st h) :
    (∀ (d : Nat) nd, st.dn[d]? = some nd → cd nd.x ≤ c0 + trialsBegun h) ∧ (∀ (c : Nat) nc, st.cn[c]? = some nc → cc nc.y ≤ c0 + trialsBegun h) := by
  have D := ct_reach H hr
  obtain ⟨B, _⟩ := reach_bk hr
  constructor
  · intro d nd hd
    have g1 := D.d d nd hd
    have g2 := B.d d
    have g3 := through_le hv htb hr hd
    omega
  · intro c nc hc
    have g1 := D.c c nc hc
    have g2 := B.c c
    have g3 := via_le hv htb hr hc
    omega

/-- C92.  So they fit an `int` together with the next increment. -/
theorem c92_counters_fit {cd : X → Nat} {cc : Y → Nat} {c0 : Nat} (H : IsCounter alg cd cc c0) (hv : alg.Valid) (htb : Leftover tb)
    (hr : Reachable env m alg k s0 dp tm tb st h) (hn : FitsInt (c0 + trialsBegun h + 1)) :
    (∀ (d : Nat) nd, st.dn[d]? = some nd → FitsInt (cd nd.x + 1)) ∧ (∀ (c : Nat) nc, st.cn[c]? = some nc → FitsInt (cc nc.y + 1)) := by
  obtain ⟨h1, h2⟩ := c92_counters H hv htb hr
  unfold FitsInt at *
  refine ⟨fun d nd hd => ?_, fun c nc hc => ?_⟩
  · have := h1 d nd hd; omega
  · have := h2 c nc hc; omega

/-- C92 is false without the limit: nothing bounds the number of trials on a tree, and every search that is continued gets to a state in which `num_visits` of the root does
not fit an `int`, whatever the algorithm. -/
theorem c92_unlimited_false (hl : env.Live) (hv : alg.Valid) (htb : Leftover tb) (ht : TableOk m tb) (hs : Selects env m alg k s0 dp tm tb)
    (hdp : dp ≤ m.maxDepth) (hr : Reachable env m alg k s0 dp tm tb st h) (hk : 0 < k) :
    ∃ st' ext nd, Reachable env m alg k s0 dp tm tb st' (ext ++ h) ∧ st'.dn[st'.root]? = some nd ∧ ¬ FitsInt nd.visits := by
  obtain ⟨st1, ext1, h1, h2⟩ := c74_any_number_of_trials hl hv htb ht hs hdp hr hk (2 ^ 31)
  obtain ⟨ls, st2, ext2, h3, h4, _⟩ := c74_can_finish hl hv htb ht hs hdp h1
  have h5 := reach_append h1 h3
  obtain ⟨h6, _⟩ := c13_root_visits hv htb h5 h4
  obtain ⟨nd, hnd, _⟩ := root_node (reach_inv hv htb h5).tree
  refine ⟨st2, ext2 ++ ext1, nd, by rw [List.append_assoc]; exact h5, hnd, ?_⟩
  have h7 : 2 ^ 31 ≤ nd.visits := by
    simp only [visitsD, hnd, Option.map_some, Option.getD_some] at h6
    rw [h6]
    simp only [trialsCompleted, List.countP_append] at h2 ⊢
    omega
  unfold FitsInt
  omega

end

open Verif.Ments in
/-- A MENTS search with three workers can be continued until the root's visits do not fit an `int`. -/
example : ∃ st h nd, Reachable exEnv exMgr (Ments.ments 0 exCfg fun _ _ => 1) 3 () 0 0 [] st h ∧ st.dn[st.root]? = some nd ∧ ¬ FitsInt nd.visits := by
  have hl : exEnv.Live := ⟨by simp [exEnv], by simp [exEnv]⟩
  have hr : Reachable exEnv exMgr (Ments.ments 0 exCfg fun _ _ => 1) 3 () 0 0 [] (init exEnv exMgr (Ments.ments 0 exCfg fun _ _ => 1) 3 () 0 0 []) [] :=
    ⟨[], rfl⟩
  have hs : Selects exEnv exMgr (Ments.ments 0 exCfg fun _ _ => 1) 3 () 0 0 [] := c74_ments_selects exGood hl (by simp [exEnv]) (by simp [Leftover]) le_rfl
  obtain ⟨st, ext, nd, h1, h2, h3⟩ := c92_unlimited_false hl (Ments.ments_valid _ _ _) (by simp [Leftover]) (by simp [TableOk, exMgr]) hs (by simp [exMgr]) hr
    (by omega)
  exact ⟨st, ext ++ [], nd, h1, h2, h3⟩

/-- A UCT search with pseudo trials that meets the hypotheses of the theorems above; counters count. -/
example : ∃ st h, Reachable Uct.Toy.env Uct.Toy.mgr (Uct.uct (Uct.Toy.cfg 1 2) Uct.Toy.mgr) 2 0 0 0 [] st h ∧
    (decide (FitsInt ((Uct.uct (Uct.Toy.cfg 1 2) Uct.Toy.mgr).initVisits + trialsBegun h + 3)) && trialsBegun h == 3 &&
     st.dn.map (fun nd => (nd.visits, nd.x.n)) == [(5, 4), (3, 2), (3, 2), (2, 2)] && decide (FitsInt (Uct.Toy.mgr.maxDepth + 1))) = true :=
  Uct.Toy.run 1 2 1 _ (by decide +kernel)

/-! ## The counters of the algorithms -/

section
variable {S A : Type} [DecidableEq S] [DecidableEq A]

open Verif.Uct in
theorem c92_uct {𝕜 : Type} [Field 𝕜] [LinearOrder 𝕜] (cfg : Cfg S A 𝕜) (m : Manager S 𝕜) :
    IsCounter (uct cfg m) Stats.n Stats.n cfg.pseudo := by
  constructor
  · intro s dep tim h; simp only [uct]; split <;> simp
  · intro s a dep tim; simp [uct]
  · intro leaf x; simp [uct]
  · intro y; simp [uct]
  · intro v ctx args; simp [uct, backupAvg]
  · intro s a y kids args; simp [uct, backupAvg]

open Verif.Ments Verif.Tents Verif.Backups Verif.Dents

theorem softVisit_n (leaf : Bool) (x : Soft) : (softVisit leaf x).n ≤ x.n + (if leaf then 1 else 0) := by
  unfold softVisit
  cases leaf <;> simp

theorem dpVisit_n (leaf : Bool) (x : Dp ℝ) : (dpVisit leaf x).n ≤ x.n + (if leaf then 1 else 0) := by
  unfold dpVisit
  cases leaf <;> simp

theorem c92_ments (eps : ℝ) (cfg : Cfg S A) (lr : S → A → ℝ) : IsCounter (ments eps cfg lr) Soft.n Soft.n 0 := by
  constructor
  · intro s dep tim h; simp [ments, softInitD]
  · intro s a dep tim; simp [ments, softInitC]
  · intro leaf x; exact softVisit_n leaf x
  · intro y; simp [ments]
  · intro v ctx args; simp [ments, softBackupD]
  · intro s a y kids args; simp [ments, softBackupC]

theorem c92_rents (eps : ℝ) (cfg : Cfg S A) (lr : S → A → ℝ) : IsCounter (rents eps cfg lr) Soft.n Soft.n 0 := by
  constructor
  · intro s dep tim h; simp [rents, softInitD]
  · intro s a dep tim; simp [rents, softInitC]
  · intro leaf x; exact softVisit_n leaf x
  · intro y; simp [rents]
  · intro v ctx args; simp [rents, rentsBackupD]
  · intro s a y kids args; simp [rents, softBackupC]

theorem c92_tents (eps : ℝ) (cfg : Cfg S A) (env : Env S A ℝ) (m : Manager S ℝ) (lr : S → A → ℝ) :
    IsCounter (tents eps cfg env m lr) (fun x => (softOfX x).n) Soft.n 0 := by
  constructor
  · intro s dep tim h
    simp only [tents, tentsInitD]
    split <;> simp [softOfX, softInitD]
  · intro s a dep tim; simp [tents, softInitC]
  · intro leaf x
    simp only [tents]
    cases x with
    | ok t => exact softVisit_n leaf t.soft
    | error e => simp [tentsVisit, softOfX]
  · intro y; simp [tents]
  · intro v ctx args
    simp only [tents]
    unfold tentsBackupD
    repeat' split
    all_goals simp_all [softOfX]
  · intro s a y kids args; simp [tents, softBackupC]

theorem c92_dbments (eps : ℝ) (cfg : Cfg S A) (lr : S → A → ℝ) :
    IsCounter (dbments eps cfg lr) (fun x => x.soft.n) (fun y => y.soft.n) 0 ∧ IsCounter (dbments eps cfg lr) (fun x => x.dp.n) (fun y => y.dp.n) 1 := by
  constructor <;> constructor
  · intro s dep tim h; simp [dbments, softInitD]
  · intro s a dep tim; simp [dbments, softInitC]
  · intro leaf x; exact softVisit_n leaf x.soft
  · intro y; simp [dbments]
  · intro v ctx args; simp [dbments, softBackupD]
  · intro s a y kids args; simp [dbments, softBackupC]
  · intro s dep tim h; simp [dbments, dpInitD]
  · intro s a dep tim; simp [dbments, dpInitC]
  · intro leaf x; exact dpVisit_n leaf x.dp
  · intro y; simp [dbments]
  · intro v ctx args; simp [dbments, dpBackupD]
  · intro s a y kids args; simp [dbments, dpBackupC]

theorem entD_n {opp : Bool} {policy : Except Bad (List (A × ℝ))} {kids : List (A × EntCO)} {x : EntDO} : (entD opp policy kids x).n = x.n + 1 := by
  unfold entD
  split <;> simp [entBackupD]

theorem entC_n {kids : List EntDO} {y : EntCO} : (entC kids y).n = y.n + 1 := by
  unfold entC
  split <;> simp [entBackupC]

theorem valueD_n (cfg : DCfg S A) (v : View S A DX DY) (ret : ℝ) :
    (valueBackupD cfg v ret).1.n ≤ v.x.dp.n + 1 ∧ (valueBackupD cfg v ret).2.n ≤ v.x.emp.n + 1 := by
  unfold valueBackupD
  split <;> simp [dpBackupD, empBackup]

theorem valueC_n (cfg : DCfg S A) (lr : ℝ) (kids : List (S × DX)) (y : DY) (ret : ℝ) :
    (valueBackupC cfg lr kids y ret).1.n ≤ y.dp.n + 1 ∧ (valueBackupC cfg lr kids y ret).2.n ≤ y.emp.n + 1 := by
  unfold valueBackupC
  split <;> simp [dpBackupC, empBackup]

/-- The four counters of DENTS. -/
theorem c92_dents (eps : ℝ) (cfg : DCfg S A) (env : Env S A ℝ) (m : Manager S ℝ) (lr : S → A → ℝ) :
    IsCounter (dents eps cfg env m lr) (fun x => x.soft.n) (fun y => y.soft.n) 0 ∧ IsCounter (dents eps cfg env m lr) (fun x => x.dp.n) (fun y => y.dp.n) 1 ∧
    IsCounter (dents eps cfg env m lr) (fun x => x.emp.n) (fun y => y.emp.n) 1 ∧ IsCounter (dents eps cfg env m lr) (fun x => x.ent.n) (fun y => y.ent.n) 1 := by
  refine ⟨?_, ?_, ?_, ?_⟩ <;> constructor
  · intro s dep tim h; simp [dents, dentsInitD, softInitD]
  · intro s a dep tim; simp [dents, dentsInitC, softInitC]
  · intro leaf x; exact softVisit_n leaf x.soft
  · intro y; simp [dents]
  · intro v ctx args; simp [dents, dentsBackupD]
  · intro s a y kids args; simp [dents, dentsBackupC]
  · intro s dep tim h; simp [dents, dentsInitD, dpInitD]
  · intro s a dep tim; simp [dents, dentsInitC, dpInitC]
  · intro leaf x; exact dpVisit_n leaf x.dp
  · intro y; simp [dents]
  · intro v ctx args; exact (valueD_n cfg v args.retAfter).1
  · intro s a y kids args; exact (valueC_n cfg (lr s a) kids y args.retAfter).1
  · intro s dep tim h; simp [dents, dentsInitD]
  · intro s a dep tim; simp [dents, dentsInitC]
  · intro leaf x; simp [dents, dentsVisitD]
  · intro y; simp [dents]
  · intro v ctx args; exact (valueD_n cfg v args.retAfter).2
  · intro s a y kids args; exact (valueC_n cfg (lr s a) kids y args.retAfter).2
  · intro s dep tim h; simp [dents, dentsInitD, entD_n]
  · intro s a dep tim; simp [dents, dentsInitC]
  · intro leaf x; simp [dents, dentsVisitD]
  · intro y; simp [dents]
  · intro v ctx args; simp [dents, dentsBackupD, entD_n]
  · intro s a y kids args; simp [dents, dentsBackupC, entC_n]

/-- The counters of EST. -/
theorem c92_est (eps : ℝ) (cfg : DCfg S A) (env : Env S A ℝ) (m : Manager S ℝ) (lr : S → A → ℝ) :
    IsCounter (est eps cfg env m lr) (fun x => x.soft.n) (fun y => y.soft.n) 0 ∧ IsCounter (est eps cfg env m lr) (fun x => x.dp.n) (fun y => y.dp.n) 1 ∧
    IsCounter (est eps cfg env m lr) (fun x => x.emp.n) (fun y => y.emp.n) 1 ∧ IsCounter (est eps cfg env m lr) (fun x => x.ent.n) (fun y => y.ent.n) 1 := by
  refine ⟨?_, ?_, ?_, ?_⟩ <;> constructor
  · intro s dep tim h; simp [est, dentsInitD, softInitD]
  · intro s a dep tim; simp [est, dentsInitC, softInitC]
  · intro leaf x; exact softVisit_n leaf x.soft
  · intro y; simp [est]
  · intro v ctx args; simp [est, estBackupD]
  · intro s a y kids args; simp [est, estBackupC]
  · intro s dep tim h; simp [est, dentsInitD, dpInitD]
  · intro s a dep tim; simp [est, dentsInitC, dpInitC]
  · intro leaf x; exact dpVisit_n leaf x.dp
  · intro y; simp [est]
  · intro v ctx args; exact (valueD_n cfg v args.retAfter).1
  · intro s a y kids args; exact (valueC_n cfg (lr s a) kids y args.retAfter).1
  · intro s dep tim h; simp [est, dentsInitD]
  · intro s a dep tim; simp [est, dentsInitC]
  · intro leaf x; simp [est, dentsVisitD]
  · intro y; simp [est]
  · intro v ctx args; exact (valueD_n cfg v args.retAfter).2
  · intro s a y kids args; exact (valueC_n cfg (lr s a) kids y args.retAfter).2
  · intro s dep tim h; simp [est, dentsInitD, entD_n]
  · intro s a dep tim; simp [est, dentsInitC]
  · intro leaf x; simp [est, dentsVisitD]
  · intro y; simp [est]
  · intro v ctx args; simp [est, estBackupD]
  · intro s a y kids args; simp [est, estBackupC]

end

end Verif.Search

namespace Verif.Pool

open Verif.Search (FitsInt)

/-- C92.  The counters of the pool: `trials_remaining` stays between zero and the argument of the last call of `run_trials` (or equal to it if that is negative), and
`num_threads_working` between zero and the number of threads. -/
theorem c92_pool (n : Nat) (ls : List Label) (s : St) (h : List Event) (hx : exec n ls = some (s, h)) :
    (s.remaining = budget h ∨ (0 ≤ s.remaining ∧ s.remaining ≤ budget h)) ∧ (s.alive = true → 0 ≤ s.working ∧ s.working ≤ n) := by
  have H := inv_exec hx
  have h1 := H.rem
  refine ⟨?_, fun ha => ?_⟩
  · rcases H.rem0 with h2 | h2
    · left; omega
    · right; omega
  · rw [H.work ha]
    have := List.countP_le_length (p := WPc.counted) (l := s.ws)
    rw [H.len] at this
    omega

/-- C92.  So they fit, if the arguments do. -/
theorem c92_pool_fits (n : Nat) (ls : List Label) (s : St) (h : List Event) (hx : exec n ls = some (s, h)) (hb : FitsInt (budget h)) (hn : FitsInt n) :
    FitsInt s.remaining ∧ (s.alive = true → FitsInt s.working) := by
  obtain ⟨h1, h2⟩ := c92_pool n ls s h hx
  unfold FitsInt at *
  refine ⟨?_, fun ha => ?_⟩
  · rcases h1 with h1 | h1 <;> omega
  · have := h2 ha
    omega

example : ∃ s h, exec 2 demo = some (s, h) ∧ FitsInt (budget h) ∧ s.alive = true := by
  refine ⟨_, _, rfl, ?_⟩; decide

end Verif.Pool
