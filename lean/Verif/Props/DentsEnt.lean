import Verif.Proofs.OneEnd
import Verif.Proofs.EraseAt
import Verif.Props.DentsSoft
import Verif.Props.RandomSearch

/-!
# The entropies of a DENTS search: C99

`EntDNode::visit_ent` (ent_decision_node.cpp:15-17), meant to count the trials that end in a leaf, is never called: `DBMentsDNode::visit`
(dbments_decision_node.cpp:25-28), which DENTS inherits, calls `visit_dp` only.  So `num_backups` of the entropy part, the weight of a
node in its parent's mean, counts the constructor and the backups.
-/

namespace Verif.Dents

open Verif.Search Verif.Backups Verif.Ments

set_option linter.unusedSimpArgs false
set_option linter.unusedSectionVars false

variable {S A : Type} [DecidableEq S] [DecidableEq A]
  {env : Env S A ℝ} {m : Manager S ℝ} {lr : S → A → ℝ} {cfg : DCfg S A} {eps : ℝ}
  {k : Nat} {s0 : S} {dp tm : Int} {tb : List ((Int × S) × Option Nat)} {h : List (Event S A ℝ)} {st : St S A ℝ DX DY}

theorem entD_n (opp : Bool) (policy : Except Bad (List (A × ℝ))) (kids : List (A × EntCO)) (x : EntDO) : (entD opp policy kids x).n = x.n + 1 := by
  unfold entD
  split <;> rfl

/-- C99.  In every state of a DENTS search, the weight of a decision node in the mean of its parent is one plus the number of its
backups. -/
theorem c99_weight (hr : Reachable env m (dents eps cfg env m lr) k s0 dp tm tb st h) {d : Nat} {nd : DNode S A ℝ DX}
    (hd : st.dn[d]? = some nd) : nd.x.ent.n = 1 + (returnsD d h).length := by
  obtain ⟨ls, hx⟩ := hr
  refine (exec_induct (fun st h => Touch st h ∧ ∀ (d : Nat) (nd : DNode S A ℝ DX), st.dn[d]? = some nd → nd.x.ent.n = 1 + (returnsD d h).length)
    ?_ ⟨⟨by simp, by simp⟩, ?_⟩ hx).2 d nd hd
  · intro st h w e st' ⟨T, ih⟩ _ E
    refine ⟨touch_eff T E, ?_⟩
    intro d nd' hd'
    rcases dn_chg E hd' with ⟨nd, hd, hchg⟩ | ⟨rfl, ht, s, dep, tim, rfl⟩
    · have := ih d nd hd
      cases hchg with
      | same he =>
        rw [returnsD_cons d e h he]
        exact this
      | selOld hl ha hf => simpa [returnsD, dents, dentsVisitD] using this
      | selNew hl ha hf => simpa [returnsD, dents, dentsVisitD] using this
      | ended => simpa [returnsD, dents, dentsVisitD] using this
      | @backed w args =>
        simp only [dents, dentsBackupD, entD_n]
        have h1 : (returnsD d (Event.backedD w d args :: h)).length = (returnsD d h).length + 1 := by simp [returnsD]
        rw [h1]
        have h2 : (viewOf env m st nd).x = nd.x := rfl
        rw [h2, this]
        omega
    · rw [returnsD_cons _ e h ht, returnsD_nil T.freshD]
      simp [newD, dents, dentsInitD, entD_n]
  · intro d nd hd
    rcases d with _ | d
    · simp [init] at hd
      subst hd
      simp [newD, dents, dentsInitD, entD_n, returnsD]
    · simp [init] at hd

/-- C99.  The weight of a leaf is one, however many trials have ended in it. -/
theorem c99_leaf (htb : Leftover tb) (hr : Reachable env m (dents eps cfg env m lr) k s0 dp tm tb st h) {d : Nat} {nd : DNode S A ℝ DX}
    (hd : st.dn[d]? = some nd) (hl : isLeaf env m nd = true) : nd.x.ent.n = 1 := by
  have I := reach_inv (dents_valid eps cfg env m lr) htb hr
  rw [isLeaf_skel] at hl
  have hk : nd.kids = [] := I.tree.heap.dLeaf d nd.skel (by simp [hd]) hl
  rw [c99_weight hr hd]
  have h0 : returnsD d h = [] := by
    by_contra hne
    have hpos : 0 < h.countP (Event.selAt d) := by
      have := (reach_bk hr).1.d d
      have := List.length_pos_iff.2 hne
      omega
    obtain ⟨e, he, hs⟩ := List.countP_pos_iff.1 hpos
    cases e with
    | selected w d1 a c =>
      have hdd : d1 = d := by simpa [Event.selAt] using hs
      subst hdd
      obtain ⟨nd', _, k1, _, k2, _⟩ := childC_facts I.tree ((reach_both (dents_valid eps cfg env m lr) htb hr).2.evSel w d1 a c he)
      rw [hd] at k1
      obtain rfl := Option.some.inj k1
      rw [hk] at k2
      simp at k2
    | _ => simp [Event.selAt] at hs
  simp [h0]

/-- C99.  The entropy of a node that has not been backed up is the one its constructor computed. -/
theorem c99_initial (hr : Reachable env m (dents eps cfg env m lr) k s0 dp tm tb st h) {d : Nat} {nd : DNode S A ℝ DX}
    (hd : st.dn[d]? = some nd) (h0 : returnsD d h = []) : nd.x.ent = (dentsInitD cfg env m nd.state nd.depth nd.time nd.heur).ent := by
  obtain ⟨ls, hx⟩ := hr
  refine (exec_induct (fun st h => Touch st h ∧ ∀ (d : Nat) (nd : DNode S A ℝ DX), st.dn[d]? = some nd → returnsD d h = [] →
    nd.x.ent = (dentsInitD cfg env m nd.state nd.depth nd.time nd.heur).ent) ?_ ⟨⟨by simp, by simp⟩, ?_⟩ hx).2 d nd hd h0
  · intro st h w e st' ⟨T, ih⟩ _ E
    refine ⟨touch_eff T E, ?_⟩
    intro d nd' hd' h0
    rcases dn_chg E hd' with ⟨nd, hd, hchg⟩ | ⟨rfl, ht, s, dep, tim, rfl⟩
    · have := ih d nd hd
      cases hchg with
      | same he =>
        rw [returnsD_cons d e h he] at h0
        exact this h0
      | selOld hl ha hf => simpa [returnsD, dents, dentsVisitD] using this h0
      | selNew hl ha hf => simpa [returnsD, dents, dentsVisitD] using this h0
      | ended => simpa [returnsD, dents, dentsVisitD] using this h0
      | @backed w args => simp [returnsD] at h0
    · simp [newD, dents]
  · intro d nd hd _
    rcases d with _ | d
    · simp [init] at hd
      subst hd
      simp [newD, dents]
    · simp [init] at hd

/-- C99.  Whenever no trial is running, the weight is one plus the number of trials that went on from the node. -/
theorem c99_trials (hr : Reachable env m (dents eps cfg env m lr) k s0 dp tm tb st h) (hq : Quiescent st) {d : Nat} {nd : DNode S A ℝ DX}
    (hd : st.dn[d]? = some nd) : nd.x.ent.n = 1 + trialsThrough d h := by
  rw [c99_weight hr hd]
  have := (reach_bk hr).1.d d
  rw [sum_idle hq (Phase.pendD d) rfl] at this
  have h2 : h.countP (Event.selAt d) = trialsThrough d h := countP_congr' h (fun e => by cases e <;> rfl)
  omega

theorem finiteEntD_map (l : List EntDO) (hl : ∀ p ∈ l, (∃ r, p.loc = some r) ∧ ∃ r, p.sub = some r) :
    finiteEntD l = some (l.map fun x => { n := x.n, loc := x.loc.getD 0, sub := x.sub.getD 0 }) := by
  induction l with
  | nil => rfl
  | cons x l ih =>
    obtain ⟨⟨r1, h1⟩, r2, h2⟩ := hl x (by simp)
    simp [finiteEntD, h1, h2, ih (fun p hp => hl p (by simp [hp]))]

/-- C99.  Whenever no trial is running, the entropy of a chance node is the mean of the entropies of its children, each weighted by one
plus the number of trials that went on from it. -/
theorem c99_chance (G : GoodCfg cfg.toCfg env) (he : 0 < cfg.epsilon) (hu : m.useTable = false) (htb : Leftover tb)
    (hr : Reachable env m (dents eps cfg env m lr) k s0 dp tm tb st h) (hq : Quiescent st) :
    ∃ H : Nat → ℝ, (∀ (d : Nat) nd, st.dn[d]? = some nd → nd.x.ent.sub = some (H d)) ∧
      ∀ (c : Nat) nc, st.cn[c]? = some nc → returnsC c h ≠ [] →
        nc.y.ent.sub = some (wmean (nc.kids.map fun q => (1 + trialsThrough q.2 h, H q.2))) := by
  obtain ⟨F, _⟩ := c57_finite_partial G he htb hr
  have V := dents_valid eps cfg env m lr
  have I := reach_inv V htb hr
  refine ⟨fun d => (st.dn[d]?).elim 0 fun nd => nd.x.ent.sub.getD 0, ?_, ?_⟩
  · intro d nd hd
    obtain ⟨_, r, hr'⟩ := F d nd hd
    simp [hd, hr']
  · intro c nc hc hb
    have U := reach_uptodate V (fun _ => rfl) hu htb hr
    obtain ⟨fd, fc⟩ := quiescent_free hq
    obtain ⟨y0, args, hy⟩ := U.c c nc hc (fc c) hb
    rw [hy]
    have hall : ∀ q ∈ nc.kids, ∃ nd, st.dn[q.2]? = some nd := by
      intro q hq'
      obtain ⟨_, nd', _, g2, _⟩ := childD_facts I.tree (childD_of_mem I.tree hc (show (q.1, q.2) ∈ nc.kids from hq'))
      exact ⟨nd', g2⟩
    have hfin : ∀ p ∈ (kidsX st nc).map fun k => k.2.ent, (∃ r, p.loc = some r) ∧ ∃ r, p.sub = some r := by
      intro p hp
      obtain ⟨q, hq', rfl⟩ := List.mem_map.1 hp
      obtain ⟨d, nd, _, g1, g2⟩ := mem_kidsX.1 hq'
      rw [g2]
      exact F d nd g1
    have e1 : ((dents eps cfg env m lr).backupC nc.state nc.action y0 (kidsX st nc) args).ent = entC ((kidsX st nc).map fun k => k.2.ent) y0.ent := rfl
    rw [e1]
    unfold entC
    rw [finiteEntD_map _ hfin]
    simp only [entBackupC, meanLoop_eq, List.map_map]
    congr 2
    unfold kidsX
    generalize nc.kids = ks at hall
    induction ks with
    | nil => rfl
    | cons q ks ih =>
      obtain ⟨nd, g1⟩ := hall q (by simp)
      simp only [List.filterMap_cons, g1, Option.map_some, List.map_cons, Function.comp, Option.elim_some, c99_trials hr hq g1]
      rw [← ih (fun q hq => hall q (by simp [hq]))]

/-- A child of a chance node is not the root. -/
theorem kid_ne_root {env : Env S A ℝ} {m : Manager S ℝ} {st : St S A ℝ DX DY} {s0 : S} {dp tm : Int} (I : Tree env m s0 dp tm st) {c : Nat} {nc : CNode S A ℝ DY} (hc : st.cn[c]? = some nc)
    {q : S × Nat} (hq : q ∈ nc.kids) : q.2 ≠ st.root := by
  obtain ⟨o, d⟩ := q
  obtain ⟨nc', nd, k1, k2, _, _, k3, _⟩ := childD_facts I (childD_of_mem I hc hq)
  rintro rfl
  rw [hc] at k1; simp at k1; subst k1
  obtain ⟨i, e, he, hk⟩ := I.heap.cPar c nc.skel (by simp [hc])
  obtain ⟨n, g1, _, _, g2, _⟩ := I.heap.dKid i e _ c he hk
  simp [hc] at g1; subst g1
  have := (I.heap.dTime i e he).2
  obtain ⟨r, hr', _, hdr, _⟩ := root_node I
  rw [k2] at hr'; simp at hr'; subst hr'
  simp [CNode.skel] at g2
  omega

/-- C99, for children that are not leaves, in mcts mode: the entropy of a chance node is the mean of its children's entropies weighted
by how often the trials went there.  Missing: leaves, which count once (`c99_leaf`). -/
theorem c99_mcts_partial (G : GoodCfg cfg.toCfg env) (he : 0 < cfg.epsilon) (hu : m.useTable = false) (hmode : m.mctsMode = true)
    (htb : Leftover tb) (hr : Reachable env m (dents eps cfg env m lr) k s0 dp tm tb st h) (hq : Quiescent st) {c : Nat} {nc : CNode S A ℝ DY}
    (hc : st.cn[c]? = some nc) (hb : returnsC c h ≠ []) (hin : ∀ q ∈ nc.kids, ∀ nd, st.dn[q.2]? = some nd → isLeaf env m nd = false) :
    ∃ H : Nat → ℝ, (∀ (d : Nat) nd, st.dn[d]? = some nd → nd.x.ent.sub = some (H d)) ∧
      nc.y.ent.sub = some (wmean (nc.kids.map fun q => (timesWent c q.2 h, H q.2))) := by
  obtain ⟨H, h1, h2⟩ := c99_chance G he hu htb hr hq
  refine ⟨H, h1, ?_⟩
  rw [h2 c nc hc hb]
  have V := dents_valid eps cfg env m lr
  obtain ⟨I, C⟩ := reach_both V htb hr
  congr 2
  refine List.map_congr_left ?_
  intro q hq'
  obtain ⟨nc', nd, g1, g2, _, _, g3, _⟩ := childD_facts I.tree (childD_of_mem I.tree hc (show (q.1, q.2) ∈ nc.kids from hq'))
  have hne : q.2 ≠ st.root := kid_ne_root I.tree hc hq'
  have h3 := one_end V hmode hu htb hr hq g2 hne (hin q hq' nd g2)
  have h4 := C.v4 q.2
  rw [if_neg hne, quiescent_counts hq (Phase.inSel q.2) rfl, h3] at h4
  have h5 : h.countP (Event.selAt q.2) = trialsThrough q.2 h := countP_congr' h (fun e => by cases e <;> rfl)
  rw [into_of_notable I C hu hc (show (q.1, q.2) ∈ nc.kids from hq')]
  congr 1
  omega

/-- C99, for children that are not leaves, outside mcts mode: every child counts once more than the trials went there. -/
theorem c99_full_depth_partial (G : GoodCfg cfg.toCfg env) (he : 0 < cfg.epsilon) (hu : m.useTable = false) (hmode : m.mctsMode = false)
    (htb : Leftover tb) (hr : Reachable env m (dents eps cfg env m lr) k s0 dp tm tb st h) (hq : Quiescent st) {c : Nat} {nc : CNode S A ℝ DY}
    (hc : st.cn[c]? = some nc) (hb : returnsC c h ≠ []) (hin : ∀ q ∈ nc.kids, ∀ nd, st.dn[q.2]? = some nd → isLeaf env m nd = false) :
    ∃ H : Nat → ℝ, (∀ (d : Nat) nd, st.dn[d]? = some nd → nd.x.ent.sub = some (H d)) ∧
      nc.y.ent.sub = some (wmean (nc.kids.map fun q => (timesWent c q.2 h + 1, H q.2))) := by
  obtain ⟨H, h1, h2⟩ := c99_chance G he hu htb hr hq
  refine ⟨H, h1, ?_⟩
  rw [h2 c nc hc hb]
  have V := dents_valid eps cfg env m lr
  obtain ⟨I, C⟩ := reach_both V htb hr
  congr 2
  refine List.map_congr_left ?_
  intro q hq'
  obtain ⟨nc', nd, g1, g2, _, _, g3, _⟩ := childD_facts I.tree (childD_of_mem I.tree hc (show (q.1, q.2) ∈ nc.kids from hq'))
  have hne : q.2 ≠ st.root := kid_ne_root I.tree hc hq'
  have h3 := no_end hmode hr g2 (hin q hq' nd g2)
  have h4 := C.v4 q.2
  rw [if_neg hne, quiescent_counts hq (Phase.inSel q.2) rfl, h3] at h4
  have h5 : h.countP (Event.selAt q.2) = trialsThrough q.2 h := countP_congr' h (fun e => by cases e <;> rfl)
  rw [into_of_notable I C hu hc (show (q.1, q.2) ∈ nc.kids from hq')]
  congr 1
  omega

/-! ## Leaves count once -/

/-- From state 0 the only action leads to state `t` or to state 2; the states 2 and 3 have two actions, the others are sinks. -/
noncomputable def entEnv (t : Nat) : Env Nat Nat ℝ :=
  { isSink := fun s => s != 0 && s != 2 && s != 3, actions := fun s => if s = 0 then [0] else if s = 2 ∨ s = 3 then [0, 1] else [],
    succ := fun s _ => if s = 0 then [t, 2] else [1], reward := fun _ _ _ => 0 }

def entMgr (mcts : Bool) (depth : Int) : Manager Nat ℝ :=
  { maxDepth := depth, mctsMode := mcts, twoPlayer := false, useTable := false, numMutexes := 0, heuristic := none }

noncomputable def entCfg : DCfg Nat Nat :=
  { temp := 1, priorWeight := 0, epsilon := 1 / 2, rootEpsilon := -1, maxExplore := 1, decay := none, minTemp := 1 / 10 ^ 6,
    scale := 1, rootScale := -1, defaultQ := 0, shift := false, offset := 0, threshold := 0, mostVisited := false, prior := none,
    low := -10 ^ 308, valueDecay := some Decay.invSqrt, valueInit := 1, valueMin := 1 / 10 ^ 6, valueScale := 1, valueRootScale := -1,
    useDp := true }

noncomputable abbrev entAlg (t : Nat) (mcts : Bool) (depth : Int) : Alg Nat Nat ℝ DX DY := dents 0 entCfg (entEnv t) (entMgr mcts depth) fun _ _ => 0

theorem entGood (t : Nat) : GoodCfg entCfg.toCfg (entEnv t) := by
  refine ⟨by simp [entCfg], by norm_num [entCfg], by simp [entCfg], by simp [entCfg], ?_, by simp [entCfg], ?_, ?_, ?_⟩
  · simp only [entCfg]; exact Real.log_nonneg (by norm_num)
  · intro f hf; simp [entCfg] at hf
  · intro f hf; simp [entCfg] at hf
  · intro f hf; simp [entCfg] at hf

/-- Every transition of the environment is equally likely. -/
noncomputable def entObs (t s _a : Nat) : List (Nat × ℝ) := if s = 0 then [(t, 1 / 2), (2, 1 / 2)] else [(1, 1)]

theorem ent_obs {t : Nat} (ht : t ≠ 2) : Random.Transitions (entEnv t) (entObs t) (1 / 2) := by
  intro s a hs _
  by_cases h0 : s = 0
  · subst h0
    refine ⟨⟨by simp [entObs], by norm_num [entObs]⟩, by simp [entObs, entEnv], ?_⟩
    intro o ho
    have ho' : o = t ∨ o = 2 := by simpa [entEnv] using ho
    rcases ho' with rfl | rfl
    · norm_num [entObs, Spec.weightOf, Spec.mass, ht.symm]
    · norm_num [entObs, Spec.weightOf, Spec.mass, ht]
  · refine ⟨⟨by simp [entObs, h0], by norm_num [entObs, h0]⟩, by simp [entObs, entEnv, h0], ?_⟩
    intro o ho
    have ho' : o = 1 := by simpa [entEnv, h0] using ho
    subst ho'
    norm_num [entObs, Spec.weightOf, Spec.mass, h0]

theorem ent_explore : 1 / 160 ≤ Random.softExplore entCfg.toCfg 2 40 := by
  have h : Real.log ((40 : ℕ) + 1) ≤ 40 := by
    have := Real.log_le_sub_one_of_pos (x := ((40 : ℕ) : ℝ) + 1) (by positivity)
    push_cast at this ⊢
    linarith
  have h0 : 0 < Real.log ((40 : ℕ) + 1) := Real.log_pos (by norm_num)
  have hm : Random.minEps entCfg.toCfg = 1 / 2 := by norm_num [Random.minEps, entCfg]
  have h1 : (1 / 80 : ℝ) ≤ 1 / 2 / Real.log ((40 : ℕ) + 1) := by
    rw [div_div, div_le_div_iff₀ (by norm_num) (by linarith)]
    linarith
  have h2 : (1 / 80 : ℝ) ≤ min (Random.minEps entCfg.toCfg / Real.log ((40 : ℕ) + 1)) entCfg.maxExplore := by
    rw [hm]
    exact le_min h1 (by norm_num [entCfg])
  unfold Random.softExplore
  rw [le_div_iff₀ (by norm_num)]
  refine le_trans ?_ h2
  norm_num

/-- A schedule of DENTS in this environment. -/
theorem ent_run {t : Nat} (ht : t ≠ 2) (mcts : Bool) (depth : Int) (ls : List (Nat × Choice Nat Nat)) (hls : ls.length ≤ 40)
    (P : St Nat Nat ℝ Unit Unit → List (Event Nat Nat ℝ) → Bool)
    (hP : ((execFrom (entEnv t) (entMgr mcts depth) (free Nat Nat ℝ 0) (init (entEnv t) (entMgr mcts depth) (free Nat Nat ℝ 0) 1 0 0 0 []) [] ls).any
      fun p => P p.1 p.2) = true) :
    ∃ st h, Reachable (entEnv t) (entMgr mcts depth) (entAlg t mcts depth) 1 0 0 0 [] st h ∧ P st.erase h = true := by
  have hpa : 0 < Random.softExplore entCfg.toCfg 2 40 := lt_of_lt_of_le (by norm_num) ent_explore
  have htb : Leftover ([] : List ((Int × Nat) × Option Nat)) := by simp [Leftover]
  have hX := Random.c77_dents_explores (env := entEnv t) (m := entMgr mcts depth) (cfg := entCfg) (eps := 0) (B := 2) (N := 40) (k := 1) (s0 := 0)
    (dp := 0) (tm := 0) (lr := fun _ _ => 0) (iter := fun _ l => l) htb (entGood t)
    ⟨by intro s hs; by_cases h0 : s = 0 <;> by_cases h2 : s = 2 <;> by_cases h3 : s = 3 <;> simp [entEnv, h0, h2, h3] at hs ⊢,
     by intro s _ a _; by_cases h0 : s = 0 <;> simp [entEnv, h0]⟩
    (by intro s; by_cases h0 : s = 0 <;> by_cases h2 : s = 2 <;> by_cases h3 : s = 3 <;> simp [entEnv, h0, h2, h3])
    (by intro s; by_cases h0 : s = 0 <;> by_cases h2 : s = 2 <;> by_cases h3 : s = 3 <;> simp [entEnv, h0, h2, h3]) le_rfl
    (fun _ l => List.Perm.refl l) (ent_obs ht) (le_trans (by norm_num) ent_explore)
  exact run_explores (dents_valid 0 entCfg (entEnv t) (entMgr mcts depth) fun _ _ => 0) hX hpa ls hls (fun st h => P st h = true) (by
    obtain ⟨p, h1, h2⟩ := (Option.any_eq_true _ _).1 hP
    exact ⟨p, h1, h2⟩)

/-- What the schedules below reach. -/
def entEnd (t n : Nat) (st : St Nat Nat ℝ Unit Unit) (h : List (Event Nat Nat ℝ)) : Bool :=
  st.ws.all idle? && (st.cn.head?.map CNode.kids == some [(t, 1), (2, n)]) && (st.dn[1]?.map (fun nd => (nd.state, nd.depth)) == some (t, 1)) &&
    (st.dn[n]?.map (fun nd => (nd.state, nd.depth)) == some (2, 1)) && timesWent 0 1 h == 2 && timesWent 0 n h == 1 && (returnsC 0 h).length == 3 && childC st 0 0 == some 0

theorem ent_end {t n : Nat} {st : St Nat Nat ℝ DX DY} {h : List (Event Nat Nat ℝ)} (hP : entEnd t n st.erase h = true) :
    Quiescent st ∧ (∃ nc n1 n2, st.cn[0]? = some nc ∧ nc.kids = [(t, 1), (2, n)] ∧ st.dn[1]? = some n1 ∧ st.dn[n]? = some n2 ∧ n1.state = t ∧
      n1.depth = 1 ∧ n2.state = 2 ∧ n2.depth = 1) ∧ timesWent 0 1 h = 2 ∧ timesWent 0 n h = 1 ∧ returnsC 0 h ≠ [] ∧ childC st 0 0 = some 0 := by
  simp only [entEnd, Bool.and_eq_true, List.all_eq_true, beq_iff_eq] at hP
  obtain ⟨⟨⟨⟨⟨⟨⟨p1, p2⟩, p3⟩, p4⟩, p5⟩, p6⟩, p7⟩, p8⟩ := hP
  refine ⟨?_, ?_, p5, p6, by intro h0; rw [h0] at p7; simp at p7, ?_⟩
  rotate_left 2
  · cases h0 : st.dn[0]? with
    | none => simp [childC, St.erase, h0] at p8
    | some n0 => simpa [childC, St.erase, h0, DNode.erase] using p8
  · intro w p hp
    have := p1 p (by simpa [St.erase] using List.mem_of_getElem? hp)
    cases p <;> simp [idle?] at this ⊢
  · simp only [St.erase, List.getElem?_map, Option.map_map] at p3 p4
    obtain ⟨n1, h1, h2⟩ := Option.map_eq_some_iff.1 p3
    obtain ⟨n2, h3, h4⟩ := Option.map_eq_some_iff.1 p4
    cases hcn : st.cn with
    | nil => simp [St.erase, hcn] at p2
    | cons a l =>
      simp only [Function.comp, DNode.erase, Prod.mk.injEq] at h2 h4
      exact ⟨a, n1, n2, rfl, by simpa [St.erase, hcn, CNode.erase] using p2, h1, h3, h2.1, h2.2, h4.1, h4.2⟩

/-- The steps of a trial that ends after `n` actions, the first of which leads to `o`. -/
def entTrial (o n : Nat) : List (Nat × Choice Nat Nat) :=
  [(0, .go), (0, .act 0), (0, .obs o)] ++ (if n = 2 then [(0, .act 0), (0, .obs 1)] else []) ++ List.replicate (2 * n + 2) (0, .go)

/-- The new node of the sink has entropy 0. -/
theorem ent_sink (t : Nat) (mcts : Bool) (depth dep tim : Int) (heur : ℝ) : (dentsInitD entCfg (entEnv t) (entMgr mcts depth) 1 dep tim heur).ent.sub = some 0 := by
  have hp : ∀ v : View Nat Nat DX DY, v.actions = [] → actionDistr entCfg.toCfg (dentsQ entCfg v) v = .ok [] := by
    intro v ha
    unfold actionDistr fullDistr
    rw [ha]
    cases lambda entCfg.toCfg v <;> simp [qList, weights, interpolateAll]
  simp only [dentsInitD]
  rw [hp _ (by simp [newView, entEnv])]
  simp [entD, finiteEntC, entBackupD, localEntropy, subtreeLoop]

/-- The new node of state 2 has the entropy of the uniform distribution over its two actions. -/
theorem ent_two (t : Nat) (mcts : Bool) (depth dep tim : Int) (heur : ℝ) : (dentsInitD entCfg (entEnv t) (entMgr mcts depth) 2 dep tim heur).ent.sub = some (Real.log 2) := by
  have hp : ∀ v : View Nat Nat DX DY, v.actions = [0, 1] → v.visits = 0 → v.kids = [] →
      actionDistr entCfg.toCfg (dentsQ entCfg v) v = .ok [(0, 1 / 2), (1, 1 / 2)] := by
    intro v ha hv hk
    have hq : ∀ a, dentsQ entCfg v a = .ok 0 := by
      intro a
      simp [dentsQ, hk, find?, mentsQ, untriedQ, entCfg]
    have hl : lambda entCfg.toCfg v = .ok 1 := by
      norm_num [lambda, hv, entCfg, isRoot]
    unfold actionDistr fullDistr
    rw [ha, hl]
    have e0 : ¬ (1 / 2 : ℝ) < EPS := by norm_num [EPS]
    have hw : ¬ entCfg.priorWeight > 0 := by simp [entCfg]
    simp only [qList, hq, weights, interpolateAll, interpolate, if_neg hw, List.map_cons, List.map_nil, sub_self, zero_div, mul_zero, zero_add,
      one_mul, List.length_cons, List.length_nil]
    norm_num [EPS]
  simp only [dentsInitD]
  rw [hp _ (by simp [newView, entEnv]) rfl rfl]
  have ho : isOpponent (entMgr mcts depth) tim = false := by simp [isOpponent, entMgr]
  simp [entD, finiteEntC, entBackupD, localEntropy, subtreeLoop, newView, ho, oppCoeff]
  ring

/-- C99 fails: two of three trials went to the sink, which has entropy 0, and one to a leaf with entropy `log 2`; the entropy of the chance
node is not the third of `log 2` that the trials give, but half of it. -/
theorem c99_false : ∃ st h nc n1 n2, Reachable (entEnv 1) (entMgr true 1) (entAlg 1 true 1) 1 0 0 0 [] st h ∧ Quiescent st ∧
    childC st 0 0 = some 0 ∧ st.cn[0]? = some nc ∧ nc.kids = [(1, 1), (2, 2)] ∧ st.dn[1]? = some n1 ∧ st.dn[2]? = some n2 ∧ timesWent 0 1 h = 2 ∧ timesWent 0 2 h = 1 ∧
    n1.x.ent.sub = some 0 ∧ n2.x.ent.sub = some (Real.log 2) ∧ nc.y.ent.sub = some (Real.log 2 / 2) ∧
    wmean [(timesWent 0 1 h, 0), (timesWent 0 2 h, Real.log 2)] = Real.log 2 / 3 ∧ Real.log 2 / 2 ≠ Real.log 2 / 3 := by
  have htb : Leftover ([] : List ((Int × Nat) × Option Nat)) := by simp [Leftover]
  obtain ⟨st, h, hr, hP⟩ := ent_run (t := 1) (by decide) true 1 (entTrial 1 1 ++ entTrial 2 1 ++ entTrial 1 1) (by decide)
    (fun st h => entEnd 1 2 st h) (by decide +kernel)
  obtain ⟨hq, ⟨nc, n1, n2, hc, hk, h1, h2, e1, d1, e2, d2⟩, t1, t2, hb, hch⟩ := ent_end hP
  have l1 : isLeaf (entEnv 1) (entMgr true 1) n1 = true := by simp [isLeaf, entMgr, d1]
  have l2 : isLeaf (entEnv 1) (entMgr true 1) n2 = true := by simp [isLeaf, entMgr, d2]
  have z1 := c99_leaf htb hr h1 l1
  have z2 := c99_leaf htb hr h2 l2
  have p6 : returnsD 1 h = [] := by rw [c99_weight hr h1] at z1; exact List.length_eq_zero_iff.1 (by omega)
  have p7 : returnsD 2 h = [] := by rw [c99_weight hr h2] at z2; exact List.length_eq_zero_iff.1 (by omega)
  have p9 : trialsThrough 1 h = 0 := by rw [c99_trials hr hq h1] at z1; omega
  have p10 : trialsThrough 2 h = 0 := by rw [c99_trials hr hq h2] at z2; omega
  have g1 : n1.x.ent.sub = some 0 := by rw [c99_initial hr h1 p6, e1]; exact ent_sink _ _ _ _ _ _
  have g2 : n2.x.ent.sub = some (Real.log 2) := by rw [c99_initial hr h2 p7, e2]; exact ent_two _ _ _ _ _ _
  obtain ⟨H, q1, q2⟩ := c99_chance (entGood 1) (by norm_num [entCfg]) rfl htb hr hq
  have q3 := q2 0 nc hc hb
  have r1 : H 1 = 0 := by have := q1 1 n1 h1; rw [g1] at this; exact (Option.some.inj this).symm
  have r2 : H 2 = Real.log 2 := by have := q1 2 n2 h2; rw [g2] at this; exact (Option.some.inj this).symm
  refine ⟨st, h, nc, n1, n2, hr, hq, hch, hc, hk, h1, h2, t1, t2, g1, g2, ?_, ?_, ?_⟩
  · rw [q3, hk]
    simp [p9, p10, r1, r2, wmean]
    norm_num
  · rw [t1, t2]
    norm_num [wmean]
  · have := Real.log_pos (show (1 : ℝ) < 2 by norm_num)
    intro h
    linarith

/-- A search whose chance node at the root has two children that are not leaves, in mcts mode: they weigh 2 and 1. -/
example : ∃ st h nc, Reachable (entEnv 3) (entMgr true 2) (entAlg 3 true 2) 1 0 0 0 [] st h ∧ Quiescent st ∧ st.cn[0]? = some nc ∧
    nc.kids = [(3, 1), (2, 2)] ∧ ∃ H : Nat → ℝ, (∀ (d : Nat) nd, st.dn[d]? = some nd → nd.x.ent.sub = some (H d)) ∧
      nc.y.ent.sub = some (wmean [(2, H 1), (1, H 2)]) := by
  obtain ⟨st, h, hr, hP⟩ := ent_run (t := 3) (by decide) true 2 (entTrial 3 1 ++ entTrial 2 1 ++ entTrial 3 2) (by decide)
    (fun st h => entEnd 3 2 st h) (by decide +kernel)
  obtain ⟨hq, ⟨nc, n1, n2, hc, hk, h1, h2, e1, d1, e2, d2⟩, t1, t2, hb, hch⟩ := ent_end hP
  obtain ⟨H, q1, q2⟩ := c99_mcts_partial (entGood 3) (by norm_num [entCfg]) rfl rfl (by simp [Leftover]) hr hq hc hb (by
    rw [hk]
    intro q hq' nd hd
    have : q = (3, 1) ∨ q = (2, 2) := by simpa using hq'
    rcases this with rfl | rfl
    · rw [h1] at hd; obtain rfl := Option.some.inj hd; simp [isLeaf, entEnv, entMgr, e1, d1]
    · rw [h2] at hd; obtain rfl := Option.some.inj hd; simp [isLeaf, entEnv, entMgr, e2, d2])
  refine ⟨st, h, nc, hr, hq, hc, hk, H, q1, ?_⟩
  rw [q2, hk]
  simp [t1, t2]

/-- Outside mcts mode they weigh 3 and 2. -/
example : ∃ st h nc, Reachable (entEnv 3) (entMgr false 2) (entAlg 3 false 2) 1 0 0 0 [] st h ∧ Quiescent st ∧ st.cn[0]? = some nc ∧
    nc.kids = [(3, 1), (2, 3)] ∧ ∃ H : Nat → ℝ, (∀ (d : Nat) nd, st.dn[d]? = some nd → nd.x.ent.sub = some (H d)) ∧
      nc.y.ent.sub = some (wmean [(3, H 1), (2, H 3)]) := by
  obtain ⟨st, h, hr, hP⟩ := ent_run (t := 3) (by decide) false 2 (entTrial 3 2 ++ entTrial 2 2 ++ entTrial 3 2) (by decide)
    (fun st h => entEnd 3 3 st h) (by decide +kernel)
  obtain ⟨hq, ⟨nc, n1, n2, hc, hk, h1, h2, e1, d1, e2, d2⟩, t1, t2, hb, hch⟩ := ent_end hP
  obtain ⟨H, q1, q2⟩ := c99_full_depth_partial (entGood 3) (by norm_num [entCfg]) rfl rfl (by simp [Leftover]) hr hq hc hb (by
    rw [hk]
    intro q hq' nd hd
    have : q = (3, 1) ∨ q = (2, 3) := by simpa using hq'
    rcases this with rfl | rfl
    · rw [h1] at hd; obtain rfl := Option.some.inj hd; simp [isLeaf, entEnv, entMgr, e1, d1]
    · rw [h2] at hd; obtain rfl := Option.some.inj hd; simp [isLeaf, entEnv, entMgr, e2, d2])
  refine ⟨st, h, nc, hr, hq, hc, hk, H, q1, ?_⟩
  rw [q2, hk]
  simp [t1, t2]

end Verif.Dents
