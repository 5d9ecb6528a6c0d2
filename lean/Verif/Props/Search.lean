import Verif.Proofs.SearchMore
import Verif.Spec.SearchToy

/-!
# Properties of the tree search: C08 – C19

All theorems are about every reachable state of the model `Verif.Model.Search`: any environment, any algorithm plugged into
the schema (`alg`, only required to select valid actions), any number of workers, any interleaving, any random choices.
-/

namespace Verif.Search

set_option linter.unusedSectionVars false
set_option linter.unusedSimpArgs false

variable {S A R X Y : Type} [DecidableEq S] [DecidableEq A] [AddMonoid R]
  {env : Env S A R} {m : Manager S R} {alg : Alg S A R X Y} {k : Nat} {s0 : S} {dp tm : Int}
  {tb : List ((Int × S) × Option Nat)} {st : St S A R X Y} {h : List (Event S A R)}

/-! ## C08 -/

/-- C08.  The steps taken so far by the current or last trial of any worker form a path of the tree that starts at the
root: each step takes an action valid in the current state, reaches a possible successor through existing children and
records the environment's reward.  If the trial has ended, it ended at the end of that path and recorded that
node's heuristic value. -/
theorem c08_trial_is_trajectory (hv : alg.Valid) (htb : Leftover tb) (hr : Reachable env m alg k s0 dp tm tb st h)
    {w : Nat} (hw : w < k) :
    ∃ e, IsPath env st st.root (stepsOf w h) e ∧
      ∀ d v, endOf w h = some (d, v) → d = e ∧ ∃ nd, st.dn[e]? = some nd ∧ v = nd.heur := by
  have I := reach_inv hv htb hr
  obtain ⟨p, hp⟩ := reach_phase hr hw
  obtain ⟨e, h1, h2⟩ := winv_base I hp
  refine ⟨e, h1.1, ?_⟩
  intro d v hd
  obtain ⟨rfl, nd, h3, h4, _⟩ := h2 d v hd
  exact ⟨rfl, nd, h3, h4.symm⟩

/-! ## C09 -/

/-- C09.  No node is deeper than the depth limit. -/
theorem c09_depth_limit (hv : alg.Valid) (htb : Leftover tb) (hr : Reachable env m alg k s0 dp tm tb st h)
    (hdp : dp ≤ m.maxDepth) {d : Nat} {nd : DNode S A R X} (hd : st.dn[d]? = some nd) : nd.depth ≤ m.maxDepth :=
  (reach_inv hv htb hr).tree.heap.dMax hdp d nd.skel (by simp [hd])

/-- C09.  A node for a sink state, or at the depth limit, never has children. -/
theorem c09_leaves_have_no_children (hv : alg.Valid) (htb : Leftover tb) (hr : Reachable env m alg k s0 dp tm tb st h)
    {d : Nat} {nd : DNode S A R X} (hd : st.dn[d]? = some nd) (hl : env.isSink nd.state = true ∨ m.maxDepth ≤ nd.depth) :
    nd.kids = [] := by
  refine (reach_inv hv htb hr).tree.heap.dLeaf d nd.skel (by simp [hd]) ?_
  simp only [leafS, DNode.skel, Bool.or_eq_true]
  exact hl.imp id (fun h => decide_eq_true h)

/-- C09.  A trial selects at most `max_depth` (minus the root's depth) actions. -/
theorem c09_selections_bounded (hv : alg.Valid) (htb : Leftover tb) (hr : Reachable env m alg k s0 dp tm tb st h)
    (hdp : dp ≤ m.maxDepth) {w : Nat} (hw : w < k) : dp + selectionsOf w h ≤ m.maxDepth := by
  have I := reach_inv hv htb hr
  obtain ⟨p, hp⟩ := reach_phase hr hw
  have hlen := reach_phaseLen hv htb hr hp
  obtain ⟨h1, h2⟩ := steps_bound I hdp hp
  cases p with
  | samp cur a c path rs new =>
    have := h2 ⟨cur, a, c, path, rs, new, rfl⟩
    simp only [phaseLen] at hlen; omega
  | _ => simp only [phaseLen] at hlen; omega

/-- C09.  Every trial is over after a bounded number of its own blocks, whatever the other workers do. -/
theorem c09_trial_length_bounded (hv : alg.Valid) (htb : Leftover tb) (hr : Reachable env m alg k s0 dp tm tb st h)
    (hdp : dp ≤ m.maxDepth) {w : Nat} (hw : w < k) : (blocksOf w h : Int) ≤ 4 * (m.maxDepth - dp) + 2 := by
  have I := reach_inv hv htb hr
  obtain ⟨p, hp⟩ := reach_phase hr hw
  have hlen := reach_phaseLen hv htb hr hp
  obtain ⟨h1, h2⟩ := steps_bound I hdp hp
  cases p with
  | samp cur a c path rs new =>
    have := h2 ⟨cur, a, c, path, rs, new, rfl⟩
    simp only [phaseLen] at hlen; omega
  | _ => simp only [phaseLen] at hlen; omega

/-! ## C10 -/

/-- C10.  All decision nodes a trial stepped from are non-leaves, and in mcts mode only its last step may have added a child;
once the trial has ended, it is at a leaf or (mcts mode) its last step added a child. -/
theorem c10_where_trials_stop (hv : alg.Valid) (htb : Leftover tb) (hr : Reachable env m alg k s0 dp tm tb st h)
    {w : Nat} (hw : w < k) :
    (∀ s ∈ stepsOf w h, ∃ nd, st.dn[s.d]? = some nd ∧ env.isSink nd.state = false ∧ nd.depth < m.maxDepth) ∧
    (m.mctsMode = true → ∀ s ∈ (stepsOf w h).dropLast, s.grew = false) ∧
    (∀ e v, endOf w h = some (e, v) → ∃ nd, st.dn[e]? = some nd ∧
      ((env.isSink nd.state = true ∨ m.maxDepth ≤ nd.depth) ∨
       (m.mctsMode = true ∧ ∃ s, (stepsOf w h).getLast? = some s ∧ s.grew = true))) := by
  have I := reach_inv hv htb hr
  obtain ⟨p, hp⟩ := reach_phase hr hw
  obtain ⟨e, ⟨_, _, h1, h1'⟩, h2⟩ := winv_base I hp
  refine ⟨?_, h1', ?_⟩
  · intro s hs
    obtain ⟨nd, g1, g2⟩ := h1 s hs
    simp only [isLeaf, Bool.or_eq_false_iff, decide_eq_false_iff_not] at g2
    exact ⟨nd, g1, g2.1, by omega⟩
  · intro e' v he
    obtain ⟨rfl, nd, g1, g2, g3⟩ := h2 e' v he
    refine ⟨nd, g1, ?_⟩
    rcases g3 with g3 | ⟨g3, g4⟩
    · left; simpa [isLeaf] using g3
    · right
      refine ⟨g3, ?_⟩
      have := h1' g3
      rcases getLast?_cases (stepsOf w h) with h0 | ⟨l, s, h0⟩
      · rw [h0] at g4; simp at g4
      · refine ⟨s, by rw [h0]; simp, ?_⟩
        rw [h0] at g4 this
        simp at g4 this
        rcases g4 with ⟨x, hx, hg⟩ | hg
        · rw [this x hx] at hg; simp at hg
        · exact hg

/-- C10.  With mcts mode off a trial always runs to a leaf. -/
theorem c10_full_depth (hv : alg.Valid) (htb : Leftover tb) (hr : Reachable env m alg k s0 dp tm tb st h)
    (hm : m.mctsMode = false) {w : Nat} (hw : w < k) {e : Nat} {v : R} (he : endOf w h = some (e, v)) :
    ∃ nd, st.dn[e]? = some nd ∧ (env.isSink nd.state = true ∨ m.maxDepth ≤ nd.depth) := by
  obtain ⟨nd, h1, h2⟩ := (c10_where_trials_stop hv htb hr hw).2.2 e v he
  rcases h2 with h2 | ⟨h2, _⟩
  · exact ⟨nd, h1, h2⟩
  · simp [hm] at h2

/-! ## C11 -/

/-- C11.  In mcts mode there are at most one plus the number of trials started decision nodes. -/
theorem c11_one_node_per_trial (hv : alg.Valid) (htb : Leftover tb) (hr : Reachable env m alg k s0 dp tm tb st h)
    (hm : m.mctsMode = true) : st.dn.length ≤ 1 + trialsBegun h := by
  obtain ⟨_, C⟩ := reach_both hv htb hr
  have h1 := C.grow
  have h2 := C.mcts hm
  have : h.countP Event.isBegan = trialsBegun h := countP_congr' h (fun e => by cases e <;> rfl)
  omega

/-- C11.  In mcts mode no single trial makes a chance node grow more than once. -/
theorem c11_each_trial_grows_once (hv : alg.Valid) (htb : Leftover tb) (hr : Reachable env m alg k s0 dp tm tb st h)
    (hm : m.mctsMode = true) {w : Nat} (hw : w < k) : ((stepsOf w h).filter Step.grew).length ≤ 1 := by
  have h1 := (c10_where_trials_stop hv htb hr hw).2.1 hm
  rcases getLast?_cases (stepsOf w h) with h0 | ⟨l, s, h0⟩
  · rw [h0]; simp
  · rw [h0] at h1 ⊢
    simp only [List.dropLast_concat] at h1
    rw [List.filter_append, List.filter_eq_nil_iff.2 (by intro x hx; simp [h1 x hx])]
    simp
    exact Nat.le_trans (List.length_filter_le _ _) (by simp)

/-! ## C12 -/

/-- C12.  When a worker is between trials, its last trial made exactly the documented backup calls: for every pair of the
trial once, deepest first, chance node before decision node, with the documented arguments. -/
theorem c12_backups_exact (hv : alg.Valid) (htb : Leftover tb) (hr : Reachable env m alg k s0 dp tm tb st h)
    {w : Nat} (hi : st.ws[w]? = some .idle) (hne : trialOf w h ≠ []) :
    ∃ e v, endOf w h = some (e, v) ∧ callsOf w h = expectedCalls (stepsOf w h) v := by
  rcases (reach_inv hv htb hr).ws w _ hi with h0 | ⟨e, v, h1, _, _, h2⟩
  · exact absurd h0 hne
  · exact ⟨e, v, h1, h2⟩

/-- C12.  At any moment the backup calls made so far are a prefix of the documented ones, and none is made before the trial's
last node has been visited. -/
theorem c12_backups_in_order (hv : alg.Valid) (htb : Leftover tb) (hr : Reachable env m alg k s0 dp tm tb st h)
    {w : Nat} (hw : w < k) :
    (endOf w h = none → callsOf w h = []) ∧
    (∀ e v, endOf w h = some (e, v) → callsOf w h <+: expectedCalls (stepsOf w h) v) := by
  have I := reach_inv hv htb hr
  have pre : ∀ (ss : List (Step S A R)) (v : R) (n j : Nat), j + n = ss.length →
      callsFrom ss v j <+: expectedCalls ss v := by
    intro ss v n j
    induction j generalizing n with
    | zero => intro _; exact List.prefix_refl _
    | succ j ih =>
      intro hj
      refine List.IsPrefix.trans ?_ (ih (n + 1) (by omega))
      rw [callsFrom_succ ss v (by omega : j < ss.length)]
      exact List.prefix_append _ _
  obtain ⟨p, hp⟩ := reach_phase hr hw
  have H := I.ws w p hp
  cases p with
  | idle =>
    rcases H with H | ⟨e, hv, h1, h2, h3, h4⟩
    · refine ⟨fun _ => by simp [callsOf, H], fun e v he => by simp [endOf, H] at he⟩
    · refine ⟨fun h0 => by simp [h1] at h0, fun e v he => ?_⟩
      rw [h1] at he; simp at he; obtain ⟨rfl, rfl⟩ := he
      rw [h4]; exact List.prefix_refl _
  | sel cur path rs new =>
    obtain ⟨h1, h2, h3, h4, h5, h6⟩ := H
    exact ⟨fun _ => h5, fun e v he => by simp [h6] at he⟩
  | samp cur a c path rs new =>
    obtain ⟨h1, h2, h3, h4, h5, h6, _⟩ := H
    exact ⟨fun _ => h5, fun e v he => by simp [h6] at he⟩
  | back nodes before after ret tot =>
    obtain ⟨e, hv, j, h1, h2, h3, h4, h5, h6, h7, h8, h9, h10⟩ := H
    refine ⟨fun h0 => by simp [h2] at h0, fun e v he => ?_⟩
    rw [h2] at he; simp at he; obtain ⟨rfl, rfl⟩ := he
    rw [h10]; exact pre _ _ ((stepsOf w h).length - j) j (by omega)
  | backD d nodes before after ret tot =>
    obtain ⟨e, hv, j, s, h0, h1, h2, h3, h4, h5, h6, h7, h8, h9, h10⟩ := H
    refine ⟨fun h0 => by simp [h2] at h0, fun e v he => ?_⟩
    rw [h2] at he; simp at he; obtain ⟨rfl, rfl⟩ := he
    have hj := (List.getElem?_eq_some_iff.1 h0).1
    have := pre (stepsOf w h) hv ((stepsOf w h).length - j) j (by omega)
    rw [callsFrom_succ _ _ hj] at this
    refine List.IsPrefix.trans ?_ this
    rw [h10]
    simp only [callsAt, h0]
    exact List.prefix_append_right_inj _ |>.2 ⟨[_], rfl⟩

/-! ## C13 -/

/-- C13.  When no trial is in progress the root has been visited once per trial, and all trials started have completed. -/
theorem c13_root_visits (hv : alg.Valid) (htb : Leftover tb) (hr : Reachable env m alg k s0 dp tm tb st h)
    (hq : Quiescent st) : visitsD st st.root = alg.initVisits + trialsCompleted h ∧ trialsBegun h = trialsCompleted h := by
  obtain ⟨I, C⟩ := reach_both hv htb hr
  have e1 : h.countP Event.isBegan = trialsBegun h := countP_congr' h (fun e => by cases e <;> rfl)
  have e2 : h.countP Event.isCompleted = trialsCompleted h := countP_congr' h (fun e => by cases e <;> rfl)
  have h5 := C.v5
  rw [quiescent_counts hq Phase.busy rfl, e1, e2] at h5
  refine ⟨?_, h5⟩
  obtain ⟨nd, hnd, _⟩ := root_node I.tree
  have h1 := C.v1 _ nd hnd
  have h4 := C.v4 st.root
  rw [no_into_root I C, quiescent_counts hq (Phase.inSel st.root) rfl, if_pos rfl, e1] at h4
  simp [visitsD, hnd]
  omega

/-- C13.  When no trial is in progress, a decision node's visits (since construction) are the trials that ended there plus the
visits of its children. -/
theorem c13_decision_visits (hv : alg.Valid) (htb : Leftover tb) (hr : Reachable env m alg k s0 dp tm tb st h)
    (hq : Quiescent st) {d : Nat} {nd : DNode S A R X} (hd : st.dn[d]? = some nd) :
    nd.visits = alg.initVisits + trialsEndedAt d h + (nd.kids.map (fun p => visitsC st p.2)).sum := by
  obtain ⟨I, C⟩ := reach_both hv htb hr
  rw [C.v1 d nd hd, sel_partition I C hd]
  have e1 : h.countP (Event.endAt d) = trialsEndedAt d h := countP_congr' h (fun e => by cases e <;> rfl)
  have : (nd.kids.map (fun p => h.countP (Event.selVia p.2))) = nd.kids.map (fun p => visitsC st p.2) := by
    apply List.map_congr_left
    intro p hp
    have h3 := C.v3 p.2
    rw [quiescent_counts hq (Phase.inSamp p.2) rfl] at h3
    obtain ⟨nc, hc⟩ := tree_childC_exists I.tree (childC_of_mem I.tree hd (a := p.1) (c := p.2) hp)
    simp [visitsC, hc, C.v2 _ _ hc, h3]
  rw [this, e1]; omega

/-- C13.  At any moment a chance node's visits are the number of times trials went through it to each of its children. -/
theorem c13_chance_visits (hv : alg.Valid) (htb : Leftover tb) (hr : Reachable env m alg k s0 dp tm tb st h)
    {c : Nat} {nc : CNode S A R Y} (hc : st.cn[c]? = some nc) :
    nc.visits = (nc.kids.map (fun p => timesWent c p.2 h)).sum := by
  obtain ⟨I, C⟩ := reach_both hv htb hr
  rw [C.v2 c nc hc]; exact went_partition I C hc

/-- C13.  Without transposition table and with no trial in progress, a chance node's visits are the sum of its children's
visits since construction. -/
theorem c13_chance_visits_tree (hv : alg.Valid) (htb : Leftover tb) (hr : Reachable env m alg k s0 dp tm tb st h)
    (hq : Quiescent st) (ht : m.useTable = false) {c : Nat} {nc : CNode S A R Y} (hc : st.cn[c]? = some nc) :
    nc.visits = (nc.kids.map (fun p => visitsD st p.2 - alg.initVisits)).sum := by
  obtain ⟨I, C⟩ := reach_both hv htb hr
  rw [c13_chance_visits hv htb hr hc]
  congr 1
  apply List.map_congr_left
  intro p hp
  obtain ⟨o, d⟩ := p
  have hch := childD_of_mem I.tree hc hp
  obtain ⟨nc', nd, k1, k2, _, _, k3, _⟩ := childD_facts I.tree hch
  rw [into_of_notable I C ht hc hp]
  have h4 := C.v4 d
  rw [quiescent_counts hq (Phase.inSel d) rfl] at h4
  have hroot : d ≠ st.root := by
    rintro rfl
    rw [hc] at k1; simp at k1; subst k1
    obtain ⟨i, e, he, hk⟩ := I.tree.heap.cPar c nc.skel (by simp [hc])
    obtain ⟨n, g1, _, _, g2, _⟩ := I.tree.heap.dKid i e _ c he hk
    simp [hc] at g1; subst g1
    have := (I.tree.heap.dTime i e he).2
    obtain ⟨r, hr', _, hdr, _⟩ := root_node I.tree
    rw [k2] at hr'; simp at hr'; subst hr'
    simp [CNode.skel] at g2
    omega
  rw [if_neg hroot] at h4
  have h1 := C.v1 d nd k2
  simp [visitsD, k2, h1]
  omega

/-! ## C14 -/

/-- C14.  A child of a decision node has its state, depth and timestep, and the action it is stored under. -/
theorem c14_chance_child (hv : alg.Valid) (htb : Leftover tb) (hr : Reachable env m alg k s0 dp tm tb st h)
    {d c : Nat} {a : A} (hc : childC st d a = some c) :
    ∃ nd nc, st.dn[d]? = some nd ∧ st.cn[c]? = some nc ∧ nc.state = nd.state ∧ nc.action = a ∧ nc.depth = nd.depth ∧
      nc.time = nd.time := by
  obtain ⟨nd, nc, h1, h2, _, h3, h4, h5, h6, _⟩ := childC_facts (reach_inv hv htb hr).tree hc
  exact ⟨nd, nc, h1, h2, h3, h4, h5, h6⟩

/-- C14.  A child of a chance node has the observation it is stored under as its state, and depth and timestep one larger. -/
theorem c14_decision_child (hv : alg.Valid) (htb : Leftover tb) (hr : Reachable env m alg k s0 dp tm tb st h)
    {d c : Nat} {o : S} (hc : childD st c o = some d) :
    ∃ nc nd, st.cn[c]? = some nc ∧ st.dn[d]? = some nd ∧ nd.state = o ∧ nd.depth = nc.depth + 1 ∧ nd.time = nc.time + 1 := by
  obtain ⟨nc, nd, h1, h2, _, h3, h4, h5, _⟩ := childD_facts (reach_inv hv htb hr).tree hc
  exact ⟨nc, nd, h1, h2, h3, h4, h5⟩

/-- C14.  No node is its own descendant. -/
theorem c14_acyclic (hv : alg.Valid) (htb : Leftover tb) (hr : Reachable env m alg k s0 dp tm tb st h) (d : Nat) :
    ¬ Desc st d d := by
  intro hd
  obtain ⟨a, b, h1, h2, h3⟩ := desc_depth (reach_inv hv htb hr).tree hd
  rw [h1] at h2; simp at h2; subst h2; omega

/-- C14.  Every node other than the root has a parent; without the table exactly one. -/
theorem c14_parents (hv : alg.Valid) (htb : Leftover tb) (hr : Reachable env m alg k s0 dp tm tb st h) :
    (∀ d nd, st.dn[d]? = some nd → d ≠ st.root → ∃ c o, childD st c o = some d) ∧
    (∀ c nc, st.cn[c]? = some nc → ∃ d, childC st d nc.action = some c) ∧
    (∀ d d' a a' c, childC st d a = some c → childC st d' a' = some c → d = d' ∧ a = a') ∧
    (m.useTable = false → ∀ c c' o o' d, childD st c o = some d → childD st c' o' = some d → c = c' ∧ o = o') := by
  have T := (reach_inv hv htb hr).tree
  refine ⟨?_, ?_, ?_, ?_⟩
  · intro d nd hd hne
    obtain ⟨c, n, o, h1, h2⟩ := T.heap.dPar d nd.skel (by simp [hd]) (by rw [← T.root]; exact hne)
    simp at h1
    obtain ⟨nc, h1, rfl⟩ := h1
    exact ⟨c, o, childD_of_mem T h1 h2⟩
  · intro c nc hc
    obtain ⟨d, n, h1, h2⟩ := T.heap.cPar c nc.skel (by simp [hc])
    simp at h1
    obtain ⟨nd, h1, rfl⟩ := h1
    exact ⟨d, childC_of_mem T h1 h2⟩
  · intro d d' a a' c h1 h2
    obtain ⟨nd, nc, g1, g2, g3, _, g4, _⟩ := childC_facts T h1
    obtain ⟨nd', nc', k1, k2, k3, _, k4, _⟩ := childC_facts T h2
    rw [g2] at k2; simp at k2; subst k2
    exact ⟨T.heap.dUniq d d' nd.skel nd'.skel a a' c (by simp [g1]) (by simp [k1]) g3 k3, by rw [← g4, ← k4]⟩
  · intro ht c c' o o' d h1 h2
    obtain ⟨nc, nd, g1, g2, g3, g4, _⟩ := childD_facts T h1
    obtain ⟨nc', nd', k1, k2, k3, k4, _⟩ := childD_facts T h2
    rw [g2] at k2; simp at k2; subst k2
    exact ⟨T.heap.cUniq ht c c' nc.skel nc'.skel o o' d (by simp [g1]) (by simp [k1]) g3 k3, by rw [← g4, ← k4]⟩

/-! ## C15 -/

/-- C15.  Creating a child that exists changes nothing; creating one twice is creating it once. -/
theorem c15_create_idempotent (alg : Alg S A R X Y) (st : St S A R X Y) {d : Nat} {nd : DNode S A R X} (a : A)
    (hd : st.dn[d]? = some nd) :
    (∀ c, childC st d a = some c → createC alg st d nd a = st) ∧
    ∃ nd', (createC alg st d nd a).dn[d]? = some nd' ∧ (find? a nd'.kids).isSome = true ∧
      createC alg (createC alg st d nd a) d nd' a = createC alg st d nd a := by
  have hlt := (List.getElem?_eq_some_iff.1 hd).1
  constructor
  · intro c hc
    simp only [childC, hd, Option.bind_some] at hc
    simp [createC, hc]
  · cases hf : find? a nd.kids with
    | some c => exact ⟨nd, by simp [createC, hf, hd], by simp [hf], by simp [createC, hf]⟩
    | none =>
      refine ⟨{ nd with kids := nd.kids ++ [(a, st.cn.length)] }, by simp [createC, hf, hlt], by simp [find?_append, hf], ?_⟩
      simp [createC, hf, find?_append]

/-- C15.  Same for the children of a chance node, including the table lookup. -/
theorem c15_create_idempotent_chance (env : Env S A R) (m : Manager S R) (alg : Alg S A R X Y) (st st1 : St S A R X Y) {c : Nat}
    {nc : CNode S A R Y} (o : S) (hc : st.cn[c]? = some nc) (h1 : createD env m alg st c nc o = .ok st1) :
    (∀ d, childD st c o = some d → st1 = st) ∧
    ∃ nc', st1.cn[c]? = some nc' ∧ (find? o nc'.kids).isSome = true ∧ createD env m alg st1 c nc' o = .ok st1 := by
  have hlt := (List.getElem?_eq_some_iff.1 hc).1
  cases hf : find? o nc.kids with
  | some d =>
    simp [createD, hf] at h1
    subst h1
    exact ⟨fun _ _ => rfl, nc, hc, by simp [hf], by simp [createD, hf]⟩
  | none =>
    constructor
    · intro d hd; simp [childD, hc, hf] at hd
    · simp only [createD, hf] at h1
      split at h1
      · split at h1
        · simp at h1
        · split at h1
          all_goals simp at h1
          all_goals subst h1
          all_goals exact ⟨_, List.getElem?_set_self hlt, by simp [find?_append, hf], by simp [createD, find?_append, hf]⟩
      · simp at h1; subst h1
        exact ⟨_, List.getElem?_set_self hlt, by simp [find?_append, hf], by simp [createD, find?_append, hf]⟩

/-- C15.  Whatever happens later, an existing child stays the child of its key. -/
theorem c15_children_never_lost {ls : List (Nat × Choice S A)} {st' : St S A R X Y} {h' : List (Event S A R)}
    (hx : execFrom env m alg st h ls = some (st', h')) :
    (∀ d a c, childC st d a = some c → childC st' d a = some c) ∧
    (∀ c o d, childD st c o = some d → childD st' c o = some d) :=
  ⟨fun _ _ _ hc => (exec_le hx).childC hc, fun _ _ _ hc => (exec_le hx).childD hc⟩

/-- C15.  All trials of all workers that ever take the same action at the same node (or sample the same observation at the same
chance node) go to the same child. -/
theorem c15_same_child (hv : alg.Valid) (htb : Leftover tb) (hr : Reachable env m alg k s0 dp tm tb st h) :
    (∀ w w' d a c c', .selected w d a c ∈ h → .selected w' d a c' ∈ h → c = c') ∧
    (∀ w w' d₁ d₂ a₁ a₂ c o d d' r r' g g', .stepped w d₁ a₁ c o d r g ∈ h → .stepped w' d₂ a₂ c o d' r' g' ∈ h → d = d') := by
  obtain ⟨I, C⟩ := reach_both hv htb hr
  refine ⟨?_, ?_⟩
  · intro w w' d a c c' h1 h2
    have e1 := C.evSel _ _ _ _ h1
    rw [C.evSel _ _ _ _ h2] at e1; simpa using e1.symm
  · intro w w' d₁ d₂ a₁ a₂ c o d d' r r' g g' h1 h2
    have e1 := (C.evStep _ _ _ _ _ _ _ _ h1).1
    rw [(C.evStep _ _ _ _ _ _ _ _ h2).1] at e1; simpa using e1.symm

/-- C15.  Each key has at most one child. -/
theorem c15_keys_distinct (hv : alg.Valid) (htb : Leftover tb) (hr : Reachable env m alg k s0 dp tm tb st h) :
    (∀ (d : Nat) nd, st.dn[d]? = some nd → (nd.kids.map Prod.fst).Nodup) ∧
    (∀ (c : Nat) nc, st.cn[c]? = some nc → (nc.kids.map Prod.fst).Nodup) := by
  have T := (reach_inv hv htb hr).tree
  exact ⟨fun d nd hd => T.heap.dNodup d nd.skel (by simp [hd]), fun c nc hc => T.heap.cNodup c nc.skel (by simp [hc])⟩

/-! ## C16 -/

/-- C16.  In a two player game a node belongs to the opponent exactly at odd timesteps; chance nodes belong to their parent's
player; players alternate along child links.  In a single player game nobody is the opponent. -/
theorem c16_players_alternate (hv : alg.Valid) (htb : Leftover tb) (hr : Reachable env m alg k s0 dp tm tb st h) :
    (∀ t, isOpponent m t = true ↔ m.twoPlayer = true ∧ ∃ q, t = 2 * q + 1) ∧
    (∀ d a c nd nc, st.dn[d]? = some nd → st.cn[c]? = some nc → childC st d a = some c →
      isOpponent m nc.time = isOpponent m nd.time) ∧
    (m.twoPlayer = true → ∀ c o d nc nd, st.cn[c]? = some nc → st.dn[d]? = some nd → childD st c o = some d →
      isOpponent m nd.time = !isOpponent m nc.time) ∧
    (m.twoPlayer = false → ∀ t, isOpponent m t = false) := by
  have I := reach_inv hv htb hr
  refine ⟨?_, ?_, ?_, ?_⟩
  · intro t
    simp only [isOpponent, Bool.and_eq_true, decide_eq_true_eq, and_congr_right_iff]
    intro _
    exact ⟨fun h => ⟨t / 2, by omega⟩, by rintro ⟨q, rfl⟩; omega⟩
  · intro d a c nd nc hd hc hch
    obtain ⟨nd', nc', h1, h2, _, _, _, _, h3, _⟩ := childC_facts I.tree hch
    rw [hd] at h1; rw [hc] at h2; simp at h1 h2; subst h1 h2; rw [h3]
  · intro h2p c o d nc nd hc hd hch
    obtain ⟨nc', nd', h1, h2, _, _, _, h3, _⟩ := childD_facts I.tree hch
    rw [hc] at h1; rw [hd] at h2; simp at h1 h2; subst h1 h2
    simp only [isOpponent, h2p, Bool.true_and, h3]
    have : (nc.time + 1) % 2 = 1 ↔ ¬ nc.time % 2 = 1 := by omega
    rw [← decide_not]
    exact decide_eq_decide.2 this
  · intro h2p t; simp [isOpponent, h2p]

/-! ## C17 -/

/-- C17.  A node for a sink state has heuristic value 0; any other node has the heuristic function's value (0 if none is given). -/
theorem c17_heuristic_values (hv : alg.Valid) (htb : Leftover tb) (hr : Reachable env m alg k s0 dp tm tb st h)
    {d : Nat} {nd : DNode S A R X} (hd : st.dn[d]? = some nd) :
    (env.isSink nd.state = true → nd.heur = 0) ∧
    (m.heuristic = none → nd.heur = 0) ∧
    (∀ f, m.heuristic = some f → env.isSink nd.state = false → nd.heur = f nd.state) := by
  have := (reach_inv hv htb hr).tree.heap.dHeur d nd.skel (by simp [hd])
  simp only [DNode.skel] at this
  rw [this]
  unfold heurOf
  refine ⟨?_, ?_, ?_⟩
  · intro hs; cases m.heuristic <;> simp [hs]
  · intro hs; simp [hs]
  · intro f hf hs; simp [hf, hs]

/-- C17.  A trial that ended at a sink has total return equal to the sum of its environment rewards: that is the value every
backup call of the trial receives. -/
theorem c17_return_at_sink (hv : alg.Valid) (htb : Leftover tb) (hr : Reachable env m alg k s0 dp tm tb st h)
    {w : Nat} (hw : w < k) {e : Nat} {v : R} (he : endOf w h = some (e, v)) {s : S} (hs : stateOf st e = some s)
    (hsink : env.isSink s = true) :
    v = 0 ∧ ∀ i, (argsAt ((stepsOf w h).map Step.r) v i).total = ((stepsOf w h).map Step.r).sum := by
  obtain ⟨e', _, h2⟩ := c08_trial_is_trajectory hv htb hr hw
  obtain ⟨rfl, nd, h3, rfl⟩ := h2 e v he
  simp only [stateOf, h3, Option.map_some, Option.some.injEq] at hs
  have := (c17_heuristic_values hv htb hr h3).1 (by rw [hs]; exact hsink)
  refine ⟨this, fun i => ?_⟩
  simp [argsAt, this, sum_snoc]

/-! ## C18 -/

/-- C18.  With the transposition table on, two children reached with (timestep, observation) pairs are the same node exactly when
the pairs are equal. -/
theorem c18_table_unique (hv : alg.Valid) (htb : Leftover tb) (hr : Reachable env m alg k s0 dp tm tb st h)
    (ht : m.useTable = true) {c c' d d' : Nat} {o o' : S} {nc nc' : CNode S A R Y} (hc : st.cn[c]? = some nc)
    (hc' : st.cn[c']? = some nc') (h1 : childD st c o = some d) (h2 : childD st c' o' = some d') :
    d = d' ↔ (nc.time = nc'.time ∧ o = o') := by
  have T := (reach_inv hv htb hr).tree
  obtain ⟨n1, e1, g1, g2, g3, g4, _, g5, _⟩ := childD_facts T h1
  obtain ⟨n2, e2, k1, k2, k3, k4, _, k5, _⟩ := childD_facts T h2
  rw [hc] at g1; rw [hc'] at k1; simp at g1 k1; subst g1 k1
  constructor
  · rintro rfl
    rw [g2] at k2; simp at k2; subst k2
    exact ⟨by omega, by rw [← g4, ← k4]⟩
  · rintro ⟨e3, rfl⟩
    have a1 := T.heap.tKid ht c nc.skel o d (by simp [hc]) g3
    have a2 := T.heap.tKid ht c' nc'.skel o d' (by simp [hc']) k3
    simp only [CNode.skel] at a1 a2
    rw [e3, a2] at a1
    simpa using a1.symm

/-! ## C19 -/

/-- C19 (partial).  If the table is empty at the start (a fresh manager) and at least one table mutex is configured, no
lookup ever fails – indeed no worker ever dies.  Missing: leftovers of an earlier tree and zero mutexes, for which the property
is false (`c19_expired_entry_false`, `c19_zero_mutexes_false`). -/
theorem c19_lookups_never_fail_partial (hv : alg.Valid) (hm : m.useTable = true → m.numMutexes ≠ 0)
    (hr : Reachable env m alg k s0 dp tm [] st h) : st.crashed = none := by
  obtain ⟨ls, hx⟩ := hr
  have := exec_induct (fun (s : St S A R X Y) h => Inv env m s0 dp tm s h ∧ (∀ p ∈ s.table, p.2 ≠ none) ∧ s.crashed = none)
    (fun st h w e st' hp hc E => ⟨inv_eff hv hp.1 E, eff_table E hp.2.1, by
      cases E <;> try exact hc
      rename_i hcause
      rcases cause_cases hp.1 hcause with ⟨_, h1, h2⟩ | ⟨_, _, kk, h3⟩
      · exact absurd h2 (hm h1)
      · exact absurd h3 (find?_none_entry hp.2.1 kk)⟩)
    ⟨inv_init env m alg k s0 dp tm [] (by simp), by simp [init], rfl⟩ hx
  exact this.2.2

/-- C19.  Whatever the configuration and the leftovers, the only failures are the two table failures. -/
theorem c19_only_table_failures (hv : alg.Valid) (htb : Leftover tb) (hr : Reachable env m alg k s0 dp tm tb st h) :
    st.crashed = none ∨ (m.useTable = true ∧ ((st.crashed = some .noMutex ∧ m.numMutexes = 0) ∨
      (st.crashed = some .badWeakPtr ∧ tb ≠ []))) := by
  obtain ⟨ls, hx⟩ := hr
  have := exec_induct (fun (s : St S A R X Y) h => Inv env m s0 dp tm s h ∧ (tb = [] → ∀ p ∈ s.table, p.2 ≠ none) ∧
      (s.crashed = none ∨ (m.useTable = true ∧ ((s.crashed = some .noMutex ∧ m.numMutexes = 0) ∨
        (s.crashed = some .badWeakPtr ∧ tb ≠ [])))))
    (fun st h w e st' hp hc E => ⟨inv_eff hv hp.1 E, fun h0 => eff_table E (hp.2.1 h0), by
      cases E <;> try exact .inl hc
      rename_i hcause
      rcases cause_cases hp.1 hcause with ⟨rfl, h1, h2⟩ | ⟨rfl, h1, kk, h3⟩
      · exact .inr ⟨h1, .inl ⟨rfl, h2⟩⟩
      · refine .inr ⟨h1, .inr ⟨rfl, ?_⟩⟩
        intro h0
        exact absurd h3 (find?_none_entry (hp.2.1 h0) kk)⟩)
    ⟨inv_init env m alg k s0 dp tm tb htb, by rintro rfl; simp [init], .inl rfl⟩ hx
  exact this.2.2

/-- C19 is false: a manager whose table still holds an entry of a destroyed tree kills the next search (concrete witness; the
leftover is exactly what a first search of the same environment leaves behind, see the second part). -/
theorem c19_expired_entry_false :
    (∃ st h, Reachable Toy.env (Toy.mgr true true 1) Toy.alg 2 0 0 0 [((0, 1), none)] st h ∧
      st.crashed = some .badWeakPtr) ∧
    (∃ st h, Reachable Toy.env (Toy.mgr true true 1) Toy.alg 2 0 0 0 [] st h ∧ Quiescent st ∧
      st.table.map Prod.fst = [(0, 1)]) := by
  constructor
  · obtain ⟨st, h, h1, h2⟩ := Toy.run (mcts := true) (table := true) (mutexes := 1) (tb := [((0, 1), none)])
      [(0, .go), (0, .act 0), (0, .obs 1)] (fun st _ => decide (st.crashed = some .badWeakPtr)) (by decide)
    exact ⟨st, h, h1, by simpa using h2⟩
  · obtain ⟨st, h, h1, h2⟩ := Toy.run (mcts := true) (table := true) (mutexes := 1) (tb := [])
      [(0, .go), (0, .act 0), (0, .obs 1), (0, .go), (0, .go), (0, .go), (0, .go)]
      (fun st _ => decide (st.ws = [.idle, .idle] ∧ st.table.map Prod.fst = [(0, 1)])) (by decide)
    simp only [decide_eq_true_eq] at h2
    refine ⟨st, h, h1, ?_, h2.2⟩
    intro w p hp
    rw [h2.1] at hp
    have := List.mem_of_getElem? hp
    simpa using this

/-- C19 is false: with the table on and zero mutexes configured the first lookup is out of bounds. -/
theorem c19_zero_mutexes_false :
    ∃ st h, Reachable Toy.env (Toy.mgr true true 0) Toy.alg 2 0 0 0 [] st h ∧ st.crashed = some .noMutex := by
  obtain ⟨st, h, h1, h2⟩ := Toy.run (mcts := true) (table := true) (mutexes := 0) (tb := [])
    [(0, .go), (0, .act 0), (0, .obs 1)] (fun st _ => decide (st.crashed = some .noMutex)) (by decide)
  exact ⟨st, h, h1, by simpa using h2⟩

/-- C19.  With two or more table mutexes, lookups of different keys are not mutually exclusive although they read and
modify the same hash map: some pair of keys is guarded by different mutexes.  With one mutex every access is guarded
by the same one. -/
theorem c19_mutexes_do_not_exclude (n : Nat) :
    (2 ≤ n → ∃ h₁ h₂, mutexIndex n h₁ ≠ mutexIndex n h₂) ∧ (n ≤ 1 → ∀ h₁ h₂, mutexIndex n h₁ = mutexIndex n h₂) := by
  constructor
  · intro hn
    refine ⟨0, 1, ?_⟩
    have : 1 % n = 1 := Nat.mod_eq_of_lt (by omega)
    simp [mutexIndex, show 1 < n by omega, this]
  · intro hn a b; simp [mutexIndex, show ¬ 1 < n by omega]

/-! ## Non-vacuity -/

/-- Two interleaved trials, both completed, without mcts mode and with the table on (C08–C10, C12–C18). -/
theorem toy_two_trials : ∃ st h, Reachable Toy.env (Toy.mgr false true 1) Toy.alg 2 0 0 0 [] st h ∧
    st.ws = [.idle, .idle] ∧ trialsCompleted h = 2 ∧ st.dn.length = 6 ∧ (stepsOf 0 h).length = 3 ∧ (stepsOf 1 h).length = 3 ∧
    endOf 0 h = some (4, 0) ∧ endOf 1 h = some (5, 0) ∧ (callsOf 0 h).length = 6 ∧
    childD st 1 3 = some 3 ∧ childD st 2 3 = some 3 := by
  obtain ⟨st, h, h1, h2⟩ := Toy.run (mcts := false) (table := true) (mutexes := 1) (tb := []) Toy.sched
    (fun st h => decide (st.ws = [.idle, .idle] ∧ trialsCompleted h = 2 ∧ st.dn.length = 6 ∧ (stepsOf 0 h).length = 3 ∧
      (stepsOf 1 h).length = 3 ∧ endOf 0 h = some (4, 0) ∧ endOf 1 h = some (5, 0) ∧ (callsOf 0 h).length = 6 ∧
      childD st 1 3 = some 3 ∧ childD st 2 3 = some 3)) (by decide)
  exact ⟨st, h, h1, by simpa using h2⟩

/-- The hypotheses of the theorems above are met by that run. -/
example : Toy.alg.Valid ∧ Leftover ([] : List ((Int × Nat) × Option Nat)) ∧ (0 : Int) ≤ (Toy.mgr false true 1).maxDepth ∧
    Toy.env.isSink 4 = true := ⟨Toy.alg_valid, by simp [Leftover], by decide, by decide⟩

/-- C12: the first backup calls of worker 0 in that run, spelled out. -/
example : ∃ st h, Reachable Toy.env (Toy.mgr false true 1) Toy.alg 2 0 0 0 [] st h ∧
    (callsOf 0 h).head? = some (.chance 3 ⟨[1, 16], [0, 34], 34, 51⟩) ∧
    (callsOf 0 h).getLast? = some (.decision 0 ⟨[], [0, 34, 16, 1], 51, 51⟩) := by
  obtain ⟨st, h, h1, h2⟩ := Toy.run (mcts := false) (table := true) (mutexes := 1) (tb := []) Toy.sched
    (fun st h => decide ((callsOf 0 h).head? = some (.chance 3 ⟨[1, 16], [0, 34], 34, 51⟩) ∧
    (callsOf 0 h).getLast? = some (.decision 0 ⟨[], [0, 34, 16, 1], 51, 51⟩))) (by decide)
  exact ⟨st, h, h1, by simpa using h2⟩

/-- C11: two concurrent mcts trials, both growing the tree. -/
example : ∃ st h, Reachable Toy.env (Toy.mgr true false 0) Toy.alg 2 0 0 0 [] st h ∧
    st.dn.length = 3 ∧ trialsBegun h = 2 ∧ ((stepsOf 0 h).filter Step.grew).length = 1 := by
  obtain ⟨st, h, h1, h2⟩ := Toy.run (mcts := true) (table := false) (mutexes := 0) (tb := [])
    [(0, .go), (1, .go), (0, .act 0), (1, .act 0), (0, .obs 1), (1, .obs 2), (0, .go), (1, .go)]
    (fun st h => decide (st.dn.length = 3 ∧ trialsBegun h = 2 ∧ ((stepsOf 0 h).filter Step.grew).length = 1)) (by decide)
  exact ⟨st, h, h1, by simpa using h2⟩

/-- C13 without the table: a quiescent tree in which a chance node has two children. -/
example : ∃ st h, Reachable Toy.env (Toy.mgr false false 0) Toy.alg 2 0 0 0 [] st h ∧
    st.ws = [.idle, .idle] ∧ visitsC st 0 = 2 ∧ childD st 0 1 = some 1 ∧ childD st 0 2 = some 2 := by
  obtain ⟨st, h, h1, h2⟩ := Toy.run (mcts := false) (table := false) (mutexes := 0) (tb := []) Toy.sched
    (fun st h => decide (st.ws = [.idle, .idle] ∧ visitsC st 0 = 2 ∧ childD st 0 1 = some 1 ∧ childD st 0 2 = some 2))
    (by decide)
  exact ⟨st, h, h1, by simpa using h2⟩

end Verif.Search
