import Verif.Proofs.ReuseMain
import Verif.Props.RandomSearch
import Verif.Props.RentsTree

/-!
# C106: A search can go on from a node of an old tree as if it had started there

`Online` (Spec/Reuse.lean) are the states of a search whose root is moved down between trials, any number of times.  `SameBelow st d σ f g` says that the tree
of `σ` is the part of the tree of `st` below `d`, node for node and value for value.
-/

set_option linter.unusedSectionVars false
set_option linter.unusedSimpArgs false

namespace Verif.Search

section
variable {S A R X Y : Type} [DecidableEq S] [DecidableEq A] [Add R] [Zero R] {env : Env S A R} {m : Manager S R} {alg : Alg S A R X Y} {k : Nat} {s0 : S}
  {dp tm : Int} {st : St S A R X Y} {d : Nat}

theorem online_part (L : alg.Local) (hu : m.useTable = false) (ho : Online env m alg k s0 dp tm st) (hd : BelowRoot st d) :
    ∃ nd σ h f g, st.dn[d]? = some nd ∧ Fresh env m alg k nd.state nd.depth nd.time σ h ∧ Rel m True nd.depth st d σ f g := by
  have I := oinv L hu ho
  obtain ⟨nd, hnd⟩ := below_node I.wf hd
  obtain ⟨s, dp', tm', σ, h, f, g, ⟨nd', h1, rfl, rfl, rfl⟩, F, Rl⟩ := I.part d (List.getElem?_eq_some_iff.1 hnd).1 (below_not_above I.wf hd)
  exact ⟨nd', σ, h, f, g, h1, F, Rl⟩

/-- C106.  Without transposition table and without mcts mode, at every moment of a search that reuses its tree, the tree below the root (and below every
node below it) is the tree of a search that started at a new node with that node's state, depth and timestep; when no trial is running, none is running there. -/
theorem c106_fresh (L : alg.Local) (hu : m.useTable = false) (hm : m.mctsMode = false) (ho : Online env m alg k s0 dp tm st) (hd : BelowRoot st d) :
    ∃ nd σ h f g, st.dn[d]? = some nd ∧ Reachable env m alg k nd.state nd.depth nd.time [] σ h ∧ SameBelow st d σ f g ∧
      (Quiescent st → Quiescent σ) := by
  obtain ⟨nd, σ, h, f, g, h1, F, Rl⟩ := online_part L hu ho hd
  refine ⟨nd, σ, h, f, g, h1, ?_, Rl.same, fun hq => (rel_rest Rl hq).1⟩
  rcases F with F | ⟨hm', _⟩
  · exact F
  · rw [hm] at hm'; cases hm'

/-- C106.  In mcts mode the search started at the new node may contain one trial that only looks at the root: the trial that created the node. -/
theorem c106_mcts (L : alg.Local) (hu : m.useTable = false) (ho : Online env m alg k s0 dp tm st) (hd : BelowRoot st d) :
    ∃ nd σ h f g, st.dn[d]? = some nd ∧ Fresh env m alg k nd.state nd.depth nd.time σ h ∧ SameBelow st d σ f g ∧ (Quiescent st → Quiescent σ) := by
  obtain ⟨nd, σ, h, f, g, h1, F, Rl⟩ := online_part L hu ho hd
  exact ⟨nd, σ, h, f, g, h1, F, Rl.same, fun hq => (rel_rest Rl hq).1⟩

/-- C106.  After the root has been moved, the search that reuses the tree and the search started at the new node can go on in the same ways: each schedule
with its random choices is possible for both or for neither, and it leads to trees that are again the same below the root. -/
theorem c106_goes_on (L : alg.Local) (hu : m.useTable = false) (ho : Online env m alg k s0 dp tm st) (hq : Quiescent st) (hd : BelowRoot st d) :
    ∃ nd σ hσ, st.dn[d]? = some nd ∧ Fresh env m alg k nd.state nd.depth nd.time σ hσ ∧ (∃ f g, SameBelow st d σ f g) ∧
      ∀ (ls : List (Nat × Choice S A)) (h : List (Event S A R)),
        ((execFrom env m alg (setRoot st d) h ls).isSome ↔ (execFrom env m alg σ hσ ls).isSome) ∧
        ∀ st' h' σ' hσ', execFrom env m alg (setRoot st d) h ls = some (st', h') → execFrom env m alg σ hσ ls = some (σ', hσ') →
          ∃ f g, SameBelow st' d σ' f g := by
  obtain ⟨nd, σ, hσ, f, g, h1, F, Rl⟩ := online_part L hu ho hd
  have W : WF (setRoot st d) := (oinv_move (oinv L hu ho) hd).wf
  have hcr : (setRoot st d).crashed = none := (oinv L hu ho).crashed
  have Rl' := (rel_rest Rl hq).2
  refine ⟨nd, σ, hσ, h1, F, ⟨f, g, Rl.same⟩, fun ls h => ⟨⟨?_, ?_⟩, ?_⟩⟩
  · intro hx
    obtain ⟨⟨st', h'⟩, hx⟩ := Option.isSome_iff_exists.1 hx
    obtain ⟨σ', hσ', _, _, h2, _⟩ := follow L hu ls W rfl ⟨nd, h1, rfl⟩ Rl' hx (hσ := hσ)
    rw [h2]; rfl
  · intro hx
    obtain ⟨⟨σ', hσ'⟩, hx⟩ := Option.isSome_iff_exists.1 hx
    obtain ⟨st', h', h2⟩ := follow_back L hu ls W hcr rfl ⟨nd, h1, rfl⟩ (fresh_wf L hu F) Rl' hx (h := h)
    rw [h2]; rfl
  · intro st' h' σ' hσ' hx hy
    obtain ⟨σ2, h2, f2, g2, h3, Rl2⟩ := follow L hu ls W rfl ⟨nd, h1, rfl⟩ Rl' hx (hσ := hσ)
    rw [hy] at h3
    cases h3
    exact ⟨f2, g2, Rl2.same⟩

/-- C106.  No search that reuses a tree dies. -/
theorem c106_no_crash (L : alg.Local) (hu : m.useTable = false) (ho : Online env m alg k s0 dp tm st) : st.crashed = none :=
  (oinv L hu ho).crashed

/-- No node below `d` is missing in the correspondence. -/
theorem c106_all_nodes {σ : St S A R X Y} {f g : Nat → Nat} (H : SameBelow st d σ f g) (hb : ∃ nd, σ.dn[σ.root]? = some nd)
    (hkD : ∀ (i : Nat) nd a c, σ.dn[i]? = some nd → (a, c) ∈ nd.kids → ∃ nc, σ.cn[c]? = some nc)
    (hkC : ∀ (i : Nat) nc o e, σ.cn[i]? = some nc → (o, e) ∈ nc.kids → ∃ nd, σ.dn[e]? = some nd) {e : Nat} (he : Desc st d e) :
    ∃ j < σ.dn.length, f j = e := by
  have hstep : ∀ {x y}, Desc st x y → (∃ j < σ.dn.length, f j = x) → ∃ j < σ.dn.length, f j = y := by
    intro x y h
    induction h with
    | step h1 h2 =>
      rintro ⟨j, hj, rfl⟩
      have hn := List.getElem?_eq_getElem hj
      have hD := H.nodeD j _ hn
      simp only [childC, hD, Option.bind_some, DNode.renum, find?_renum] at h1
      obtain ⟨i, hi, rfl⟩ := Option.map_eq_some_iff.1 h1
      obtain ⟨nc, hnc⟩ := hkD j _ _ i hn (find?_mem hi)
      have hC := H.nodeC i _ hnc
      simp only [childD, hC, Option.bind_some, CNode.renum, find?_renum] at h2
      obtain ⟨l, hl, rfl⟩ := Option.map_eq_some_iff.1 h2
      obtain ⟨nd, hnd⟩ := hkC i _ _ l hnc (find?_mem hl)
      exact ⟨l, (List.getElem?_eq_some_iff.1 hnd).1, rfl⟩
    | trans _ _ ih1 ih2 => exact fun h => ih2 (ih1 h)
  obtain ⟨nd, hnd⟩ := hb
  exact hstep he ⟨σ.root, (List.getElem?_eq_some_iff.1 hnd).1, H.root⟩

end

/-! ## The depth limit -/

/-- C106.  The depth limit goes on counting from the first root, however often the root has moved: below the current root there are never nodes deeper than
the limit, so that a root at depth `D` has at most `maxDepth - D` levels below it. -/
theorem c106_horizon {S A R X Y : Type} [DecidableEq S] [DecidableEq A] [AddMonoid R] {env : Env S A R} {m : Manager S R} {alg : Alg S A R X Y} {k : Nat}
    {s0 : S} {dp tm : Int} {st : St S A R X Y} (hv : alg.Valid) (L : alg.Local) (hu : m.useTable = false) (hm : m.mctsMode = false)
    (ho : Online env m alg k s0 dp tm st) {nr : DNode S A R X} (hroot : st.dn[st.root]? = some nr) (hdp : nr.depth ≤ m.maxDepth) {e : Nat}
    (he : Desc st st.root e) : ∃ ne, st.dn[e]? = some ne ∧ ne.depth ≤ m.maxDepth := by
  obtain ⟨nd, σ, h, f, g, h1, hr, H, _⟩ := c106_fresh L hu hm ho (.inl rfl)
  rw [hroot] at h1
  cases h1
  have W := fresh_wf L hu (.inl hr)
  obtain ⟨j, hj, rfl⟩ := c106_all_nodes H W.root (fun i nd a c h1 h2 => by obtain ⟨nc, h3, _⟩ := W.kidD i nd a c h1 h2; exact ⟨nc, h3⟩)
    (fun i nc o e h1 h2 => by obtain ⟨nd, h3, _⟩ := W.kidC i nc o e h1 h2; exact ⟨nd, h3⟩) he
  have hn := List.getElem?_eq_getElem hj
  have h := c09_depth_limit hv (by simp [Leftover]) hr hdp hn
  exact ⟨_, H.nodeD j _ hn, h⟩

end Verif.Search

/-! ## The algorithms -/

namespace Verif.Search

section
variable {S A : Type} [DecidableEq S] [DecidableEq A]

/-- C106 for UCT and PUCT: they use of a trial only the return after the node. -/
theorem c106_uct {𝕜 : Type} [Field 𝕜] [LinearOrder 𝕜] (cfg : Uct.Cfg S A 𝕜) (m : Manager S 𝕜) : (Uct.uct cfg m).Local where
  select _ _ _ _ _ := rfl
  agree _ _ _ _ _ _ h := h
  keys _ _ _ _ h _ := h
  backupD v c c' b b' _ _ h := by simp only [Uct.uct, h]
  backupC s a y kids b b' _ h := by simp only [Uct.uct, h]

theorem c106_ments (eps : ℝ) (cfg : Ments.Cfg S A) (lr : S → A → ℝ) : (Ments.ments eps cfg lr).Local where
  select _ _ _ _ _ := rfl
  agree _ _ _ _ _ _ h := h
  keys _ _ _ _ h _ := h
  backupD _ _ _ _ _ _ _ _ := rfl
  backupC _ _ _ _ _ _ _ _ := rfl

theorem c106_dbments (eps : ℝ) (cfg : Ments.Cfg S A) (lr : S → A → ℝ) : (Dents.dbments eps cfg lr).Local where
  select _ _ _ _ _ := rfl
  agree _ _ _ _ _ _ h := h
  keys _ _ _ _ h _ := h
  backupD _ _ _ _ _ _ _ _ := rfl
  backupC _ _ _ _ _ _ _ _ := rfl

theorem c106_dents (eps : ℝ) (cfg : Dents.DCfg S A) (env : Env S A ℝ) (m : Manager S ℝ) (lr : S → A → ℝ) : (Dents.dents eps cfg env m lr).Local where
  select _ _ _ _ _ := rfl
  agree _ _ _ _ _ _ h := h
  keys _ _ _ _ h _ := h
  backupD v c c' b b' _ _ h := by simp only [Dents.dents, h]
  backupC s a y kids b b' _ h := by simp only [Dents.dents, h]

theorem c106_est (eps : ℝ) (cfg : Dents.DCfg S A) (env : Env S A ℝ) (m : Manager S ℝ) (lr : S → A → ℝ) : (Dents.est eps cfg env m lr).Local where
  select _ _ _ _ _ := rfl
  agree _ _ _ _ _ _ h := h
  keys _ _ _ _ h _ := h
  backupD v c c' b b' _ _ h := by simp only [Dents.est, h]
  backupC s a y kids b b' _ h := by simp only [Dents.est, h]

theorem put_keys {V : Type} {P : Int → Prop} {k : Int} (x : V) (hk : P k) (l : List (Int × V)) (h : ∀ p ∈ l, P p.1) : ∀ p ∈ Tents.put k x l, P p.1 := by
  intro p hp
  rcases List.mem_append.1 hp with hp | hp
  · exact h p (List.mem_filter.1 hp).1
  · simp at hp
    rw [hp]; exact hk

/-- C106 for TENTS: `select_action` leaves the action under the node's own depth, and `backup` reads it there. -/
theorem c106_tents (eps : ℝ) (cfg : Ments.Cfg S A) (env : Env S A ℝ) (m : Manager S ℝ) (lr : S → A → ℝ) : (Tents.tents eps cfg env m lr).Local where
  select _ _ _ _ _ := rfl
  agree v c c' a dp hd h := by
    intro k hk
    refine ⟨?_, (h k hk).2⟩
    show find? k (Tents.put v.depth a c.acts) = find? k (Tents.put v.depth a c'.acts)
    by_cases hkv : k = v.depth
    · subst hkv; rw [Tents.find?_put_self, Tents.find?_put_self]
    · rw [Tents.find?_put_ne hkv, Tents.find?_put_ne hkv]; exact (h k hk).1
  keys v c a P h hP := ⟨put_keys a hP _ h.1, h.2⟩
  backupD v c c' b b' h _ _ := by
    show Tents.tentsBackupD cfg v c = Tents.tentsBackupD cfg v c'
    unfold Tents.tentsBackupD
    rw [(h v.depth (le_refl _)).1]
  backupC _ _ _ _ _ _ _ _ := rfl

end

/-! ## RENTS -/

section
open Verif.Ments Verif.Tents Verif.Sampling Verif.Random
variable {S A : Type} [DecidableEq S] [DecidableEq A] {env : Env S A ℝ} {m : Manager S ℝ} {eps : ℝ} {cfg : Ments.Cfg S A} {lr : S → A → ℝ} {k : Nat} {s0 : S}
  {dp tm : Int} {st : St S A ℝ Soft Soft}

/-- C106 fails for RENTS: with the root at a positive depth, every trial of a worker begins, and then selecting an action at the root throws, whatever the
draw. -/
theorem c106_rents_throws (hcr : st.crashed = none) (hlen : st.ctxs.length = st.ws.length) {nr : DNode S A ℝ Soft} (hroot : st.dn[st.root]? = some nr)
    (hdep : 0 < nr.depth) {w : Nat} (hw : st.ws[w]? = some .idle) :
    ∃ st', step env m (rents eps cfg lr) st w .go = some (st', .began w) ∧ st'.ws[w]? = some (.sel st.root [] [] false) ∧ st'.dn[st.root]? = some nr ∧
      ∀ u iter, ∃ b, selectActionW eps cfg (selView env m st' nr)
        (rentsWS cfg (mentsQ cfg id (selView env m st' nr)) (selView env m st' nr) (st'.ctxOf w)) u iter = .error b := by
  have hlt := (List.getElem?_eq_some_iff.1 hw).1
  refine ⟨{ st with ws := st.ws.set w (.sel st.root [] [] false), ctxs := st.ctxs.set w {} }, ?_, List.getElem?_set_self hlt, hroot, ?_⟩
  · unfold step
    simp only [hcr, hw, Option.isSome_none, Bool.false_eq_true, if_false]
    simp [St.setCtx, St.setW, hcr]
  · intro u iter
    generalize hst : ({ st with ws := st.ws.set w (.sel st.root [] [] false), ctxs := st.ctxs.set w {} } : St S A ℝ Soft Soft) = st'
    have hctx : st'.ctxOf w = {} := by
      subst hst
      show ((st.ctxs.set w {})[w]?).getD {} = {}
      rw [List.getElem?_set_self (by omega)]; rfl
    have hpar : parentDistr (selView env m st' nr) ({} : Ctx A ℝ) = .error .noEntry := by
      unfold parentDistr
      rw [if_neg (show ¬ (selView env m st' nr).depth < 1 from by show ¬ nr.depth < 1; omega)]
      rfl
    rw [hctx]
    unfold rentsWS rentsWeights
    rw [hpar]
    cases qList (mentsQ cfg id (selView env m st' nr)) (selView env m st' nr).actions with
    | error e => exact ⟨e, rfl⟩
    | ok l => exact ⟨.noEntry, rfl⟩

/-- Idle, and the node after action 0 exists. -/
noncomputable def wMoved (st : St Nat Nat ℝ Unit Unit) : Bool :=
  st.ws.all idle? && decide (st.root = 0) && decide (childC st 0 0 = some 0) && decide (childD st 0 1 = some 1) && decide (st.ws.length = 1) &&
    decide (st.ctxs.length = 1) && decide (st.crashed = none) && st.dn[1]?.any fun nd => decide (nd.depth = 1)

/-- C106 fails for RENTS: there is a search with RENTS that, after one trial, is moved to the node its action led to; every further trial throws. -/
theorem c106_rents_false : ∃ st nr, Online wEnv wMgr (rents 0 wCfg wLr) 1 0 0 0 st ∧ Quiescent st ∧ st.dn[st.root]? = some nr ∧ nr.depth = 1 ∧
    ∃ st', step wEnv wMgr (rents 0 wCfg wLr) st 0 .go = some (st', .began 0) ∧ st'.ws[0]? = some (.sel st.root [] [] false) ∧
      st'.dn[st.root]? = some nr ∧ ∀ u iter, ∃ b, selectActionW 0 wCfg (selView wEnv wMgr st' nr)
        (rentsWS wCfg (mentsQ wCfg id (selView wEnv wMgr st' nr)) (selView wEnv wMgr st' nr) (st'.ctxOf 0)) u iter = .error b := by
  have htb : Leftover ([] : List ((Int × Nat) × Option Nat)) := by simp [Leftover]
  have hX := c95_rents_explores (env := wEnv) (m := wMgr) (cfg := wCfg) (eps := 0) (B := 2) (N := 40) (k := 1) (s0 := 0) (tm := 0) (lr := wLr)
    (iter := fun _ l => l) htb wGood wLive wNodup wLen le_rfl (fun _ l => List.Perm.refl l) (certain_ok (next := wNext) fun _ _ _ => rfl)
    (by rw [wExplore]; norm_num)
  obtain ⟨st, h, hr, hP⟩ := run_explores (rents_valid 0 wCfg wLr) hX (by rw [wExplore]; norm_num)
    (wTrial 0 1 0) (by decide) (fun st _ => wMoved st = true) (by
      have : ((execFrom wEnv wMgr (free Nat Nat ℝ 0) (init wEnv wMgr (free Nat Nat ℝ 0) 1 0 0 0 []) [] (wTrial 0 1 0)).any fun p => wMoved p.1) = true := by
        decide +kernel
      obtain ⟨p, h1, h2⟩ := (Option.any_eq_true _ _).1 this
      exact ⟨p, h1, h2⟩)
  simp only [wMoved, Bool.and_eq_true, List.all_eq_true, decide_eq_true_eq] at hP
  obtain ⟨⟨⟨⟨⟨⟨⟨p1, p2⟩, p3⟩, p4⟩, p5⟩, p6⟩, p7⟩, p8⟩ := hP
  obtain ⟨x, hx, hxd⟩ := (Option.any_eq_true _ _).1 p8
  have hx' : (st.dn[1]?).map DNode.erase = some x := by rw [← hx]; simp [St.erase]
  obtain ⟨nr, hnr, rfl⟩ := Option.map_eq_some_iff.1 hx'
  have hdep : nr.depth = 1 := of_decide_eq_true hxd
  have hq : Quiescent st := by
    intro w p hp
    have := p1 p (by simpa [St.erase] using List.mem_of_getElem? hp)
    cases p <;> simp [idle?] at this ⊢
  have hc : childC st 0 0 = some 0 := by
    rw [← p3]
    simp only [childC, St.erase, List.getElem?_map]
    cases st.dn[0]? <;> rfl
  have hd : childD st 0 1 = some 1 := by
    rw [← p4]
    simp only [childD, St.erase, List.getElem?_map]
    cases st.cn[0]? <;> rfl
  have ho : Online wEnv wMgr (rents 0 wCfg wLr) 1 0 0 0 st := by
    obtain ⟨ls, hl⟩ := hr
    exact online_exec ls .start hl
  have hw0 : st.ws[0]? = some .idle := by
    have hl : st.ws.length = 1 := by simpa [St.erase] using p5
    have := List.getElem?_eq_getElem (l := st.ws) (i := 0) (by omega)
    rw [this, hq 0 _ this]
  have hr0 : st.root = 0 := p2
  refine ⟨setRoot st 1, nr, ho.move hq (.inr ?_), hq, hnr, hdep, ?_⟩
  · rw [hr0]; exact .step hc hd
  · exact c106_rents_throws (st := setRoot st 1) (show st.crashed = none from p7)
      (by have h5 : st.ws.length = 1 := by simpa [St.erase] using p5
          have h6 : st.ctxs.length = 1 := by simpa [St.erase] using p6
          exact h6.trans h5.symm) hnr (by rw [hdep]; decide) hw0

end

/-! ## Mcts mode -/

section
variable {S A R X Y : Type} [DecidableEq S] [DecidableEq A] [Add R] [Zero R] {env : Env S A R} {m : Manager S R} {alg : Alg S A R X Y} {k : Nat} {s0 : S}
  {dp tm : Int} {st : St S A R X Y} {h : List (Event S A R)}

/-- The root is not a leaf, and without children it has not been visited. -/
def RootUnvisited (env : Env S A R) (m : Manager S R) (alg : Alg S A R X Y) (st : St S A R X Y) : Prop :=
  st.root = 0 ∧ ∃ nr, st.dn[0]? = some nr ∧ isLeaf env m nr = false ∧
    (nr.kids = [] → nr.visits = alg.initVisits ∧ ∀ (w : Nat) (p : Phase S A R), st.ws[w]? = some p → p = .idle ∨ p = .sel 0 [] [] false)

/-- A search from a new root that is not a leaf: a root without children has not been visited. -/
theorem root_unvisited (hl : env.isSink s0 = false) (hdp : dp < m.maxDepth) (hr : Reachable env m alg k s0 dp tm [] st h) : RootUnvisited env m alg st := by
  refine reach_induct (fun st _ => RootUnvisited env m alg st) ?_ ?_ hr
  · refine ⟨rfl, _, rfl, by simp [isLeaf, newD, hl, Int.not_le.2 hdp], fun _ => ⟨rfl, ?_⟩⟩
    intro w p hp
    simp only [init, List.getElem?_replicate] at hp
    split at hp
    · cases hp; exact .inl rfl
    · cases hp
  · rintro st h w e st' - ⟨h0, nr, h1, h2, h3⟩ - E
    have hle := le_eff E
    obtain ⟨nr', g1, g2, g3, g4, g5, ⟨l, g6⟩, _⟩ := hle.d _ _ h1
    refine ⟨by rw [hle.root, h0], nr', g1, by rw [← h2]; simp only [isLeaf, g2, g3], fun hk => ?_⟩
    have hk0 : nr.kids = [] := by rw [g6] at hk; exact (List.append_eq_nil_iff.1 hk).1
    obtain ⟨hv, hph⟩ := h3 hk0
    cases E with
    | crash h =>
      rw [h1] at g1; cases g1
      exact ⟨hv, hph⟩
    | began hw =>
      rw [h1] at g1; cases g1
      refine ⟨hv, fun v p hp => ?_⟩
      by_cases hvw : w = v
      · subst hvw
        rw [List.getElem?_set_self (List.getElem?_eq_some_iff.1 hw).1] at hp
        cases hp
        exact .inr (by rw [h0])
      · rw [List.getElem?_set_ne hvw] at hp
        exact hph v p hp
    | selOld hw hd hl hm ha hf =>
      rcases hph w _ hw with h | h
      · cases h
      · cases h
        rw [h1] at hd; cases hd
        rw [hk0] at hf; cases hf
    | selNew hw hd hl hm ha hf =>
      rcases hph w _ hw with h | h
      · cases h
      · cases h
        rw [List.getElem?_set_self (List.getElem?_eq_some_iff.1 h1).1] at g1
        cases g1
        simp at hk
    | ended hw hd hs =>
      rcases hph w _ hw with h | h
      · cases h
      · cases h
        rw [h1] at hd; cases hd
        rw [h2] at hs
        simp at hs
    | stepOld hw => rcases hph w _ hw with h | h <;> cases h
    | stepNew hw => rcases hph w _ hw with h | h <;> cases h
    | stepHit hw => rcases hph w _ hw with h | h <;> cases h
    | completed hw => rcases hph w _ hw with h | h <;> cases h
    | backedC hw => rcases hph w _ hw with h | h <;> cases h
    | backedD hw => rcases hph w _ hw with h | h <;> cases h

end

theorem toy_local : Toy.alg.Local where
  select _ _ _ _ _ := rfl
  agree _ _ _ _ _ _ h := h
  keys _ _ _ _ h _ := h
  backupD _ _ _ _ _ _ _ _ := rfl
  backupC _ _ _ _ _ _ _ _ := rfl

/-- At rest, with root 0 and the node for state 1 below it. -/
def toyMoved (st : St Nat Nat Int Unit Unit) : Bool :=
  st.ws.all (fun p => decide (p = .idle)) && decide (st.root = 0) && decide (childC st 0 0 = some 0) && decide (childD st 0 1 = some 1)

theorem toyMoved_spec {mcts table : Bool} {n : Nat} {st : St Nat Nat Int Unit Unit} {h : List (Event Nat Nat Int)}
    (hr : Reachable Toy.env (Toy.mgr mcts table n) Toy.alg 2 0 0 0 [] st h) (hm : toyMoved st = true) :
    Online Toy.env (Toy.mgr mcts table n) Toy.alg 2 0 0 0 st ∧ Quiescent st ∧ BelowRoot st 1 := by
  simp only [toyMoved, Bool.and_eq_true, List.all_eq_true, decide_eq_true_eq] at hm
  obtain ⟨⟨⟨h1, h2⟩, h3⟩, h4⟩ := hm
  obtain ⟨ls, hl⟩ := hr
  exact ⟨online_exec ls .start hl, fun w p hp => h1 p (List.mem_of_getElem? hp), .inr (by rw [h2]; exact .step h3 h4)⟩

/-- C106 fails in mcts mode without the extra look: after one trial, the node it created has one visit and no children, and no search started there has a
tree like that. -/
theorem c106_mcts_false : ∃ st nd, Online Toy.env (Toy.mgr true false 0) Toy.alg 2 0 0 0 st ∧ Quiescent st ∧ BelowRoot st 1 ∧ st.dn[1]? = some nd ∧
    ∀ σ h f g, Reachable Toy.env (Toy.mgr true false 0) Toy.alg 2 nd.state nd.depth nd.time [] σ h → ¬ SameBelow st 1 σ f g := by
  obtain ⟨st, h, hr, hP⟩ := Toy.run (mcts := true) (table := false) (mutexes := 0) (tb := [])
    ([(0, .go), (0, .act 0), (0, .obs 1)] ++ List.replicate 4 (0, .go))
    (fun st _ => toyMoved st && decide ((st.dn[1]?).map (fun (nd : DNode Nat Nat Int Unit) => (nd.state, nd.depth, nd.visits, nd.kids)) = some (1, 1, 1, []))) (by decide +kernel)
  simp only [Bool.and_eq_true, decide_eq_true_eq] at hP
  obtain ⟨h1, h2⟩ := hP
  obtain ⟨nd, hnd, h3⟩ := Option.map_eq_some_iff.1 h2
  simp only [Prod.mk.injEq] at h3
  obtain ⟨e1, e2, e3, e4⟩ := h3
  obtain ⟨ho, hq, hb⟩ := toyMoved_spec hr h1
  refine ⟨st, nd, ho, hq, hb, hnd, ?_⟩
  intro σ h f g hr' H
  rw [e1, e2] at hr'
  obtain ⟨g0, nr, g1, _, g3⟩ := root_unvisited (by decide) (by decide) hr'
  have hD := H.nodeD 0 nr g1
  have hf : f 0 = 1 := by have := H.root; rwa [g0] at this
  rw [hf, hnd] at hD
  have hn : nd = nr.renum g := by simpa using hD
  rw [hn] at e3 e4
  have hk : nr.kids = [] := by simpa [DNode.renum] using e4
  have hv := (g3 hk).1
  have : nr.visits = 1 := e3
  rw [hv] at this
  simp [Toy.alg] at this

/-- C106 fails with a transposition table: a node below the new root may have been visited more often than the root, since other trials reached it too. -/
theorem c106_table_false : ∃ st nd, Online Toy.env (Toy.mgr false true 1) Toy.alg 2 0 0 0 st ∧ Quiescent st ∧ BelowRoot st 1 ∧ st.dn[1]? = some nd ∧
    ∀ σ h f g, Reachable Toy.env (Toy.mgr false true 1) Toy.alg 2 nd.state nd.depth nd.time [] σ h → Quiescent σ → ¬ SameBelow st 1 σ f g := by
  obtain ⟨st, h, hr, hP⟩ := Toy.run (mcts := false) (table := true) (mutexes := 1) (tb := []) Toy.sched
    (fun st _ => toyMoved st && decide ((st.dn[1]?).map (fun (nd : DNode Nat Nat Int Unit) => nd.visits) = some 1) && decide (childC st 1 1 = some 1) && decide (childD st 1 3 = some 3) &&
      decide ((st.dn[3]?).map (fun (nd : DNode Nat Nat Int Unit) => nd.visits) = some 2)) (by decide +kernel)
  simp only [Bool.and_eq_true, decide_eq_true_eq] at hP
  obtain ⟨⟨⟨⟨h1, h2⟩, h3⟩, h4⟩, h5⟩ := hP
  obtain ⟨nd, hnd, e1⟩ := Option.map_eq_some_iff.1 h2
  obtain ⟨nd3, hnd3, e3⟩ := Option.map_eq_some_iff.1 h5
  obtain ⟨ho, hq, hb⟩ := toyMoved_spec hr h1
  refine ⟨st, nd, ho, hq, hb, hnd, ?_⟩
  intro σ h f g hr' hq' H
  have htb : Leftover ([] : List ((Int × Nat) × Option Nat)) := by simp [Leftover]
  have I := reach_inv Toy.alg_valid htb hr'
  obtain ⟨j, hj, hf⟩ := c106_all_nodes H (by obtain ⟨nr, g1, _⟩ := root_node I.tree; exact ⟨nr, g1⟩)
    (fun i nd a c k1 k2 => by
      obtain ⟨_, nc, _, k4, _⟩ := childC_facts I.tree (childC_of_mem I.tree k1 k2)
      exact ⟨nc, k4⟩)
    (fun i nc o e k1 k2 => by
      obtain ⟨_, nd, _, k4, _⟩ := childD_facts I.tree (childD_of_mem I.tree k1 k2)
      exact ⟨nd, k4⟩) (.step h3 h4 : Desc st 1 3)
  have hn := List.getElem?_eq_getElem hj
  have hv := c13_visits_at_most_trials Toy.alg_valid htb hr' hn
  have hD := H.nodeD j _ hn
  rw [hf, hnd3] at hD
  have hv3 : (σ.dn[j]).visits = 2 := by
    have : nd3 = (σ.dn[j]).renum g := by simpa using hD
    rw [this] at e3; exact e3
  obtain ⟨hroot, hbeg⟩ := c13_root_visits Toy.alg_valid htb hr' hq'
  obtain ⟨nr, g1, _⟩ := root_node I.tree
  have hDr := H.nodeD _ _ g1
  rw [H.root, hnd] at hDr
  have hvr : nr.visits = 1 := by
    have : nd = nr.renum g := by simpa using hDr
    rw [this] at e1; exact e1
  have : visitsD σ σ.root = 1 := by simp [visitsD, g1, hvr]
  simp only [Toy.alg] at hroot hv
  omega

/-! ## The hypotheses are met -/

/-- A search that finishes two trials, moves its root to a child, and finishes another trial there. -/
def toyOnline (mcts : Bool) : Option (St Nat Nat Int Unit Unit × St Nat Nat Int Unit Unit) :=
  (Toy.final mcts false 0 [] (if mcts then [(0, .go), (0, .act 0), (0, .obs 1)] ++ List.replicate 4 (0, .go) else Toy.sched)).bind fun p =>
    (execFrom Toy.env (Toy.mgr mcts false 0) Toy.alg (setRoot p.1 1) p.2
      (if mcts then [(0, .go), (0, .act 1), (0, .obs 3)] ++ List.replicate 4 (0, .go)
       else [(0, .go), (0, .act 1), (0, .obs 3), (0, .act 0), (0, .obs 5)] ++ List.replicate 6 (0, .go))).map fun q => (p.1, q.1)

theorem toyOnline_spec (mcts : Bool) : ∃ st st' h h' ls, Online Toy.env (Toy.mgr mcts false 0) Toy.alg 2 0 0 0 st ∧ Quiescent st ∧ BelowRoot st 1 ∧
    execFrom Toy.env (Toy.mgr mcts false 0) Toy.alg (setRoot st 1) h ls = some (st', h') ∧ ls ≠ [] ∧ st'.root = 1 ∧ visitsD st' 1 = 2 ∧
    Online Toy.env (Toy.mgr mcts false 0) Toy.alg 2 0 0 0 st' ∧ Quiescent st' := by
  have hx : ((toyOnline mcts).any fun p => toyMoved p.1 && decide (p.2.root = 1) && decide (visitsD p.2 1 = 2) && p.2.ws.all (fun p => decide (p = .idle))) = true := by
    cases mcts <;> decide +kernel
  obtain ⟨⟨st, st'⟩, h1, h2⟩ := (Option.any_eq_true _ _).1 hx
  unfold toyOnline at h1
  obtain ⟨⟨st0, h⟩, h3, h4⟩ := Option.bind_eq_some_iff.1 h1
  obtain ⟨⟨st1, h'⟩, h5, h6⟩ := Option.map_eq_some_iff.1 h4
  simp only [Prod.mk.injEq] at h6
  obtain ⟨rfl, rfl⟩ := h6
  simp only [Bool.and_eq_true, decide_eq_true_eq, List.all_eq_true] at h2
  obtain ⟨⟨⟨k1, k2⟩, k3⟩, k4⟩ := h2
  obtain ⟨ho, hq, hb⟩ := toyMoved_spec ⟨_, h3⟩ k1
  exact ⟨st0, st1, h, h', _, ho, hq, hb, h5, by cases mcts <;> decide, k2, k3, online_exec _ (ho.move hq hb) h5, fun w p hp => k4 p (List.mem_of_getElem? hp)⟩

/-- After moving the root and going on, the tree below the root is that of a search from a new node. -/
example : ∃ st nd σ h f g, Online Toy.env (Toy.mgr false false 0) Toy.alg 2 0 0 0 st ∧ Quiescent st ∧ st.root = 1 ∧ visitsD st 1 = 2 ∧ st.dn[1]? = some nd ∧
    Reachable Toy.env (Toy.mgr false false 0) Toy.alg 2 nd.state nd.depth nd.time [] σ h ∧ SameBelow st 1 σ f g ∧ Quiescent σ := by
  obtain ⟨_, st', _, _, _, _, _, _, _, _, h1, h2, h3, h4⟩ := toyOnline_spec false
  obtain ⟨nd, σ, h, f, g, g1, g2, g3, g4⟩ := c106_fresh toy_local rfl rfl h3 (.inl rfl)
  rw [h1] at g1 g3
  exact ⟨st', nd, σ, h, f, g, h3, h4, h1, h2, g1, g2, g3, g4 h4⟩

/-- In mcts mode, with the extra look. -/
example : ∃ st nd σ h f g, Online Toy.env (Toy.mgr true false 0) Toy.alg 2 0 0 0 st ∧ Quiescent st ∧ st.root = 1 ∧ visitsD st 1 = 2 ∧ st.dn[1]? = some nd ∧
    Fresh Toy.env (Toy.mgr true false 0) Toy.alg 2 nd.state nd.depth nd.time σ h ∧ SameBelow st 1 σ f g ∧ Quiescent σ := by
  obtain ⟨_, st', _, _, _, _, _, _, _, _, h1, h2, h3, h4⟩ := toyOnline_spec true
  obtain ⟨nd, σ, h, f, g, g1, g2, g3, g4⟩ := c106_mcts toy_local rfl h3 (.inl rfl)
  rw [h1] at g1 g3
  exact ⟨st', nd, σ, h, f, g, h3, h4, h1, h2, g1, g2, g3, g4 h4⟩

/-- The schedule of another trial is possible both after moving the root and in the search from a new node. -/
example : ∃ st σ hσ ls nd, Online Toy.env (Toy.mgr false false 0) Toy.alg 2 0 0 0 st ∧ st.dn[1]? = some nd ∧
    Fresh Toy.env (Toy.mgr false false 0) Toy.alg 2 nd.state nd.depth nd.time σ hσ ∧
    (execFrom Toy.env (Toy.mgr false false 0) Toy.alg (setRoot st 1) [] ls).isSome ∧ (execFrom Toy.env (Toy.mgr false false 0) Toy.alg σ hσ ls).isSome ∧ ls ≠ [] := by
  obtain ⟨st, st', h, h', ls, h1, h2, h3, h4, h5, _⟩ := toyOnline_spec false
  obtain ⟨nd, σ, hσ, g1, g2, _, g4⟩ := c106_goes_on toy_local rfl h1 h2 h3
  have hs : (execFrom Toy.env (Toy.mgr false false 0) Toy.alg σ hσ ls).isSome := ((g4 ls h).1).1 (by rw [h4]; rfl)
  refine ⟨st, σ, hσ, ls, nd, h1, g1, g2, ((g4 ls []).1).2 hs, hs, h5⟩

end Verif.Search
