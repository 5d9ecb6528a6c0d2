import Verif.Proofs.ReuseSim

/-! # A step of a search whose root moves, and the corresponding step of a search started at a node below -/

namespace Verif.Search

set_option linter.unusedSimpArgs false
set_option linter.unusedSectionVars false

variable {S A R X Y : Type} [DecidableEq S] [DecidableEq A] [Add R] [Zero R]

/-- The search started at `d` stays or makes a step of the same worker. -/
def Matched (env : Env S A R) (m : Manager S R) (alg : Alg S A R X Y) (out : Prop) (dp : Int) (st' : St S A R X Y) (d : Nat) (σ : St S A R X Y)
    (w : Nat) (e : Event S A R) : Prop :=
  ∃ σ' f' g', Rel m out dp st' d σ' f' g' ∧
    ((σ' = σ ∧ out) ∨ ∃ e', Eff env m alg σ w e' σ' ∧ (∀ v x, e' ≠ .crash v x) ∧ (out ∨ chOf e' = chOf e))

variable {env : Env S A R} {m : Manager S R} {alg : Alg S A R X Y} {out : Prop} {dp : Int} {st : St S A R X Y} {d : Nat} {σ : St S A R X Y}
  {f g : Nat → Nat} {w : Nat}

theorem OutP.append {nD nC : Nat} {l : List (Nat × Nat)} {p : Nat × Nat} (h : OutP f g nD nC l) (h1 : ∀ j < nD, f j ≠ p.1) (h2 : ∀ j < nC, g j ≠ p.2) :
    OutP f g nD nC (l ++ [p]) := by
  intro q hq
  rcases List.mem_append.1 hq with hq | hq
  · exact h q hq
  · simp at hq; subst hq; exact ⟨h1, h2⟩

theorem InP.append {nD nC : Nat} {l : List (Nat × Nat)} {p : Nat × Nat} (h : InP nD nC l) (h1 : p.1 < nD) (h2 : p.2 < nC) : InP nD nC (l ++ [p]) := by
  intro q hq
  rcases List.mem_append.1 hq with hq | hq
  · exact h q hq
  · simp at hq; subst hq; exact ⟨h1, h2⟩

theorem sim_began (W : WF st) (Rl : Rel m out dp st d σ f g) (hout : st.root ≠ d → out) (hw : st.ws[w]? = some .idle) :
    Matched env m alg out dp { st with ws := st.ws.set w (.sel st.root [] [] false), ctxs := st.ctxs.set w {} } d σ w (.began w) := by
  obtain ⟨q, hq, hP⟩ := Rl.ph w _ hw
  cases hP
  by_cases hr : st.root = d
  · refine ⟨{ σ with ws := σ.ws.set w (.sel σ.root [] [] false), ctxs := σ.ctxs.set w {} }, f, g, ?_, .inr ⟨.began w, .began hq, by simp, .inr rfl⟩⟩
    refine rel_go W Rl Rl.H rfl hw rfl (.inr ⟨_, rfl⟩) rfl hq rfl (.inr ⟨_, rfl⟩) rfl (fun _ _ => rfl) (fun _ _ => rfl) (Nat.le_refl _) (Nat.le_refl _)
      (fun j h1 h2 => by simp at h2; omega) (fun j h1 h2 => by simp at h2; omega) (ctxSelf hw W.len rfl) (ctxSelf hq Rl.lenX rfl) ?_
    have hf0 : f 0 = st.root := by rw [Rl.H.root, hr]
    have := PRel.selIn (S := S) (A := A) (R := R) (mcts := m.mctsMode) (out := out) (dp := dp) (f := f) (g := g) (nD := σ.dn.length) (nC := σ.cn.length) (i := 0)
      (pre := []) (path' := []) (rs0 := []) (rs' := []) (new := false) (new' := false) Rl.H.pos (fun p hp => by simp at hp) (.inr rfl)
      (fun p hp => by simp at hp) rfl (Ctx.AgreeFrom.refl dp ({} : Ctx A R)) (fun _ => rfl)
    simp only [hf0, List.map_nil, List.append_nil] at this
    rw [Rl.sroot]
    exact this
  · have o := hout hr
    refine ⟨σ, f, g, ?_, .inl ⟨rfl, o⟩⟩
    refine rel_stay W Rl Rl.H rfl hw rfl (.inr ⟨_, rfl⟩) hq (.selOut o (fun j hj h => ?_) (fun p hp => by simp at hp))
    have := Rl.root j hj h
    subst this
    exact hr (by rw [← h, Rl.H.root])

theorem in_node (Rl : Rel m out dp st d σ f g) {i : Nat} {nd : DNode S A R X} (hi : i < σ.dn.length) (hd : st.dn[f i]? = some nd) :
    ∃ nd', σ.dn[i]? = some nd' ∧ nd = nd'.renum g := by
  refine ⟨_, List.getElem?_eq_getElem hi, ?_⟩
  rw [Rl.H.nodeD i _ (List.getElem?_eq_getElem hi)] at hd
  cases hd; rfl

theorem in_nodeC (Rl : Rel m out dp st d σ f g) {i : Nat} {nc : CNode S A R Y} (hi : i < σ.cn.length) (hd : st.cn[g i]? = some nc) :
    ∃ nc', σ.cn[i]? = some nc' ∧ nc = nc'.renum f := by
  refine ⟨_, List.getElem?_eq_getElem hi, ?_⟩
  rw [Rl.H.nodeC i _ (List.getElem?_eq_getElem hi)] at hd
  cases hd; rfl

/-- Updates of nodes outside. -/
theorem out_setD (H : HRel dp st.dn st.cn d σ.dn σ.cn f g) {cur : Nat} {nd nd' : DNode S A R X} (hd : st.dn[cur]? = some nd)
    (ho : ∀ j < σ.dn.length, f j ≠ cur) (hk : nd'.kids = nd.kids) : HRel dp (st.dn.set cur nd') st.cn d σ.dn σ.cn f g := by
  have := H.outSetD (nd' := nd') hd ho (n := []) (by simp) (fun p hp => .inl (hk ▸ hp))
  simpa using this

theorem out_setC (H : HRel dp st.dn st.cn d σ.dn σ.cn f g) {cur : Nat} {nc nc' : CNode S A R Y} (hc : st.cn[cur]? = some nc)
    (ho : ∀ j < σ.cn.length, g j ≠ cur) (hk : nc'.kids = nc.kids) : HRel dp st.dn (st.cn.set cur nc') d σ.dn σ.cn f g := by
  have := H.outSetC (nc' := nc') hc ho (n := []) (by simp) (fun p hp => .inl (hk ▸ hp))
  simpa using this

theorem sim_selOld (L : alg.Local) (W : WF st) (Rl : Rel m out dp st d σ f g) {cur : Nat} {path : List (Nat × Nat)} {rs : List R} {new : Bool}
    {nd : DNode S A R X} {a : A} {c : Nat} (hw : st.ws[w]? = some (.sel cur path rs new)) (hd : st.dn[cur]? = some nd)
    (hl : isLeaf env m nd = false) (hm : (m.mctsMode && new) = false)
    (ha : alg.canSelect (viewOf env m st { nd with visits := nd.visits + 1, x := alg.visitD false nd.x }) (st.ctxOf w) a = true)
    (hf : find? a nd.kids = some c) :
    Matched env m alg out dp
      { st with dn := st.dn.set cur { nd with visits := nd.visits + 1, x := alg.visitD false nd.x },
                ws := st.ws.set w (.samp cur a c path rs new),
                ctxs := st.ctxs.set w (alg.selCtx (viewOf env m st { nd with visits := nd.visits + 1, x := alg.visitD false nd.x }) (st.ctxOf w) a) }
      d σ w (.selected w cur a c) := by
  obtain ⟨q, hq, hP⟩ := Rl.ph w _ hw
  cases hP with
  | selOut o h hp =>
    refine ⟨σ, f, g, ?_, .inl ⟨rfl, o⟩⟩
    have hmc : m.mctsMode = true → new = false := by intro hmc; simpa [hmc] using hm
    exact rel_stay W Rl (out_setD Rl.H hd h rfl) rfl hw rfl (.inr ⟨_, rfl⟩) hq
      (.sampOut o h (fun j hj => Rl.H.outD _ _ hd h (a, c) (find?_mem hf) j hj) hp hmc)
  | @selIn i pre path' rs0 rs' _ new' hi hp hpo hB hlen hc hn =>
    obtain ⟨nd', hd', rfl⟩ := in_node Rl hi hd
    have hb := Rl.H.bD i nd' hd'
    have hv : viewOf env m st { nd'.renum g with visits := nd'.visits + 1, x := alg.visitD false nd'.x } =
        viewOf env m σ { nd' with visits := nd'.visits + 1, x := alg.visitD false nd'.x } :=
      view_eq env m Rl.H (nd := { nd' with visits := nd'.visits + 1, x := alg.visitD false nd'.x }) hb
    have hdep : dp ≤ (viewOf env m σ { nd' with visits := nd'.visits + 1, x := alg.visitD false nd'.x }).depth := Rl.H.depD i nd' hd'
    have ha' : alg.canSelect (viewOf env m σ { nd' with visits := nd'.visits + 1, x := alg.visitD false nd'.x }) (σ.ctxOf w) a = true := by
      rw [← ha]
      show _ = alg.canSelect (viewOf env m st { nd'.renum g with visits := nd'.visits + 1, x := alg.visitD false nd'.x }) (st.ctxOf w) a
      rw [hv]
      exact (L.select _ _ _ _ (hc.mono hdep)).symm
    have hff : (find? a nd'.kids).map g = some c := by rw [← find?_renum]; exact hf
    obtain ⟨j, hj, rfl⟩ := Option.map_eq_some_iff.1 hff
    have hm' : (m.mctsMode && new') = false := by
      cases hmm : m.mctsMode with
      | false => rfl
      | true => rw [hn hmm]; rw [hmm] at hm; exact hm
    refine ⟨{ σ with dn := σ.dn.set i { nd' with visits := nd'.visits + 1, x := alg.visitD false nd'.x },
                     ws := σ.ws.set w (.samp i a j path' rs' new'),
                     ctxs := σ.ctxs.set w (alg.selCtx (viewOf env m σ { nd' with visits := nd'.visits + 1, x := alg.visitD false nd'.x }) (σ.ctxOf w) a) },
      f, g, ?_, .inr ⟨_, .selOld hq hd' hl hm' ha' hj, by simp, .inr rfl⟩⟩
    refine rel_go W Rl (Rl.H.inSetD hd' (nd' := { nd' with visits := nd'.visits + 1, x := alg.visitD false nd'.x }) hb rfl) rfl hw rfl (.inr ⟨_, rfl⟩)
      rfl hq rfl (.inr ⟨_, rfl⟩) rfl (fun _ _ => rfl) (fun _ _ => rfl) (by simp) (by simp)
      (fun j h1 h2 => by simp at h2; omega) (fun j h1 h2 => by simp at h2; omega) (ctxSelf hw W.len rfl) (ctxSelf hq Rl.lenX rfl) ?_
    simp only [List.length_set]
    refine .sampIn hi (hb _ (find?_mem hj)) hp hpo hB hlen ?_ hn
    show Ctx.AgreeFrom dp (alg.selCtx (viewOf env m st { nd'.renum g with visits := nd'.visits + 1, x := alg.visitD false nd'.x }) _ a) _
    rw [hv]
    exact L.agree _ _ _ _ _ hdep hc

theorem bigD' (W : WF st) : ∀ (i : Nat) nd, st.dn[i]? = some nd → ∀ p ∈ nd.kids, p.2 < st.cn.length := by
  intro i nd h p hp
  obtain ⟨nc, h1, _⟩ := W.kidD i nd p.1 p.2 h hp
  exact (List.getElem?_eq_some_iff.1 h1).1

theorem bigC' (W : WF st) : ∀ (i : Nat) nc, st.cn[i]? = some nc → ∀ p ∈ nc.kids, p.2 < st.dn.length := by
  intro i nc h p hp
  obtain ⟨nd, h1, _⟩ := W.kidC i nc p.1 p.2 h hp
  exact (List.getElem?_eq_some_iff.1 h1).1

theorem sim_selNew (L : alg.Local) (W : WF st) (Rl : Rel m out dp st d σ f g) {cur : Nat} {path : List (Nat × Nat)} {rs : List R} {new : Bool}
    {nd : DNode S A R X} {a : A} (hw : st.ws[w]? = some (.sel cur path rs new)) (hd : st.dn[cur]? = some nd)
    (hl : isLeaf env m nd = false) (hm : (m.mctsMode && new) = false)
    (ha : alg.canSelect (viewOf env m st { nd with visits := nd.visits + 1, x := alg.visitD false nd.x }) (st.ctxOf w) a = true)
    (hf : find? a nd.kids = none) :
    Matched env m alg out dp
      { st with dn := st.dn.set cur { nd with visits := nd.visits + 1, x := alg.visitD false nd.x, kids := nd.kids ++ [(a, st.cn.length)] },
                cn := st.cn ++ [newC alg nd a],
                ws := st.ws.set w (.samp cur a st.cn.length path rs new),
                ctxs := st.ctxs.set w (alg.selCtx (viewOf env m st { nd with visits := nd.visits + 1, x := alg.visitD false nd.x }) (st.ctxOf w) a) }
      d σ w (.selected w cur a st.cn.length) := by
  obtain ⟨q, hq, hP⟩ := Rl.ph w _ hw
  cases hP with
  | selOut o h hp =>
    refine ⟨σ, f, g, ?_, .inl ⟨rfl, o⟩⟩
    have hmc : m.mctsMode = true → new = false := by intro hmc; simpa [hmc] using hm
    refine rel_stay W Rl (Rl.H.outSetD hd h (n := [newC alg nd a]) (by simp [Search.newC]) ?_) rfl hw rfl (.inr ⟨_, rfl⟩) hq
      (.sampOut o h (fun j hj => Nat.ne_of_lt (Rl.H.ltC hj)) hp hmc)
    intro p hp
    rcases List.mem_append.1 hp with h | h
    · exact .inl h
    · simp at h; subst h; exact .inr rfl
  | @selIn i pre path' rs0 rs' _ new' hi hp hpo hB hlen hc hn =>
    obtain ⟨nd', hd', rfl⟩ := in_node Rl hi hd
    have hb := Rl.H.bD i nd' hd'
    have hv : viewOf env m st { nd'.renum g with visits := nd'.visits + 1, x := alg.visitD false nd'.x } =
        viewOf env m σ { nd' with visits := nd'.visits + 1, x := alg.visitD false nd'.x } :=
      view_eq env m Rl.H (nd := { nd' with visits := nd'.visits + 1, x := alg.visitD false nd'.x }) hb
    have hdep : dp ≤ (viewOf env m σ { nd' with visits := nd'.visits + 1, x := alg.visitD false nd'.x }).depth := Rl.H.depD i nd' hd'
    have ha' : alg.canSelect (viewOf env m σ { nd' with visits := nd'.visits + 1, x := alg.visitD false nd'.x }) (σ.ctxOf w) a = true := by
      rw [← ha]
      show _ = alg.canSelect (viewOf env m st { nd'.renum g with visits := nd'.visits + 1, x := alg.visitD false nd'.x }) (st.ctxOf w) a
      rw [hv]
      exact (L.select _ _ _ _ (hc.mono hdep)).symm
    have hff : (find? a nd'.kids).map g = none := by rw [← find?_renum]; exact hf
    have hj : find? a nd'.kids = none := Option.map_eq_none_iff.1 hff
    have hm' : (m.mctsMode && new') = false := by
      cases hmm : m.mctsMode with
      | false => rfl
      | true => rw [hn hmm]; rw [hmm] at hm; exact hm
    have hup : ∀ j < σ.cn.length, Function.update g σ.cn.length st.cn.length j = g j := fun j hj => Function.update_of_ne (Nat.ne_of_lt hj) _ _
    have hself : Function.update g σ.cn.length st.cn.length σ.cn.length = st.cn.length := Function.update_self ..
    have hH := (Rl.H.newC (Search.newC alg nd' a) rfl (Rl.H.depD i nd' hd') (bigD' W)).inSetD hd'
      (nd' := { nd' with visits := nd'.visits + 1, x := alg.visitD false nd'.x, kids := nd'.kids ++ [(a, σ.cn.length)] })
      (by
        intro p hp
        rcases List.mem_append.1 hp with h | h
        · have := hb p h; simp; omega
        · simp at h; subst h; simp) rfl
    have hre : ({ nd' with visits := nd'.visits + 1, x := alg.visitD false nd'.x, kids := nd'.kids ++ [(a, σ.cn.length)] } : DNode S A R X).renum
          (Function.update g σ.cn.length st.cn.length) =
        { nd'.renum g with visits := nd'.visits + 1, x := alg.visitD false nd'.x, kids := (nd'.renum g).kids ++ [(a, st.cn.length)] } := by
      have : nd'.kids.map (fun p => (p.1, Function.update g σ.cn.length st.cn.length p.2)) = nd'.kids.map (fun p => (p.1, g p.2)) :=
        List.map_congr_left fun p hp => by rw [hup _ (hb p hp)]
      simp only [DNode.renum, List.map_append, this, List.map_cons, List.map_nil, hself]
    rw [hre] at hH
    refine ⟨{ σ with dn := σ.dn.set i { nd' with visits := nd'.visits + 1, x := alg.visitD false nd'.x, kids := nd'.kids ++ [(a, σ.cn.length)] },
                     cn := σ.cn ++ [Search.newC alg nd' a],
                     ws := σ.ws.set w (.samp i a σ.cn.length path' rs' new'),
                     ctxs := σ.ctxs.set w (alg.selCtx (viewOf env m σ { nd' with visits := nd'.visits + 1, x := alg.visitD false nd'.x }) (σ.ctxOf w) a) },
      f, Function.update g σ.cn.length st.cn.length, ?_, .inr ⟨_, .selNew hq hd' hl hm' ha' hj, by simp, .inr rfl⟩⟩
    refine rel_go W Rl hH rfl hw rfl (.inr ⟨_, rfl⟩) rfl hq rfl (.inr ⟨_, rfl⟩) rfl (fun _ _ => rfl) hup (by simp) (by simp)
      (fun j h1 h2 => by simp at h2; omega) (fun j h1 h2 => by
        simp at h2
        obtain rfl : j = σ.cn.length := by omega
        rw [hself]; exact Nat.le_refl _) (ctxSelf hw W.len rfl) (ctxSelf hq Rl.lenX rfl) ?_
    simp only [List.length_set, List.length_append, List.length_singleton]
    have hA : Ctx.AgreeFrom dp (alg.selCtx (viewOf env m st { nd'.renum g with visits := nd'.visits + 1, x := alg.visitD false nd'.x }) (st.ctxOf w) a)
        (alg.selCtx (viewOf env m σ { nd' with visits := nd'.visits + 1, x := alg.visitD false nd'.x }) (σ.ctxOf w) a) := by
      rw [hv]
      exact L.agree _ _ _ _ _ hdep hc
    obtain ⟨_, hBB, _⟩ := W.ph _ _ hw
    have hp' : OutP f (Function.update g σ.cn.length st.cn.length) σ.dn.length (σ.cn.length + 1) pre := by
      intro p hp1
      refine ⟨(hp p hp1).1, fun j hj => ?_⟩
      rcases Nat.lt_or_ge j σ.cn.length with h1 | h1
      · rw [hup j h1]; exact (hp p hp1).2 j h1
      · obtain rfl : j = σ.cn.length := by omega
        rw [hself]
        have := (hBB p (List.mem_append_left _ hp1)).2
        omega
    have := PRel.sampIn (S := S) (A := A) (R := R) (mcts := m.mctsMode) (out := out) (dp := dp) (f := f) (g := Function.update g σ.cn.length st.cn.length)
      (nD := σ.dn.length) (nC := σ.cn.length + 1) (a := a) (j := σ.cn.length) (rs0 := rs0) (new := new) (new' := new') hi (by omega) hp' hpo
      (hB.mono (Nat.le_refl _) (by omega)) hlen hA hn
    rw [hself, ← map_ren_congr (fun _ _ => rfl) hup hB] at this
    exact this

theorem sim_ended (W : WF st) (Rl : Rel m out dp st d σ f g) {cur : Nat} {path : List (Nat × Nat)} {rs : List R} {new : Bool}
    {nd : DNode S A R X} (hw : st.ws[w]? = some (.sel cur path rs new)) (hd : st.dn[cur]? = some nd)
    (hs : isLeaf env m nd = true ∨ (m.mctsMode && new) = true) :
    Matched env m alg out dp
      { st with dn := st.dn.set cur { nd with visits := nd.visits + 1, x := alg.visitD (isLeaf env m nd) nd.x },
                ws := st.ws.set w (.back path rs [nd.heur] nd.heur (total (rs ++ [nd.heur]))) }
      d σ w (.ended w cur nd.heur) := by
  obtain ⟨q, hq, hP⟩ := Rl.ph w _ hw
  cases hP with
  | selOut o h hp =>
    refine ⟨σ, f, g, ?_, .inl ⟨rfl, o⟩⟩
    exact rel_stay W Rl (out_setD Rl.H hd h rfl) rfl hw rfl (.inl rfl) hq (.backOut hp (.inl ⟨o, rfl⟩))
  | @selIn i pre path' rs0 rs' _ new' hi hp hpo hB hlen hc hn =>
    obtain ⟨nd', hd', rfl⟩ := in_node Rl hi hd
    have hb := Rl.H.bD i nd' hd'
    have hs' : isLeaf env m nd' = true ∨ (m.mctsMode && new') = true := by
      rcases hs with h | h
      · exact .inl h
      · right
        rw [Bool.and_eq_true] at h
        rw [hn h.1]; simpa using h
    refine ⟨_, f, g, ?_, .inr ⟨_, .ended hq hd' hs', by simp, .inr rfl⟩⟩
    refine rel_go W Rl (Rl.H.inSetD hd' (nd' := { nd' with visits := nd'.visits + 1, x := alg.visitD (isLeaf env m nd') nd'.x }) hb rfl) rfl hw rfl (.inl rfl)
      rfl hq rfl (.inl rfl) rfl (fun _ _ => rfl) (fun _ _ => rfl) (by simp) (by simp)
      (fun j h1 h2 => by simp at h2; omega) (fun j h1 h2 => by simp at h2; omega) (ctxSame rfl) (ctxSame rfl) ?_
    simp only [List.length_set]
    exact .backIn hp hpo hB hlen hc

/-- A worker outside enters the part below `d`. -/
theorem enter {st' : St S A R X Y} (W : WF st) (W' : WF st') (Rl : Rel m out dp st d σ f g) (hdp : ∃ nd, st'.dn[d]? = some nd ∧ nd.depth = dp)
    (o : out) {p0 : Phase S A R} {path : List (Nat × Nat)} {rs : List R} {new : Bool} {e : Event S A R} (hw : st.ws[w]? = some p0)
    (hq : σ.ws[w]? = some .idle) (H : HRel dp st'.dn st'.cn d σ.dn σ.cn f g) (hr : st'.root = st.root)
    (hws : st'.ws = st.ws.set w (.sel d path rs new)) (hcx : st'.ctxs = st.ctxs) (hp : OutP f g σ.dn.length σ.cn.length path)
    (hn : m.mctsMode = true → new = false) : Matched env m alg out dp st' d σ w e := by
  refine ⟨_, f, g, ?_, .inr ⟨_, .began hq, by simp, .inl o⟩⟩
  refine rel_go W Rl H hr hw hws (.inl hcx) rfl hq rfl (.inr ⟨_, rfl⟩) rfl (fun _ _ => rfl) (fun _ _ => rfl) (Nat.le_refl _) (Nat.le_refl _)
    (fun j h1 h2 => by simp at h2; omega) (fun j h1 h2 => by simp at h2; omega) rfl (ctxSelf hq Rl.lenX rfl) ?_
  obtain ⟨⟨nd, h1, h2⟩, _⟩ := W'.ph w _ (setSelf hw hws)
  obtain ⟨nd', h3, h4⟩ := hdp
  rw [h1] at h3; cases h3
  have := PRel.selIn (S := S) (A := A) (R := R) (mcts := m.mctsMode) (out := out) (dp := dp) (f := f) (g := g) (nD := σ.dn.length) (nC := σ.cn.length) (i := 0)
    (pre := path) (path' := []) (rs0 := rs) (rs' := []) (new := new) (new' := false) Rl.H.pos hp (.inl o)
    (fun p hp => by simp at hp) rfl (Ctx.AgreeFrom.empty (c := st'.ctxOf w) (h4 ▸ h2)) (fun hmc => (hn hmc).symm)
  simp only [Rl.H.root, List.map_nil, List.append_nil] at this
  rw [Rl.sroot]
  exact this

theorem sim_stepOld (W : WF st) (Rl : Rel m out dp st d σ f g) (hdp : ∃ nd, st.dn[d]? = some nd ∧ nd.depth = dp)
    {cur : Nat} {a : A} {c : Nat} {path : List (Nat × Nat)} {rs : List R} {new : Bool}
    {nc : CNode S A R Y} {nd : DNode S A R X} {o : S} {d' : Nat} (hw : st.ws[w]? = some (.samp cur a c path rs new))
    (hc : st.cn[c]? = some nc) (hd : st.dn[cur]? = some nd) (ho : o ∈ env.succ nc.state nc.action) (hf : find? o nc.kids = some d')
    (W' : WF { st with cn := st.cn.set c { nc with visits := nc.visits + 1, y := alg.visitC nc.y },
                       ws := st.ws.set w (.sel d' (path ++ [(cur, c)]) (rs ++ [env.reward nd.state a o]) new) }) :
    Matched env m alg out dp
      { st with cn := st.cn.set c { nc with visits := nc.visits + 1, y := alg.visitC nc.y },
                ws := st.ws.set w (.sel d' (path ++ [(cur, c)]) (rs ++ [env.reward nd.state a o]) new) }
      d σ w (.stepped w cur a c o d' (env.reward nd.state a o) false) := by
  obtain ⟨q, hq, hP⟩ := Rl.ph w _ hw
  cases hP with
  | sampOut oo h h2 hp hn =>
    have H := out_setC (nc' := { nc with visits := nc.visits + 1, y := alg.visitC nc.y }) Rl.H hc h2 rfl
    by_cases hin : ∃ j < σ.dn.length, f j = d'
    · obtain ⟨j, hj, hfj⟩ := hin
      have := Rl.H.outC _ _ hc h2 (o, d') (find?_mem hf) j hj hfj
      subst this
      rw [Rl.H.root] at hfj
      subst hfj
      exact enter W W' Rl hdp oo hw hq H rfl rfl rfl (hp.append h h2) hn
    · have hno : ∀ j < σ.dn.length, f j ≠ d' := fun j hj h => hin ⟨j, hj, h⟩
      refine ⟨σ, f, g, ?_, .inl ⟨rfl, oo⟩⟩
      exact rel_stay W Rl H rfl hw rfl (.inl rfl) hq (.selOut oo hno (hp.append h h2))
  | @sampIn i _ j pre path' rs0 rs' _ new' hi hj hp hpo hB hlen hcc hn =>
    obtain ⟨nd', hd', rfl⟩ := in_node Rl hi hd
    obtain ⟨nc', hc', rfl⟩ := in_nodeC Rl hj hc
    have hb := Rl.H.bC j nc' hc'
    have hff : (find? o nc'.kids).map f = some d' := by rw [← find?_renum]; exact hf
    obtain ⟨k, hk, rfl⟩ := Option.map_eq_some_iff.1 hff
    refine ⟨_, f, g, ?_, .inr ⟨_, .stepOld hq hc' hd' ho hk, by simp, .inr rfl⟩⟩
    refine rel_go W Rl (Rl.H.inSetC hc' (nc' := { nc' with visits := nc'.visits + 1, y := alg.visitC nc'.y }) hb rfl) rfl hw rfl (.inl rfl)
      rfl hq rfl (.inl rfl) rfl (fun _ _ => rfl) (fun _ _ => rfl) (by simp) (by simp)
      (fun j h1 h2 => by simp at h2; omega) (fun j h1 h2 => by simp at h2; omega) (ctxSame rfl) (ctxSame rfl) ?_
    simp only [List.length_set]
    have := PRel.selIn (S := S) (A := A) (R := R) (mcts := m.mctsMode) (out := out) (dp := dp) (f := f) (g := g) (nD := σ.dn.length) (nC := σ.cn.length)
      (pre := pre) (path' := path' ++ [(i, j)]) (rs0 := rs0) (rs' := rs' ++ [env.reward nd'.state a o]) (new := new) (new' := new')
      (hb _ (find?_mem hk)) hp hpo (hB.append hi hj) (by simp [hlen]) hcc hn
    simp only [List.map_append, List.map_cons, List.map_nil, ren, ← List.append_assoc] at this
    exact this

theorem sim_stepNew (W : WF st) (Rl : Rel m out dp st d σ f g) (hu : m.useTable = false)
    {cur : Nat} {a : A} {c : Nat} {path : List (Nat × Nat)} {rs : List R} {new : Bool} {tb : List ((Int × S) × Option Nat)}
    {nc : CNode S A R Y} {nd : DNode S A R X} {o : S} (hw : st.ws[w]? = some (.samp cur a c path rs new))
    (hc : st.cn[c]? = some nc) (hd : st.dn[cur]? = some nd) (ho : o ∈ env.succ nc.state nc.action) (hf : find? o nc.kids = none) :
    Matched env m alg out dp
      { st with cn := st.cn.set c { nc with visits := nc.visits + 1, y := alg.visitC nc.y, kids := nc.kids ++ [(o, st.dn.length)] },
                dn := st.dn ++ [newD env m alg o (nc.depth + 1) (nc.time + 1)],
                table := tb,
                ws := st.ws.set w (.sel st.dn.length (path ++ [(cur, c)]) (rs ++ [env.reward nd.state a o]) true) }
      d σ w (.stepped w cur a c o st.dn.length (env.reward nd.state a o) true) := by
  obtain ⟨q, hq, hP⟩ := Rl.ph w _ hw
  cases hP with
  | sampOut oo h h2 hp hn =>
    refine ⟨σ, f, g, ?_, .inl ⟨rfl, oo⟩⟩
    refine rel_stay W Rl (Rl.H.outSetC hc h2 (n := [newD env m alg o (nc.depth + 1) (nc.time + 1)]) (by simp [Search.newD]) ?_) rfl hw rfl (.inl rfl) hq
      (.selOut oo (fun j hj => Nat.ne_of_lt (Rl.H.ltD hj)) (hp.append h h2))
    intro p hp
    rcases List.mem_append.1 hp with h | h
    · exact .inl h
    · simp at h; subst h; exact .inr rfl
  | @sampIn i _ j pre path' rs0 rs' _ new' hi hj hp hpo hB hlen hcc hn =>
    obtain ⟨nd', hd', rfl⟩ := in_node Rl hi hd
    obtain ⟨nc', hc', rfl⟩ := in_nodeC Rl hj hc
    have hb := Rl.H.bC j nc' hc'
    have hff : (find? o nc'.kids).map f = none := by rw [← find?_renum]; exact hf
    have hk : find? o nc'.kids = none := Option.map_eq_none_iff.1 hff
    have hup : ∀ j < σ.dn.length, Function.update f σ.dn.length st.dn.length j = f j := fun j hj => Function.update_of_ne (Nat.ne_of_lt hj) _ _
    have hself : Function.update f σ.dn.length st.dn.length σ.dn.length = st.dn.length := Function.update_self ..
    have hH := (Rl.H.newD (Search.newD env m alg o (nc'.depth + 1) (nc'.time + 1)) rfl
      (by show dp ≤ nc'.depth + 1; have := Rl.H.depC j nc' hc'; omega) (bigC' W)).inSetC hc'
      (nc' := { nc' with visits := nc'.visits + 1, y := alg.visitC nc'.y, kids := nc'.kids ++ [(o, σ.dn.length)] })
      (by
        intro p hp
        rcases List.mem_append.1 hp with h | h
        · have := hb p h; simp; omega
        · simp at h; subst h; simp) rfl
    have hre : ({ nc' with visits := nc'.visits + 1, y := alg.visitC nc'.y, kids := nc'.kids ++ [(o, σ.dn.length)] } : CNode S A R Y).renum
          (Function.update f σ.dn.length st.dn.length) =
        { nc'.renum f with visits := nc'.visits + 1, y := alg.visitC nc'.y, kids := (nc'.renum f).kids ++ [(o, st.dn.length)] } := by
      have : nc'.kids.map (fun p => (p.1, Function.update f σ.dn.length st.dn.length p.2)) = nc'.kids.map (fun p => (p.1, f p.2)) :=
        List.map_congr_left fun p hp => by rw [hup _ (hb p hp)]
      simp only [CNode.renum, List.map_append, this, List.map_cons, List.map_nil, hself]
    rw [hre] at hH
    refine ⟨_, Function.update f σ.dn.length st.dn.length, g, ?_, .inr ⟨_, .stepNew hq hc' hd' ho hk (.inl ⟨hu, rfl⟩), by simp, .inr rfl⟩⟩
    refine rel_go W Rl hH rfl hw rfl (.inl rfl) rfl hq rfl (.inl rfl) rfl hup (fun _ _ => rfl) (by simp) (by simp)
      (fun j h1 h2 => by
        simp at h2
        obtain rfl : j = σ.dn.length := by omega
        rw [hself]; exact Nat.le_refl _)
      (fun j h1 h2 => by simp at h2; omega) (ctxSame rfl) (ctxSame rfl) ?_
    simp only [List.length_set, List.length_append, List.length_singleton]
    obtain ⟨_, hBB, _⟩ := W.ph _ _ hw
    have hp' : OutP (Function.update f σ.dn.length st.dn.length) g (σ.dn.length + 1) σ.cn.length pre := by
      intro p hp1
      refine ⟨fun j hj => ?_, (hp p hp1).2⟩
      rcases Nat.lt_or_ge j σ.dn.length with h1 | h1
      · rw [hup j h1]; exact (hp p hp1).1 j h1
      · obtain rfl : j = σ.dn.length := by omega
        rw [hself]
        have := (hBB p (List.mem_append_left _ hp1)).1
        omega
    have := PRel.selIn (S := S) (A := A) (R := R) (mcts := m.mctsMode) (out := out) (dp := dp) (f := Function.update f σ.dn.length st.dn.length) (g := g)
      (nD := σ.dn.length + 1) (nC := σ.cn.length) (i := σ.dn.length)
      (pre := pre) (path' := path' ++ [(i, j)]) (rs0 := rs0) (rs' := rs' ++ [env.reward nd'.state a o]) (new := true) (new' := true)
      (by omega) hp' hpo ((hB.append hi hj).mono (by omega) (Nat.le_refl _)) (by simp [hlen]) hcc (fun _ => rfl)
    rw [hself, ← map_ren_congr hup (fun _ _ => rfl) (hB.append (p := (i, j)) hi hj)] at this
    simp only [List.map_append, List.map_cons, List.map_nil, ren, ← List.append_assoc] at this
    exact this

theorem sim_completed (W : WF st) (Rl : Rel m out dp st d σ f g) {before after : List R} {ret tot : R}
    (hw : st.ws[w]? = some (.back [] before after ret tot)) :
    Matched env m alg out dp { st with ws := st.ws.set w .idle } d σ w (.completed w) := by
  obtain ⟨q, hq, hP⟩ := Rl.ph w _ hw
  have go : ∀ {b a r t}, σ.ws[w]? = some (.back [] b a r t) → Matched env m alg out dp { st with ws := st.ws.set w .idle } d σ w (.completed w) := by
    intro b a r t hq
    refine ⟨_, f, g, ?_, .inr ⟨_, .completed hq, by simp, .inr rfl⟩⟩
    exact rel_go W Rl Rl.H rfl hw rfl (.inl rfl) rfl hq rfl (.inl rfl) rfl (fun _ _ => rfl) (fun _ _ => rfl) (by simp) (by simp)
      (fun j h1 h2 => by simp at h2; omega) (fun j h1 h2 => by simp at h2; omega) (ctxSame rfl) (ctxSame rfl) .idle
  generalize hn : ([] : List (Nat × Nat)) = nodes at hP
  cases hP with
  | backOut hp hpast =>
    rcases hpast with ⟨o, rfl⟩ | ⟨_, b, a, r, t, rfl⟩
    · exact ⟨σ, f, g, rel_stay W Rl Rl.H rfl hw rfl (.inl rfl) hq .idle, .inl ⟨rfl, o⟩⟩
    · exact go hq
  | @backIn pre nodes' b0 b' _ _ _ t' hp hpo hB hl hc =>
    have : nodes' = [] := by
      have := congrArg List.length hn
      simp at this
      exact List.length_eq_zero_iff.1 (by omega)
    subst this
    exact go hq

theorem sim_backedC (L : alg.Local) (W : WF st) (Rl : Rel m out dp st d σ f g) {nodes : List (Nat × Nat)} {d0 c : Nat} {before : List R} {r : R} {after : List R}
    {ret tot : R} {nc : CNode S A R Y} (hw : st.ws[w]? = some (.back (nodes ++ [(d0, c)]) (before ++ [r]) after ret tot)) (hc : st.cn[c]? = some nc) :
    Matched env m alg out dp
      { st with cn := st.cn.set c { nc with y := alg.backupC nc.state nc.action nc.y (kidsX st nc) ⟨before, after ++ [r], ret + r, tot⟩ },
                ws := st.ws.set w (.backD d0 nodes before (after ++ [r]) (ret + r) tot) }
      d σ w (.backedC w c ⟨before, after ++ [r], ret + r, tot⟩) := by
  obtain ⟨q, hq, hP⟩ := Rl.ph w _ hw
  have past : OutP f g σ.dn.length σ.cn.length (nodes ++ [(d0, c)]) → Past out (nodes ++ [(d0, c)]) q → Matched env m alg out dp
      { st with cn := st.cn.set c { nc with y := alg.backupC nc.state nc.action nc.y (kidsX st nc) ⟨before, after ++ [r], ret + r, tot⟩ },
                ws := st.ws.set w (.backD d0 nodes before (after ++ [r]) (ret + r) tot) }
      d σ w (.backedC w c ⟨before, after ++ [r], ret + r, tot⟩) := by
    intro hp hpast
    have o : out := by
      rcases hpast with ⟨o, _⟩ | ⟨o | h, _⟩
      · exact o
      · exact o
      · simp at h
    have hlast := hp (d0, c) (by simp)
    refine ⟨σ, f, g, ?_, .inl ⟨rfl, o⟩⟩
    refine rel_stay W Rl (out_setC Rl.H hc hlast.2 rfl) rfl hw rfl (.inl rfl) hq
      (.backDOut o hlast.1 (fun p hp1 => hp p (by simp [hp1])) ?_)
    rcases hpast with ⟨_, h⟩ | ⟨_, h⟩
    · exact .inl ⟨o, h⟩
    · exact .inr ⟨.inl o, h⟩
  generalize hn : nodes ++ [(d0, c)] = nn at hP
  generalize hbb : before ++ [r] = bb at hP
  cases hP with
  | backOut hp hpast => subst hn; exact past hp hpast
  | @backIn pre nodes' b0 b' _ _ _ t' hp hpo hB hl hcc =>
    rcases getLast?_cases nodes' with rfl | ⟨n', ⟨i, j⟩, rfl⟩
    · simp at hn
      subst hn
      exact past hp (.inr ⟨hpo, _, _, _, _, rfl⟩)
    · rcases getLast?_cases b' with rfl | ⟨b'', r', rfl⟩
      · simp at hl
      simp only [List.map_append, List.map_cons, List.map_nil, ren, ← List.append_assoc] at hn hbb
      obtain ⟨rfl, h1⟩ := List.append_inj' hn rfl
      obtain ⟨rfl, h2⟩ := List.append_inj' hbb rfl
      simp at h1 h2
      obtain ⟨rfl, rfl⟩ := h1
      subst h2
      have hij := hB (i, j) (by simp)
      obtain ⟨nc', hc', rfl⟩ := in_nodeC Rl hij.2 hc
      have hb := Rl.H.bC j nc' hc'
      refine ⟨_, f, g, ?_, .inr ⟨_, .backedC hq hc', by simp, .inr rfl⟩⟩
      have hy : alg.backupC nc'.state nc'.action nc'.y (kidsX st (nc'.renum f)) ⟨b0 ++ b'', after ++ [r], ret + r, tot⟩ =
          alg.backupC nc'.state nc'.action nc'.y (kidsX σ nc') ⟨b'', after ++ [r], ret + r, t'⟩ := by
        rw [kidsX_eq Rl.H hb]
        exact L.backupC _ _ _ _ _ _ rfl rfl
      have hH := Rl.H.inSetC hc' (nc' := { nc' with y := alg.backupC nc'.state nc'.action nc'.y (kidsX σ nc') ⟨b'', after ++ [r], ret + r, t'⟩ }) hb rfl
      rw [← hy] at hH
      rw [← hy]
      refine rel_go W Rl hH rfl hw rfl (.inl rfl) rfl hq rfl (.inl rfl) rfl (fun _ _ => rfl) (fun _ _ => rfl) (by simp) (by simp)
        (fun j h1 h2 => by simp at h2; omega) (fun j h1 h2 => by simp at h2; omega) (ctxSame rfl) (ctxSame rfl) ?_
      simp only [List.length_set]
      exact .backDIn hij.1 hp hpo (fun p hp1 => hB p (by simp [hp1])) (by simpa using hl) hcc

theorem sim_backedD (L : alg.Local) (W : WF st) (Rl : Rel m out dp st d σ f g) {d0 : Nat} {nodes : List (Nat × Nat)} {before after : List R}
    {ret tot : R} {nd : DNode S A R X} (hw : st.ws[w]? = some (.backD d0 nodes before after ret tot)) (hd : st.dn[d0]? = some nd) :
    Matched env m alg out dp
      { st with dn := st.dn.set d0 { nd with x := alg.backupD (viewOf env m st nd) (st.ctxOf w) ⟨before, after, ret, tot⟩ },
                ws := st.ws.set w (.back nodes before after ret tot) }
      d σ w (.backedD w d0 ⟨before, after, ret, tot⟩) := by
  obtain ⟨q, hq, hP⟩ := Rl.ph w _ hw
  cases hP with
  | backDOut o h hp hpast =>
    refine ⟨σ, f, g, ?_, .inl ⟨rfl, o⟩⟩
    exact rel_stay W Rl (out_setD Rl.H hd h rfl) rfl hw rfl (.inl rfl) hq (.backOut hp hpast)
  | @backDIn i pre nodes' b0 b' _ _ _ t' hi hp hpo hB hl hcc =>
    obtain ⟨nd', hd', rfl⟩ := in_node Rl hi hd
    have hb := Rl.H.bD i nd' hd'
    refine ⟨_, f, g, ?_, .inr ⟨_, .backedD hq hd', by simp, .inr rfl⟩⟩
    have hx : alg.backupD (viewOf env m st (nd'.renum g)) (st.ctxOf w) ⟨b0 ++ b', after, ret, tot⟩ =
        alg.backupD (viewOf env m σ nd') (σ.ctxOf w) ⟨b', after, ret, t'⟩ := by
      rw [view_eq env m Rl.H hb]
      exact L.backupD _ _ _ _ _ (hcc.mono (Rl.H.depD i nd' hd')) rfl rfl
    have hH := Rl.H.inSetD hd' (nd' := { nd' with x := alg.backupD (viewOf env m σ nd') (σ.ctxOf w) ⟨b', after, ret, t'⟩ }) hb rfl
    rw [← hx] at hH
    rw [← hx]
    refine rel_go W Rl hH rfl hw rfl (.inl rfl) rfl hq rfl (.inl rfl) rfl (fun _ _ => rfl) (fun _ _ => rfl) (by simp) (by simp)
      (fun j h1 h2 => by simp at h2; omega) (fun j h1 h2 => by simp at h2; omega) (ctxSame rfl) (ctxSame rfl) ?_
    simp only [List.length_set]
    exact .backIn hp hpo hB hl hcc

/-- Every step is matched. -/
theorem sim_eff (L : alg.Local) (hu : m.useTable = false) (W : WF st) (Rl : Rel m out dp st d σ f g)
    (hdp : ∃ nd, st.dn[d]? = some nd ∧ nd.depth = dp) (hout : st.root ≠ d → out) {st' : St S A R X Y} {e : Event S A R}
    (E : Eff env m alg st w e st') : Matched env m alg out dp st' d σ w e := by
  have W' := wf_eff L hu W E
  cases E with
  | crash h => exact absurd h (wf_no_cause hu W)
  | began hw => exact sim_began W Rl hout hw
  | selOld hw hd hl hm ha hf => exact sim_selOld L W Rl hw hd hl hm ha hf
  | selNew hw hd hl hm ha hf => exact sim_selNew L W Rl hw hd hl hm ha hf
  | ended hw hd hs => exact sim_ended W Rl hw hd hs
  | stepOld hw hc hd ho hf => exact sim_stepOld W Rl hdp hw hc hd ho hf W'
  | stepNew hw hc hd ho hf ht => exact sim_stepNew W Rl hu hw hc hd ho hf
  | stepHit hw hc hd ho hf hu' ht => rw [hu] at hu'; cases hu'
  | completed hw => exact sim_completed W Rl hw
  | backedC hw hc => exact sim_backedC L W Rl hw hc
  | backedD hw hd => exact sim_backedD L W Rl hw hd

end Verif.Search
