import Verif.Proofs.ReuseStep
import Verif.Proofs.SearchPrefix

/-! # Searches whose root moves: every part of the tree is the tree of a new search -/

namespace Verif.Search

set_option linter.unusedSimpArgs false
set_option linter.unusedSectionVars false

variable {S A R X Y : Type} [DecidableEq S] [DecidableEq A] [Add R] [Zero R]
variable {env : Env S A R} {m : Manager S R} {alg : Alg S A R X Y} {k : Nat}

/-- In mcts mode a trial that has made a new node selects nothing more. -/
def SampOld (m : Manager S R) (st : St S A R X Y) : Prop :=
  ∀ (w : Nat) cur a c path rs new, st.ws[w]? = some (.samp cur a c path rs new) → m.mctsMode = true → new = false

theorem samp_set {st st' : St S A R X Y} (H : SampOld m st) {w : Nat} {p : Phase S A R} (hws : st'.ws = st.ws.set w p)
    (hp : ∀ cur a c path rs new, p = .samp cur a c path rs new → m.mctsMode = true → new = false) : SampOld m st' := by
  intro v cur a c path rs new hv
  rw [hws] at hv
  by_cases hvw : w = v
  · subst hvw
    have hlt := (List.getElem?_eq_some_iff.1 hv).1
    rw [List.getElem?_set_self (by simpa using hlt)] at hv
    cases hv
    exact hp _ _ _ _ _ _ rfl
  · rw [List.getElem?_set_ne hvw] at hv
    exact H v cur a c path rs new hv

theorem samp_eff {st st' : St S A R X Y} {w : Nat} {e : Event S A R} (H : SampOld m st) (E : Eff env m alg st w e st') : SampOld m st' := by
  have hmm : ∀ {new : Bool}, (m.mctsMode && new) = false → m.mctsMode = true → new = false := by
    intro new h1 h2; simpa [h2] using h1
  cases E with
  | crash h => exact H
  | selOld hw hd hl hm ha hf => exact samp_set H rfl (by intro _ _ _ _ _ _ h; cases h; exact hmm hm)
  | selNew hw hd hl hm ha hf => exact samp_set H rfl (by intro _ _ _ _ _ _ h; cases h; exact hmm hm)
  | _ => exact samp_set H rfl (by intro _ _ _ _ _ _ h; cases h)

theorem desc_mono {st st' : St S A R X Y} (G : Le st st') {d e : Nat} (h : Desc st d e) : Desc st' d e := by
  induction h with
  | @step d a c o e h1 h2 =>
    unfold childC at h1
    unfold childD at h2
    obtain ⟨nd, h3, h4⟩ := Option.bind_eq_some_iff.1 h1
    obtain ⟨nc, h5, h6⟩ := Option.bind_eq_some_iff.1 h2
    obtain ⟨nd', g1, _, _, _, _, ⟨ks, g2⟩, _⟩ := G.d _ _ h3
    obtain ⟨nc', g3, _, _, _, _, ⟨ks', g4⟩, _⟩ := G.c _ _ h5
    refine .step (a := a) (c := c) (o := o) ?_ ?_
    · unfold childC; rw [g1]; show find? a nd'.kids = _; rw [g2]; exact find?_append_some h4
    · unfold childD; rw [g3]; show find? o nc'.kids = _; rw [g4]; exact find?_append_some h6
  | trans _ _ ih1 ih2 => exact .trans ih1 ih2

theorem wf_desc {st : St S A R X Y} (W : WF st) {d e : Nat} (h : Desc st d e) :
    ∃ nd ne, st.dn[d]? = some nd ∧ st.dn[e]? = some ne ∧ nd.depth < ne.depth := by
  induction h with
  | @step d a c o e h1 h2 =>
    unfold childC at h1
    unfold childD at h2
    obtain ⟨nd, h3, h4⟩ := Option.bind_eq_some_iff.1 h1
    obtain ⟨nc, h5, h6⟩ := Option.bind_eq_some_iff.1 h2
    obtain ⟨nc', g1, g2⟩ := W.kidD _ _ _ _ h3 (find?_mem h4)
    rw [h5] at g1; cases g1
    obtain ⟨ne, g3, g4⟩ := W.kidC _ _ _ _ h5 (find?_mem h6)
    exact ⟨nd, ne, h3, g3, by omega⟩
  | trans _ _ ih1 ih2 =>
    obtain ⟨nd, ne, h1, h2, h3⟩ := ih1
    obtain ⟨ne', nf, h4, h5, h6⟩ := ih2
    rw [h2] at h4; cases h4
    exact ⟨nd, nf, h1, h5, by omega⟩

/-- A path into the part below `d` goes through `d`. -/
theorem desc_enter {st σ : St S A R X Y} {d : Nat} {dp : Int} {f g : Nat → Nat} (H : HRel dp st.dn st.cn d σ.dn σ.cn f g) {a b : Nat} (h : Desc st a b) :
    (a = d ∨ ∀ j < σ.dn.length, f j ≠ a) → (∃ j < σ.dn.length, f j = b) → b = d ∨ Desc st d b := by
  induction h with
  | @step x ac c o e h1 h2 =>
    intro ha hb
    rcases ha with rfl | ha
    · exact .inr (.step h1 h2)
    · obtain ⟨nd, h3, h4⟩ := Option.bind_eq_some_iff.1 h1
      obtain ⟨nc, h5, h6⟩ := Option.bind_eq_some_iff.1 h2
      obtain ⟨j, hj, hfj⟩ := hb
      have := H.outC _ _ h5 (fun i hi => H.outD _ _ h3 ha (ac, c) (find?_mem h4) i hi) (o, e) (find?_mem h6) j hj hfj
      subst this
      exact .inl (by rw [← hfj, H.root])
  | @trans x y z h1 h2 ih1 ih2 =>
    intro ha hb
    by_cases hy : ∃ j < σ.dn.length, f j = y
    · rcases ih1 ha hy with rfl | h
      · exact .inr h2
      · exact .inr (.trans h h2)
    · exact ih2 (.inr fun j hj h => hy ⟨j, hj, h⟩) hb

/-- The part below `d` is the tree of a new search. -/
def Part (env : Env S A R) (m : Manager S R) (alg : Alg S A R X Y) (k : Nat) (st : St S A R X Y) (d : Nat) : Prop :=
  ∃ s dp tm σ h f g, (∃ nd, st.dn[d]? = some nd ∧ nd.state = s ∧ nd.depth = dp ∧ nd.time = tm) ∧ Fresh env m alg k s dp tm σ h ∧
    Rel m True dp st d σ f g

theorem fresh_step {s : S} {dp tm : Int} {σ σ' : St S A R X Y} {h : List (Event S A R)} {w : Nat} {ch : Choice S A} {e : Event S A R}
    (F : Fresh env m alg k s dp tm σ h) (hs : step env m alg σ w ch = some (σ', e)) : Fresh env m alg k s dp tm σ' (e :: h) := by
  rcases F with ⟨ls, hl⟩ | ⟨hm, v, ls, hv, hl⟩
  · exact .inl ⟨ls ++ [(w, ch)], by rw [exec_snoc, hl]; simp [hs]⟩
  · exact .inr ⟨hm, v, ls ++ [(w, ch)], hv, by rw [exec_snoc, hl]; simp [hs]⟩

theorem eff_step' {st st' : St S A R X Y} {w : Nat} {e : Event S A R} (hu : m.useTable = false) (hcr : st.crashed = none)
    (E : Eff env m alg st w e st') (hne : ∀ v x, e ≠ .crash v x) : step env m alg st w (chOf e) = some (st', e) := by
  obtain ⟨ch, h⟩ := eff_step hcr E (fun x => hne w x) (fun _ _ _ _ _ _ _ h => by rw [hu] at h; cases h)
  rw [← chOf_eq h hne]; exact h

theorem part_step (L : alg.Local) (hu : m.useTable = false) {st st' : St S A R X Y} (W : WF st) {d w : Nat} {e : Event S A R}
    (P : Part env m alg k st d) (E : Eff env m alg st w e st') (hcr : st'.crashed = none) : Part env m alg k st' d := by
  obtain ⟨s, dp, tm, σ, h, f, g, ⟨nd, hd, h1, h2, h3⟩, F, Rl⟩ := P
  obtain ⟨σ', f', g', Rl', hh⟩ := sim_eff L hu W Rl ⟨nd, hd, h2⟩ (fun _ => trivial) E
  obtain ⟨nd', g1, g2, g3, g4, _⟩ := (le_eff E).d _ _ hd
  have hn : ∃ nd, st'.dn[d]? = some nd ∧ nd.state = s ∧ nd.depth = dp ∧ nd.time = tm := ⟨nd', g1, by rw [g2, h1], by rw [g3, h2], by rw [g4, h3]⟩
  rcases hh with ⟨rfl, _⟩ | ⟨e', E', hne, _⟩
  · exact ⟨s, dp, tm, _, h, f', g', hn, F, Rl'⟩
  · exact ⟨s, dp, tm, σ', _, f', g', hn, fresh_step F (eff_step' hu Rl.crashed E' hne), Rl'⟩

/-- A worker that is nowhere near a new node. -/
theorem prel_new {st : St S A R X Y} (H : SampOld m st) {dp : Int} {c c' : Ctx A R} {w : Nat} {p : Phase S A R} {g : Nat → Nat} (hw : st.ws[w]? = some p)
    (hP : PWF st c p) : PRel m.mctsMode True dp (fun _ => st.dn.length) g 1 0 c c' p .idle := by
  have hlt : ∀ {i}, i < st.dn.length → ∀ j < 1, (fun _ : Nat => st.dn.length) j ≠ i := by intro i hi j _; show st.dn.length ≠ i; omega
  have hl : ∀ {l}, InB st l → OutP (fun _ => st.dn.length) g 1 0 l := fun hb p hp => ⟨hlt (hb p hp).1, fun j hj => by omega⟩
  cases p with
  | idle => exact .idle
  | sel cur path rs new =>
    obtain ⟨⟨nd, h1, _⟩, h2, _⟩ := hP
    exact .selOut trivial (hlt (List.getElem?_eq_some_iff.1 h1).1) (hl h2)
  | samp cur a ch path rs new =>
    obtain ⟨⟨nd, nc, h1, _⟩, h2, _⟩ := hP
    exact .sampOut trivial (hlt (List.getElem?_eq_some_iff.1 h1).1) (fun j hj => by omega) (hl h2) (H _ _ _ _ _ _ _ hw)
  | back nodes b a r t => exact .backOut (hl hP.1) (.inl ⟨trivial, rfl⟩)
  | backD d nodes b a r t => exact .backDOut trivial (hlt hP.1) (hl hP.2.1) (.inl ⟨trivial, rfl⟩)

theorem hrel_new (dp : Int) (D : List (DNode S A R X)) (C : List (CNode S A R Y)) (d : Nat) (nd : DNode S A R X) (hd : D[d]? = some nd) (hk : nd.kids = [])
    (hdep : nd.depth = dp) (g : Nat → Nat) : HRel dp D C d [nd] [] (fun _ => d) g where
  root := rfl
  pos := by simp
  injD := by intro i j hi hj _; simp at hi hj; omega
  injC := by intro i j hi; simp at hi
  nodeD := by
    intro i x hx
    rcases i with _ | i
    · simp at hx; subst hx
      rw [hd]; simp only [DNode.renum, hk, List.map_nil]; rw [← hk]
    · simp at hx
  nodeC := by intro i x hx; simp at hx
  bD := by
    intro i x hx p hp
    rcases i with _ | i
    · simp at hx; subst hx; rw [hk] at hp; simp at hp
    · simp at hx
  bC := by intro i x hx; simp at hx
  depD := by
    intro i x hx
    rcases i with _ | i
    · simp at hx; subst hx; omega
    · simp at hx
  depC := by intro i x hx; simp at hx
  outD := by intro i x _ _ p _ j hj; simp at hj
  outC := by intro i x _ _ p _ j hj _; simp at hj; exact hj

/-- A new node is the tree of a new search that has begun one trial. -/
theorem part_new {st st' : St S A R X Y} (W : WF st) (W' : WF st') (H : SampOld m st) (hk : st.ws.length = k) {w cur : Nat} {a : A} {c : Nat}
    {path : List (Nat × Nat)} {rs rs' : List R} {new : Bool} {o : S} {dp tm : Int} (hw : st.ws[w]? = some (.samp cur a c path rs new))
    (hdn : st'.dn = st.dn ++ [newD env m alg o dp tm]) (hws : st'.ws = st.ws.set w (.sel st.dn.length (path ++ [(cur, c)]) rs' true))
    (hcx : st'.ctxs = st.ctxs) (hroot : st'.root = st.root) : Part env m alg k st' st.dn.length := by
  have hlt := (List.getElem?_eq_some_iff.1 hw).1
  have hwk : w < k := by rw [← hk]; exact hlt
  have hnew : st'.dn[st.dn.length]? = some (newD env m alg o dp tm) := by rw [hdn]; simp
  -- the search that corresponds
  let b : Bool := m.mctsMode
  let σ : St S A R X Y :=
    { looked env m alg k o dp tm w with ws := (List.replicate k .idle).set w (.sel 0 [] [] b) }
  have hσw : σ.ws[w]? = some (.sel 0 [] [] b) := List.getElem?_set_self (by simpa using hwk)
  have hσc : ∀ v, σ.ctxOf v = {} := by
    intro v
    show (((List.replicate k ({} : Ctx A R))[v]?).getD {}) = {}
    rw [List.getElem?_replicate]
    split <;> rfl
  refine ⟨o, dp, tm, σ, if b then [] else [.began w], fun _ => st.dn.length, id, ⟨_, hnew, rfl, rfl, rfl⟩, ?_, ?_⟩
  · by_cases hm : m.mctsMode = true
    · refine .inr ⟨hm, w, [], hwk, ?_⟩
      have : σ = looked env m alg k o dp tm w := by
        simp only [σ, b, hm]; rfl
      rw [this]; simp [execFrom, b, hm]
    · refine .inl ⟨[(w, .go)], ?_⟩
      have hb : b = false := by simpa using hm
      have hi : (init env m alg k o dp tm []).ws[w]? = some .idle := by simp [init, hwk]
      have h1 : step env m alg (init env m alg k o dp tm []) w .go = some (σ, .began w) := by
        unfold step
        rw [hi]
        simp only [init, Option.isSome_none, Bool.false_eq_true, if_false, St.setCtx, St.setW, σ, looked, hb]
        congr 2
        simp
      simp [execFrom, h1, hb]
  · refine ⟨hrel_new _ _ _ _ _ hnew rfl rfl _, rfl, ?_, rfl, ?_, ?_, ?_⟩
    · intro j hj _
      simp [σ, looked, init] at hj
      exact hj
    · simp [σ, looked, init, hws, hk]
    · simp [σ, looked, init]
    · intro v p hv
      rw [hws] at hv
      by_cases hvw : w = v
      · subst hvw
        rw [List.getElem?_set_self hlt] at hv
        cases hv
        refine ⟨_, hσw, ?_⟩
        obtain ⟨⟨nd1, h1, h2⟩, hBB, _⟩ := W'.ph w _ (setSelf hw hws)
        rw [hnew] at h1; cases h1
        obtain ⟨⟨nd0, nc0, h3, h4, _⟩, hB0, _⟩ := W.ph _ _ hw
        rw [hσc]
        have hA := Ctx.AgreeFrom.empty h2
        have hO : OutP (fun _ => st.dn.length) (id : Nat → Nat) 1 0 (path ++ [(cur, c)]) := by
          intro p hp
          refine ⟨fun j _ => ?_, fun j hj => by omega⟩
          show st.dn.length ≠ p.1
          rcases List.mem_append.1 hp with hp | hp
          · have := (hB0 p hp).1; omega
          · simp at hp; subst hp
            have := (List.getElem?_eq_some_iff.1 h3).1
            show st.dn.length ≠ cur
            omega
        have := PRel.selIn (S := S) (A := A) (R := R) (mcts := m.mctsMode) (out := True) (dp := dp) (f := fun _ => st.dn.length) (g := id) (nD := 1)
          (nC := 0) (i := 0) (pre := path ++ [(cur, c)]) (path' := []) (rs0 := rs') (rs' := []) (new := true) (new' := b)
          (by omega) hO (.inl trivial) (fun p hp => by simp at hp) rfl hA (fun h => h)
        simp only [List.map_nil, List.append_nil] at this
        exact this
      · rw [List.getElem?_set_ne hvw] at hv
        refine ⟨.idle, ?_, ?_⟩
        · show ((List.replicate k Phase.idle).set w _)[v]? = _
          rw [List.getElem?_set_ne hvw, List.getElem?_replicate, if_pos]
          rw [← hk]; exact (List.getElem?_eq_some_iff.1 hv).1
        · rw [ctxSame hcx]
          exact prel_new H hv (W.ph v p hv)

/-- What holds all the time. -/
structure OInv (env : Env S A R) (m : Manager S R) (alg : Alg S A R X Y) (k : Nat) (st : St S A R X Y) : Prop where
  wf : WF st
  crashed : st.crashed = none
  samp : SampOld m st
  len : st.ws.length = k
  part : ∀ d, d < st.dn.length → ¬ Desc st d st.root → Part env m alg k st d

theorem oinv_init (s0 : S) (dp tm : Int) : OInv env m alg k (init env m alg k s0 dp tm []) where
  wf := wf_init ..
  crashed := rfl
  samp := by
    intro w cur a c path rs new h
    simp only [init, List.getElem?_replicate] at h
    split at h <;> cases h
  len := by simp [init]
  part := by
    intro d hd _
    simp [init] at hd
    subst hd
    refine ⟨s0, dp, tm, init env m alg k s0 dp tm [], [], fun _ => 0, id, ⟨_, rfl, rfl, rfl, rfl⟩, .inl ⟨[], rfl⟩, ?_⟩
    refine ⟨hrel_new dp _ _ 0 (newD env m alg s0 dp tm) rfl rfl rfl _, rfl, ?_, rfl, rfl, by simp [init], ?_⟩
    · intro j hj _
      simp [init] at hj
      exact hj
    · intro w p hw
      refine ⟨p, hw, ?_⟩
      simp only [init, List.getElem?_replicate] at hw
      split at hw
      · cases hw; exact .idle
      · cases hw

theorem oinv_eff (L : alg.Local) (hu : m.useTable = false) {st st' : St S A R X Y} {w : Nat} {e : Event S A R} (I : OInv env m alg k st)
    (E : Eff env m alg st w e st') : OInv env m alg k st' := by
  have W' := wf_eff L hu I.wf E
  have hcr := no_crash_eff hu I.wf I.crashed E
  have hle := le_eff E
  refine ⟨W', hcr, samp_eff I.samp E, ?_, ?_⟩
  · have := I.len
    cases E <;> simpa using this
  · intro d hd hnd
    have old : d < st.dn.length → Part env m alg k st' d := by
      intro h
      exact part_step L hu I.wf (I.part d h fun hx => hnd (by rw [hle.root]; exact desc_mono hle hx)) E hcr
    by_cases h : d < st.dn.length
    · exact old h
    · cases E with
      | stepNew hw hc hd' ho hf ht =>
        have : d = st.dn.length := by simp at hd; omega
        subst this
        exact part_new I.wf W' I.samp I.len hw rfl rfl rfl rfl
      | crash _ => exact absurd hd h
      | began hw => exact absurd hd h
      | selOld hw => exact absurd (by simpa using hd) h
      | selNew hw => exact absurd (by simpa using hd) h
      | ended hw => exact absurd (by simpa using hd) h
      | stepOld hw => exact absurd (by simpa using hd) h
      | stepHit hw => exact absurd (by simpa using hd) h
      | completed hw => exact absurd (by simpa using hd) h
      | backedC hw => exact absurd (by simpa using hd) h
      | backedD hw => exact absurd (by simpa using hd) h

theorem below_node {st : St S A R X Y} (W : WF st) {d : Nat} (h : BelowRoot st d) : ∃ nd, st.dn[d]? = some nd := by
  rcases h with rfl | h
  · exact W.root
  · obtain ⟨_, ne, _, h, _⟩ := wf_desc W h
    exact ⟨ne, h⟩

theorem below_not_above {st : St S A R X Y} (W : WF st) {d : Nat} (h : BelowRoot st d) : ¬ Desc st d st.root := by
  intro h'
  obtain ⟨nd, nr, h1, h2, h3⟩ := wf_desc W h'
  rcases h with rfl | h
  · rw [h1] at h2; cases h2; omega
  · obtain ⟨nr', nd', h4, h5, h6⟩ := wf_desc W h
    rw [h1] at h5; cases h5
    rw [h2] at h4; cases h4
    omega

theorem oinv_move {st : St S A R X Y} (I : OInv env m alg k st) {r : Nat} (hr : BelowRoot st r) : OInv env m alg k (setRoot st r) := by
  have W := I.wf
  have hdesc : ∀ {a b}, Desc (setRoot st r) a b ↔ Desc st a b := by
    intro a b
    constructor
    · intro h
      induction h with
      | step h1 h2 => exact .step h1 h2
      | trans _ _ ih1 ih2 => exact .trans ih1 ih2
    · intro h
      induction h with
      | step h1 h2 => exact .step h1 h2
      | trans _ _ ih1 ih2 => exact .trans ih1 ih2
  have hpwf : ∀ {c : Ctx A R} {p : Phase S A R}, PWF st c p → PWF (setRoot st r) c p := by
    intro c p h
    cases p <;> exact h
  refine ⟨⟨below_node W hr, W.kidD, W.kidC, W.len, fun w p h => hpwf (W.ph w p h)⟩, I.crashed, I.samp, I.len, ?_⟩
  intro d hd hnd
  have hnd' : ¬ Desc st d r := fun h => hnd (hdesc.2 h)
  have hdr : ¬ Desc st d st.root := by
    intro h
    rcases hr with rfl | hr
    · exact hnd' h
    · exact hnd' (.trans h hr)
  obtain ⟨s, dp, tm, σ, h, f, g, hn, F, Rl⟩ := I.part d hd hdr
  refine ⟨s, dp, tm, σ, h, f, g, hn, F, Rl.H, Rl.sroot, ?_, Rl.crashed, Rl.lenW, Rl.lenX, Rl.ph⟩
  intro j hj hfj
  have hfj : f j = r := hfj
  have hroot : st.root = d ∨ ∀ j < σ.dn.length, f j ≠ st.root := by
    by_cases hx : ∃ j < σ.dn.length, f j = st.root
    · obtain ⟨i, hi, hfi⟩ := hx
      have := Rl.root i hi hfi
      subst this
      exact .inl (by rw [← hfi, Rl.H.root])
    · exact .inr fun j hj h => hx ⟨j, hj, h⟩
  have hrd : r = d := by
    rcases hr with rfl | hr
    · have := Rl.root j hj hfj
      subst this
      rw [← hfj, Rl.H.root]
    · rcases desc_enter Rl.H hr hroot ⟨j, hj, hfj⟩ with h | h
      · exact h
      · exact absurd h hnd'
  exact Rl.H.injD j 0 hj Rl.H.pos (by rw [hfj, hrd, Rl.H.root])

theorem oinv (L : alg.Local) (hu : m.useTable = false) {s0 : S} {dp tm : Int} {st : St S A R X Y} (h : Online env m alg k s0 dp tm st) :
    OInv env m alg k st := by
  induction h with
  | start => exact oinv_init ..
  | search _ hs ih => exact oinv_eff L hu ih (step_eff hs).2
  | move _ _ hd ih => exact oinv_move ih hd

theorem online_exec {s0 : S} {dp tm : Int} (ls : List (Nat × Choice S A)) : ∀ {st st' : St S A R X Y} {h h' : List (Event S A R)},
    Online env m alg k s0 dp tm st → execFrom env m alg st h ls = some (st', h') → Online env m alg k s0 dp tm st' := by
  induction ls with
  | nil => intro st st' h h' ho hx; simp [execFrom] at hx; exact hx.1 ▸ ho
  | cons l ls ih =>
    obtain ⟨w, ch⟩ := l
    intro st st' h h' ho hx
    simp only [execFrom] at hx
    split at hx
    · rename_i hs
      exact ih (ho.search hs) hx
    · simp at hx

/-- Without workers outside, the same schedule works in both searches. -/
theorem follow (L : alg.Local) (hu : m.useTable = false) {d : Nat} {dp : Int} (ls : List (Nat × Choice S A)) :
    ∀ {st st' σ : St S A R X Y} {h h' hσ : List (Event S A R)} {f g : Nat → Nat}, WF st → st.root = d → (∃ nd, st.dn[d]? = some nd ∧ nd.depth = dp) →
      Rel m False dp st d σ f g → execFrom env m alg st h ls = some (st', h') →
      ∃ σ' hσ' f' g', execFrom env m alg σ hσ ls = some (σ', hσ') ∧ Rel m False dp st' d σ' f' g' := by
  induction ls with
  | nil =>
    intro st st' σ h h' hσ f g W hr hdp Rl hx
    simp [execFrom] at hx
    obtain ⟨rfl, rfl⟩ := hx
    exact ⟨σ, hσ, f, g, rfl, Rl⟩
  | cons l ls ih =>
    obtain ⟨w, ch⟩ := l
    intro st st' σ h h' hσ f g W hr hdp Rl hx
    simp only [execFrom] at hx
    split at hx
    · rename_i st1 e hs
      obtain ⟨hcr, E⟩ := step_eff hs
      have hne : ∀ v x, e ≠ .crash v x := by
        intro v x he
        subst he
        cases E with
        | crash h => exact absurd h (wf_no_cause hu W)
      obtain ⟨σ1, f1, g1, Rl1, hh⟩ := sim_eff L hu W Rl hdp (fun hx => absurd hr hx) E
      rcases hh with ⟨_, hF⟩ | ⟨e', E', hne', hF | hch⟩
      · exact hF.elim
      · exact hF.elim
      · have hle := le_eff E
        obtain ⟨nd, hd, hdep⟩ := hdp
        obtain ⟨nd', g1, _, g3, _⟩ := hle.d _ _ hd
        have hs' := eff_step' hu Rl.crashed E' hne'
        rw [hch, ← chOf_eq hs hne] at hs'
        obtain ⟨σ', hσ', f', g', k1, k2⟩ := ih (hσ := e' :: hσ) (wf_eff L hu W E) (by rw [hle.root]; exact hr) ⟨nd', g1, by rw [g3, hdep]⟩ Rl1 hx
        exact ⟨σ', hσ', f', g', by simp only [execFrom, hs']; exact k1, k2⟩
    · simp at hx

/-- At rest nobody is outside. -/
theorem rel_rest {st σ : St S A R X Y} {d : Nat} {dp : Int} {f g : Nat → Nat} (Rl : Rel m True dp st d σ f g) (hq : Quiescent st) :
    Quiescent σ ∧ Rel m False dp (setRoot st d) d σ f g := by
  have key : ∀ (w : Nat) p, st.ws[w]? = some p → p = .idle ∧ σ.ws[w]? = some .idle := by
    intro w p hp
    have := hq w p hp
    subst this
    obtain ⟨q, h1, h2⟩ := Rl.ph w _ hp
    cases h2
    exact ⟨rfl, h1⟩
  refine ⟨?_, ⟨Rl.H, Rl.sroot, ?_, Rl.crashed, Rl.lenW, Rl.lenX, ?_⟩⟩
  · intro w q hw
    have hlt : w < st.ws.length := by rw [← Rl.lenW]; exact (List.getElem?_eq_some_iff.1 hw).1
    have := (key w _ (List.getElem?_eq_getElem hlt)).2
    rw [hw] at this; cases this; rfl
  · intro j hj h
    have h : f j = d := h
    exact Rl.H.injD j 0 hj Rl.H.pos (by rw [h, Rl.H.root])
  · intro w p hp
    obtain ⟨rfl, h⟩ := key w p hp
    exact ⟨.idle, h, .idle⟩

/-- What the search started at the root can do, the search that reuses the tree can do. -/
theorem back_eff (L : alg.Local) (hu : m.useTable = false) {st σ σ' : St S A R X Y} {d w : Nat} {dp : Int} {f g : Nat → Nat} {e' : Event S A R}
    (Rl : Rel m False dp st d σ f g) (E : Eff env m alg σ w e' σ') (hne : ∀ v x, e' ≠ .crash v x) :
    ∃ st' e, Eff env m alg st w e st' ∧ (∀ v x, e ≠ .crash v x) ∧ chOf e = chOf e' := by
  have ex : ∀ {q}, σ.ws[w]? = some q → ∃ p, st.ws[w]? = some p ∧
      PRel m.mctsMode False dp f g σ.dn.length σ.cn.length (st.ctxOf w) (σ.ctxOf w) p q := by
    intro q hq
    have hlt : w < st.ws.length := by rw [← Rl.lenW]; exact (List.getElem?_eq_some_iff.1 hq).1
    obtain ⟨q', h1, h2⟩ := Rl.ph w _ (List.getElem?_eq_getElem hlt)
    rw [hq] at h1; cases h1
    exact ⟨_, List.getElem?_eq_getElem hlt, h2⟩
  have sel : ∀ {nd : DNode S A R X} {i : Nat} {a : A}, σ.dn[i]? = some nd → (st.ctxOf w).AgreeFrom dp (σ.ctxOf w) →
      alg.canSelect (viewOf env m σ { nd with visits := nd.visits + 1, x := alg.visitD false nd.x }) (σ.ctxOf w) a = true →
      alg.canSelect (viewOf env m st { nd.renum g with visits := (nd.renum g).visits + 1, x := alg.visitD false (nd.renum g).x }) (st.ctxOf w) a = true := by
    intro nd i a hd hc ha
    have hv : viewOf env m st { nd.renum g with visits := nd.visits + 1, x := alg.visitD false nd.x } =
        viewOf env m σ { nd with visits := nd.visits + 1, x := alg.visitD false nd.x } :=
      view_eq env m Rl.H (nd := { nd with visits := nd.visits + 1, x := alg.visitD false nd.x }) (Rl.H.bD i nd hd)
    show alg.canSelect (viewOf env m st { nd.renum g with visits := nd.visits + 1, x := alg.visitD false nd.x }) (st.ctxOf w) a = true
    rw [hv, ← ha]
    exact L.select _ _ _ _ (hc.mono (Rl.H.depD i nd hd))
  have hnew : ∀ {new new' : Bool}, (m.mctsMode = true → new' = new) → (m.mctsMode && new) = (m.mctsMode && new') := by
    intro new new' h
    cases hm : m.mctsMode with
    | false => rfl
    | true => rw [h hm]
  cases E with
  | crash h => exact absurd rfl (hne _ _)
  | began hw =>
    obtain ⟨p, hp, hP⟩ := ex hw
    cases hP with
    | idle => exact ⟨_, _, .began hp, by simp, rfl⟩
    | selOut o => exact o.elim
    | sampOut o => exact o.elim
    | backOut _ hq => rcases hq with ⟨o, _⟩ | ⟨_, _, _, _, _, hq⟩ <;> first | exact o.elim | simp at hq
    | backDOut o => exact o.elim
  | selOld hw hd hl hm ha hf =>
    obtain ⟨p, hp, hP⟩ := ex hw
    cases hP with
    | selIn hi _ _ _ _ hc hn =>
      exact ⟨_, _, .selOld hp (Rl.H.nodeD _ _ hd) hl (by rw [hnew hn]; exact hm) (sel hd hc ha) (by rw [DNode.renum, find?_renum, hf]; rfl), by simp, rfl⟩
    | backOut _ hq => rcases hq with ⟨o, _⟩ | ⟨_, _, _, _, _, hq⟩ <;> first | exact o.elim | simp at hq
    | backDOut o => exact o.elim
  | selNew hw hd hl hm ha hf =>
    obtain ⟨p, hp, hP⟩ := ex hw
    cases hP with
    | selIn hi _ _ _ _ hc hn =>
      exact ⟨_, _, .selNew hp (Rl.H.nodeD _ _ hd) hl (by rw [hnew hn]; exact hm) (sel hd hc ha) (by rw [DNode.renum, find?_renum, hf]; rfl), by simp, rfl⟩
    | backOut _ hq => rcases hq with ⟨o, _⟩ | ⟨_, _, _, _, _, hq⟩ <;> first | exact o.elim | simp at hq
    | backDOut o => exact o.elim
  | ended hw hd hs =>
    obtain ⟨p, hp, hP⟩ := ex hw
    cases hP with
    | selIn hi _ _ _ _ hc hn => exact ⟨_, _, .ended hp (Rl.H.nodeD _ _ hd) (by rw [hnew hn]; exact hs), by simp, rfl⟩
    | backOut _ hq => rcases hq with ⟨o, _⟩ | ⟨_, _, _, _, _, hq⟩ <;> first | exact o.elim | simp at hq
    | backDOut o => exact o.elim
  | stepOld hw hc hd ho hf =>
    obtain ⟨p, hp, hP⟩ := ex hw
    cases hP with
    | sampIn hi hj => exact ⟨_, _, .stepOld hp (Rl.H.nodeC _ _ hc) (Rl.H.nodeD _ _ hd) ho (by rw [CNode.renum, find?_renum, hf]; rfl), by simp, rfl⟩
    | backOut _ hq => rcases hq with ⟨o, _⟩ | ⟨_, _, _, _, _, hq⟩ <;> first | exact o.elim | simp at hq
    | backDOut o => exact o.elim
  | stepNew hw hc hd ho hf ht =>
    obtain ⟨p, hp, hP⟩ := ex hw
    cases hP with
    | sampIn hi hj =>
      exact ⟨_, _, .stepNew hp (Rl.H.nodeC _ _ hc) (Rl.H.nodeD _ _ hd) ho (by rw [CNode.renum, find?_renum, hf]; rfl) (.inl ⟨hu, rfl⟩), by simp, rfl⟩
    | backOut _ hq => rcases hq with ⟨o, _⟩ | ⟨_, _, _, _, _, hq⟩ <;> first | exact o.elim | simp at hq
    | backDOut o => exact o.elim
  | stepHit _ _ _ _ _ h => rw [hu] at h; cases h
  | completed hw =>
    obtain ⟨p, hp, hP⟩ := ex hw
    cases hP with
    | backOut _ hq =>
      rcases hq with ⟨o, _⟩ | ⟨hn, _⟩
      · exact o.elim
      · rcases hn with o | rfl
        · exact o.elim
        · exact ⟨_, _, .completed hp, by simp, rfl⟩
    | backDOut o => exact o.elim
    | backIn _ hpo =>
      rcases hpo with o | rfl
      · exact o.elim
      · exact ⟨_, _, .completed hp, by simp, rfl⟩
  | backedC hw hc =>
    obtain ⟨p, hp, hP⟩ := ex hw
    cases hP with
    | backOut _ hq => rcases hq with ⟨o, _⟩ | ⟨_, _, _, _, _, hq⟩ <;> first | exact o.elim | simp at hq
    | backDOut o => exact o.elim
    | backIn =>
      simp only [List.map_append, List.map_cons, List.map_nil, ← List.append_assoc] at hp
      exact ⟨_, _, .backedC hp (Rl.H.nodeC _ _ hc), by simp, rfl⟩
  | backedD hw hd =>
    obtain ⟨p, hp, hP⟩ := ex hw
    cases hP with
    | backOut _ hq => rcases hq with ⟨o, _⟩ | ⟨_, _, _, _, _, hq⟩ <;> first | exact o.elim | simp at hq
    | backDOut o => exact o.elim
    | backDIn => exact ⟨_, _, .backedD hp (Rl.H.nodeD _ _ hd), by simp, rfl⟩

/-- Both searches can go on in the same ways. -/
theorem follow_back (L : alg.Local) (hu : m.useTable = false) {d : Nat} {dp : Int} (ls : List (Nat × Choice S A)) :
    ∀ {st σ σ' : St S A R X Y} {h hσ hσ' : List (Event S A R)} {f g : Nat → Nat}, WF st → st.crashed = none → st.root = d →
      (∃ nd, st.dn[d]? = some nd ∧ nd.depth = dp) → WF σ → Rel m False dp st d σ f g → execFrom env m alg σ hσ ls = some (σ', hσ') →
      ∃ st' h', execFrom env m alg st h ls = some (st', h') := by
  induction ls with
  | nil => intro st σ σ' h hσ hσ' f g _ _ _ _ _ _ _; exact ⟨st, h, rfl⟩
  | cons l ls ih =>
    obtain ⟨w, ch⟩ := l
    intro st σ σ' h hσ hσ' f g W hcr hr hdp hno Rl hx
    simp only [execFrom] at hx
    split at hx
    · rename_i σ1 e' hs
      obtain ⟨_, E'⟩ := step_eff hs
      have hcr1 := no_crash_eff hu hno Rl.crashed E'
      have hne' : ∀ v x, e' ≠ .crash v x := by
        intro v x he
        subst he
        cases E' with
        | crash h => simp at hcr1
      obtain ⟨st1, e, E, hne, hch⟩ := back_eff L hu Rl E' hne'
      have hs1 := eff_step' hu hcr E hne
      rw [hch, ← chOf_eq hs hne'] at hs1
      obtain ⟨σ2, f1, g1, Rl1, hh⟩ := sim_eff L hu W Rl hdp (fun hx => absurd hr hx) E
      rcases hh with ⟨_, hF⟩ | ⟨e2, E2, hne2, hF | hch2⟩
      · exact hF.elim
      · exact hF.elim
      · have hs2 := eff_step' hu Rl.crashed E2 hne2
        rw [hch2, ← chOf_eq hs1 hne, hs] at hs2
        cases hs2
        have hle := le_eff E
        obtain ⟨nd, hd, hdep⟩ := hdp
        obtain ⟨nd', k1, _, k3, _⟩ := hle.d _ _ hd
        obtain ⟨st', h', hx'⟩ := ih (h := e :: h) (wf_eff L hu W E) (no_crash_eff hu W hcr E) (by rw [hle.root]; exact hr) ⟨nd', k1, by rw [k3, hdep]⟩
          (wf_eff L hu hno E') Rl1 hx
        exact ⟨st', h', by simp only [execFrom, hs1]; exact hx'⟩
    · simp at hx

theorem wf_exec (L : alg.Local) (hu : m.useTable = false) (ls : List (Nat × Choice S A)) :
    ∀ {st st' : St S A R X Y} {h h' : List (Event S A R)}, WF st → execFrom env m alg st h ls = some (st', h') → WF st' := by
  induction ls with
  | nil => intro st st' h h' W hx; simp [execFrom] at hx; exact hx.1 ▸ W
  | cons l ls ih =>
    obtain ⟨w, ch⟩ := l
    intro st st' h h' W hx
    simp only [execFrom] at hx
    split at hx
    · rename_i hs
      exact ih (wf_eff L hu W (step_eff hs).2) hx
    · simp at hx

theorem fresh_wf (L : alg.Local) (hu : m.useTable = false) {s : S} {dp tm : Int} {σ : St S A R X Y} {h : List (Event S A R)}
    (F : Fresh env m alg k s dp tm σ h) : WF σ := by
  rcases F with ⟨ls, hl⟩ | ⟨_, w, ls, hw, hl⟩
  · exact wf_exec L hu ls (wf_init ..) hl
  · refine wf_exec L hu ls ?_ hl
    have W : WF (init env m alg k s dp tm []) := wf_init ..
    refine ⟨W.root, W.kidD, W.kidC, by simp [looked, init], ?_⟩
    intro v p hv
    simp only [looked] at hv
    by_cases hvw : w = v
    · subst hvw
      rw [List.getElem?_set_self (by simpa using hw)] at hv
      cases hv
      refine ⟨⟨_, rfl, ?_⟩, fun p hp => by simp at hp, rfl⟩
      have : (looked env m alg k s dp tm w).ctxOf w = {} := by
        show (((List.replicate k ({} : Ctx A R))[w]?).getD {}) = {}
        rw [List.getElem?_replicate]
        split <;> rfl
      rw [this]
      exact ⟨fun p hp => by simp at hp, fun p hp => by simp at hp⟩
    · rw [List.getElem?_set_ne hvw, List.getElem?_replicate] at hv
      split at hv
      · cases hv; trivial
      · cases hv

end Verif.Search
