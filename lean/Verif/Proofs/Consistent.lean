import Verif.Proofs.SearchPrefix

/-! # A node nobody still has to back up is up to date with its children -/

namespace Verif.Search

set_option linter.unusedSimpArgs false
set_option linter.unusedSectionVars false

variable {S A R X Y : Type} [DecidableEq S] [DecidableEq A]

theorem isPath_split {env : Env S A R} {st : St S A R X Y} {ss : List (Step S A R)} {s : Step S A R} :
    ∀ {d e : Nat}, IsPath env st d (ss ++ [s]) e → IsPath env st d ss s.d ∧ s.d' = e := by
  induction ss with
  | nil => intro d e hp; exact ⟨hp.1.symm, hp.2.2.2.2⟩
  | cons t ss ih =>
    intro d e hp
    obtain ⟨h1, h2, h3, h4, h6⟩ := hp
    exact ⟨⟨h1, h2, h3, h4, (ih h6).1⟩, (ih h6).2⟩

theorem isPath_take {env : Env S A R} {st : St S A R X Y} {ss : List (Step S A R)} {s : Step S A R} :
    ∀ {d e j : Nat}, IsPath env st d ss e → ss[j]? = some s → IsPath env st d (ss.take j) s.d := by
  induction ss with
  | nil => intro d e j hp hj; simp at hj
  | cons t ss ih =>
    intro d e j hp hj
    obtain ⟨h1, h2, h3, h4, h6⟩ := hp
    cases j with
    | zero => simp at hj; subst hj; exact h1.symm
    | succ j => exact ⟨h1, h2, h3, h4, ih h6 (by simpa using hj)⟩

section
variable [Add R] [Zero R] {env : Env S A R} {m : Manager S R} {s0 : S} {dp tm : Int} {st : St S A R X Y}

/-- No chance node leads to the root. -/
theorem root_no_parent (T : Tree env m s0 dp tm st) {c : Nat} {o : S} (h : childD st c o = some st.root) : False := by
  obtain ⟨nc, nd, k1, k2, _, _, k3, _⟩ := childD_facts T h
  obtain ⟨i, d, g1, g2⟩ := T.heap.cPar c nc.skel (by simp [k1])
  obtain ⟨n, g3, _, _, g4, _⟩ := T.heap.dKid i d _ c g1 g2
  simp [k1] at g3
  subst g3
  have := (T.heap.dTime i d g1).2
  obtain ⟨r, hr, _, hdr, _⟩ := root_node T
  rw [k2] at hr
  obtain rfl := Option.some.inj hr
  simp [CNode.skel] at g4
  omega

/-- The chance node above the current node of a trial is the last one on its path. -/
theorem path_parent (T : Tree env m s0 dp tm st) (hu : m.useTable = false) {ss : List (Step S A R)} {d c : Nat} {o : S}
    (hp : IsPath env st st.root ss d) (h : childD st c o = some d) : c ∈ (pairs ss).map Prod.snd := by
  rcases getLast?_cases ss with rfl | ⟨l, s, rfl⟩
  · simp only [IsPath] at hp
    subst hp
    exact absurd h (fun h => root_no_parent T h)
  · have hs := (isPath_mem hp s (by simp)).2
    rw [(isPath_split hp).2] at hs
    obtain ⟨nc, _, k1, _, k2, _⟩ := childD_facts T h
    obtain ⟨nc', _, k3, _, k4, _⟩ := childD_facts T hs
    have := T.heap.cUniq hu c s.c nc.skel nc'.skel o s.o d (by simp [k1]) (by simp [k3]) k2 k4
    subst this
    simp [pairs]

theorem childC_unique (T : Tree env m s0 dp tm st) {d d' c : Nat} {a a' : A} {nd nd' : DNode S A R X} (hd : st.dn[d]? = some nd)
    (hd' : st.dn[d']? = some nd') (h : (a, c) ∈ nd.kids) (h' : (a', c) ∈ nd'.kids) : d = d' :=
  T.heap.dUniq d d' nd.skel nd'.skel a a' c (by simp [hd]) (by simp [hd']) h h'

theorem kid_lt (T : Tree env m s0 dp tm st) {d c : Nat} {a : A} {nd : DNode S A R X} (hd : st.dn[d]? = some nd) (h : (a, c) ∈ nd.kids) :
    c < st.cn.length := by
  obtain ⟨nc, hc⟩ := tree_childC_exists T (childC_of_mem T hd h)
  exact (List.getElem?_eq_some_iff.1 hc).1

theorem ckid_lt (T : Tree env m s0 dp tm st) {c d : Nat} {o : S} {nc : CNode S A R Y} (hc : st.cn[c]? = some nc) (h : (o, d) ∈ nc.kids) :
    d < st.dn.length := by
  obtain ⟨nd, hd⟩ := tree_childD_exists T (childD_of_mem T hc h)
  exact (List.getElem?_eq_some_iff.1 hd).1

end

theorem filterMap_congr' {α β : Type} {f g : α → Option β} {l : List α} (h : ∀ a ∈ l, f a = g a) : l.filterMap f = l.filterMap g := by
  induction l with
  | nil => rfl
  | cons a l ih => rw [List.filterMap_cons, List.filterMap_cons, h a (by simp), ih (fun b hb => h b (by simp [hb]))]

/-- The view of a node depends on the children only. -/
theorem viewOf_congr {env : Env S A R} {m : Manager S R} {st st' : St S A R X Y} {nd : DNode S A R X}
    (h : ∀ a c, (a, c) ∈ nd.kids → (st'.cn[c]?).map (fun n => (n.visits, n.y)) = (st.cn[c]?).map (fun n => (n.visits, n.y))) :
    viewOf env m st' nd = viewOf env m st nd := by
  have : kidsY st' nd = kidsY st nd := by
    unfold kidsY
    refine filterMap_congr' ?_
    rintro ⟨a, c⟩ hp
    have := h a c hp
    cases h1 : st'.cn[c]? <;> cases h2 : st.cn[c]? <;> simp [h1, h2] at this ⊢
    exact this
  simp [viewOf, this]

theorem kidsX_congr {st st' : St S A R X Y} {nc : CNode S A R Y}
    (h : ∀ o d, (o, d) ∈ nc.kids → (st'.dn[d]?).map DNode.x = (st.dn[d]?).map DNode.x) : kidsX st' nc = kidsX st nc := by
  unfold kidsX
  refine filterMap_congr' ?_
  rintro ⟨o, d⟩ hp
  have := h o d hp
  cases h1 : st'.dn[d]? <;> cases h2 : st.dn[d]? <;> simp [h1, h2] at this ⊢
  exact this

/-- Nobody still has to back up decision node `d`. -/
def FreeD (st : St S A R X Y) (d : Nat) : Prop := ∀ (w : Nat) p, st.ws[w]? = some p → p.pendD d = 0

/-- Nobody still has to back up chance node `c`. -/
def FreeC (st : St S A R X Y) (c : Nat) : Prop := ∀ (w : Nat) p, st.ws[w]? = some p → p.pendC c = 0

/-- Every node is up to date with its children; the context at its last backup satisfied `K`. -/
structure UpToDateK (K : Ctx A R → Prop) (env : Env S A R) (m : Manager S R) (alg : Alg S A R X Y) (st : St S A R X Y) (h : List (Event S A R)) : Prop where
  d : ∀ (d : Nat) (nd : DNode S A R X), st.dn[d]? = some nd → FreeD st d → returnsD d h ≠ [] →
    ∃ x0 v0 ctx args, K ctx ∧ nd.x = alg.backupD (viewOf env m st { nd with x := x0, visits := v0 }) ctx args
  c : ∀ (c : Nat) (nc : CNode S A R Y), st.cn[c]? = some nc → FreeC st c → returnsC c h ≠ [] →
    ∃ y0 args, nc.y = alg.backupC nc.state nc.action y0 (kidsX st nc) args

theorem free_of {st st' : St S A R X Y} {f : Phase S A R → Nat} {w : Nat} {p q : Phase S A R} (hw : st.ws[w]? = some p)
    (hws : st'.ws = st.ws.set w q) (hpq : f q = 0 → f p = 0) (hf : ∀ (w : Nat) p, st'.ws[w]? = some p → f p = 0) :
    f q = 0 ∧ ∀ (w : Nat) p, st.ws[w]? = some p → f p = 0 := by
  have hlt := (List.getElem?_eq_some_iff.1 hw).1
  have hq : f q = 0 := hf w q (by rw [hws]; exact List.getElem?_set_self hlt)
  refine ⟨hq, ?_⟩
  intro w' p' hp'
  by_cases he : w' = w
  · subst he; rw [hw] at hp'; obtain rfl := Option.some.inj hp'; exact hpq hq
  · refine hf w' p' ?_
    rw [hws, List.getElem?_set_ne (Ne.symm he)]; exact hp'

theorem countP_mem {l : List (Nat × Nat)} {c : Nat} (h : c ∈ l.map Prod.snd) : l.countP (fun p => p.2 == c) ≠ 0 := by
  obtain ⟨p, hp, rfl⟩ := List.mem_map.1 h
  have : 0 < l.countP (fun q => q.2 == p.2) := List.countP_pos_iff.2 ⟨p, hp, by simp⟩
  omega

theorem uptodate_init [Zero R] (K : Ctx A R → Prop) (env : Env S A R) (m : Manager S R) (alg : Alg S A R X Y) (k : Nat) (s0 : S) (dp tm : Int)
    (tb : List ((Int × S) × Option Nat)) : UpToDateK K env m alg (init env m alg k s0 dp tm tb) [] :=
  ⟨fun _ _ _ _ h => absurd rfl h, fun _ _ _ _ h => absurd rfl h⟩

theorem returnsD_keep {d : Nat} {e : Event S A R} {h : List (Event S A R)} (he : ∀ w args, e ≠ .backedD w d args) :
    returnsD d (e :: h) = returnsD d h := by
  unfold returnsD
  rw [List.filterMap_cons]
  cases e <;> simp
  rename_i w d' args
  have hne : d' ≠ d := fun hd => by subst hd; exact absurd rfl (he w args)
  simp [hne]

theorem returnsC_keep {c : Nat} {e : Event S A R} {h : List (Event S A R)} (he : ∀ w args, e ≠ .backedC w c args) :
    returnsC c (e :: h) = returnsC c h := by
  unfold returnsC
  rw [List.filterMap_cons]
  cases e <;> simp
  rename_i w d' args
  have hne : d' ≠ c := fun hd => by subst hd; exact absurd rfl (he w args)
  simp [hne]

/-- Leaves are never backed up. -/
theorem leaf_no_returns [AddMonoid R] {env : Env S A R} {m : Manager S R} {alg : Alg S A R X Y} {s0 : S} {dp tm : Int} {st : St S A R X Y}
    {h : List (Event S A R)} (I : Inv env m s0 dp tm st h) (C : Cnt m alg st h) (B : Bk st h) {d : Nat} {nd : DNode S A R X}
    (hd : st.dn[d]? = some nd) (hl : isLeaf env m nd = true) : returnsD d h = [] := by
  have h1 : h.countP (Event.selAt d) = 0 := by
    refine countP_zero_of fun e he => ?_
    cases e <;> simp [Event.selAt]
    rename_i w d' a c
    rintro rfl
    obtain ⟨nd', _, k1, _, k2, _⟩ := childC_facts I.tree (C.evSel w d' a c he)
    rw [hd] at k1
    obtain rfl := Option.some.inj k1
    rw [isLeaf_skel] at hl
    have := I.tree.heap.dLeaf d' nd.skel (by simp [hd]) hl
    simp [DNode.skel] at this
    simp [this] at k2
  have := B.d d
  exact List.length_eq_zero_iff.1 (by omega)

theorem uptodate_eff [AddMonoid R] {K : Ctx A R → Prop} {env : Env S A R} {m : Manager S R} {alg : Alg S A R X Y} {s0 : S} {dp tm : Int} {st st' : St S A R X Y}
    {h : List (Event S A R)} {w : Nat} {e : Event S A R} (hvis : ∀ x, alg.visitD false x = x) (hu : m.useTable = false)
    (I : Inv env m s0 dp tm st h) (C : Cnt m alg st h) (B : Bk st h) (T : Touch st h) (hK : ∀ w, K (st.ctxOf w)) (U : UpToDateK K env m alg st h)
    (E : Eff env m alg st w e st') : UpToDateK K env m alg st' (e :: h) := by
  cases E with
  | crash hc =>
    refine ⟨fun d nd hd hf hr => ?_, fun c nc hc hf hr => ?_⟩
    · rw [returnsD_keep (by simp)] at hr
      exact U.d d nd hd hf hr
    · rw [returnsC_keep (by simp)] at hr
      exact U.c c nc hc hf hr
  | began hw =>
    refine ⟨fun d nd hd hf hr => ?_, fun c nc hc hf hr => ?_⟩
    · rw [returnsD_keep (by simp)] at hr
      exact U.d d nd hd (free_of (f := Phase.pendD d) hw rfl (by simp [Phase.pendD]) hf).2 hr
    · rw [returnsC_keep (by simp)] at hr
      exact U.c c nc hc (free_of (f := Phase.pendC c) hw rfl (by simp [Phase.pendC]) hf).2 hr
  | @selOld cur path rs new nd0 a c0 hw hd0 hl hm ha hf0 =>
    refine ⟨fun d nd hd hf hr => ?_, fun c nc hc hf hr => ?_⟩
    · rw [returnsD_keep (by simp)] at hr
      obtain ⟨hq, hf⟩ := free_of (f := Phase.pendD d) hw rfl (by simp only [Phase.pendD]; omega) hf
      have hne : d ≠ cur := by rintro rfl; simp [Phase.pendD] at hq
      dsimp only at hd
      rw [List.getElem?_set_ne (Ne.symm hne)] at hd
      exact U.d d nd hd hf hr
    · rw [returnsC_keep (by simp)] at hr
      obtain ⟨y0, args, h1⟩ := U.c c nc hc (free_of (f := Phase.pendC c) hw rfl (by simp [Phase.pendC]) hf).2 hr
      refine ⟨y0, args, ?_⟩
      refine h1.trans (congrArg (fun k => alg.backupC nc.state nc.action y0 k args) (kidsX_congr (st := st) ?_).symm)
      intro o d _
      dsimp only
      by_cases he : cur = d
      · subst he
        rw [List.getElem?_set_self (List.getElem?_eq_some_iff.1 hd0).1, hd0]
        simp [hvis]
      · rw [List.getElem?_set_ne he]
  | @selNew cur path rs new nd0 a hw hd0 hl hm ha hf0 =>
    refine ⟨fun d nd hd hf hr => ?_, fun c nc hc hf hr => ?_⟩
    · rw [returnsD_keep (by simp)] at hr
      obtain ⟨hq, hf⟩ := free_of (f := Phase.pendD d) hw rfl (by simp only [Phase.pendD]; omega) hf
      have hne : d ≠ cur := by rintro rfl; simp [Phase.pendD] at hq
      dsimp only at hd
      rw [List.getElem?_set_ne (Ne.symm hne)] at hd
      obtain ⟨x0, v0, ctx, args, hctx, h1⟩ := U.d d nd hd hf hr
      refine ⟨x0, v0, ctx, args, hctx, ?_⟩
      refine h1.trans (congrArg (fun v => alg.backupD v ctx args) (viewOf_congr (st := st) ?_).symm)
      intro b c hb
      dsimp only
      rw [List.getElem?_append_left (kid_lt I.tree hd hb)]
    · rw [returnsC_keep (by simp)] at hr
      rcases snoc_cases hc with ⟨_, hc⟩ | ⟨rfl, rfl⟩
      · obtain ⟨y0, args, h1⟩ := U.c c nc hc (free_of (f := Phase.pendC c) hw rfl (by simp [Phase.pendC]) hf).2 hr
        refine ⟨y0, args, ?_⟩
        refine h1.trans (congrArg (fun k => alg.backupC nc.state nc.action y0 k args) (kidsX_congr (st := st) ?_).symm)
        intro o d _
        dsimp only
        by_cases he : cur = d
        · subst he
          rw [List.getElem?_set_self (List.getElem?_eq_some_iff.1 hd0).1, hd0]
          simp [hvis]
        · rw [List.getElem?_set_ne he]
      · exact absurd (returnsC_nil T.freshC) hr
  | @ended cur path rs new nd0 hw hd0 hs =>
    refine ⟨fun d nd hd hf hr => ?_, fun c nc hc hf hr => ?_⟩
    · rw [returnsD_keep (by simp)] at hr
      have hf2 := (free_of (f := Phase.pendD d) hw rfl (by simp [Phase.pendD]) hf).2
      rcases set_cases hd with ⟨rfl, rfl⟩ | ⟨hne, hd⟩
      · obtain ⟨x0, v0, ctx, args, hctx, h1⟩ := U.d d nd0 hd0 hf2 hr
        cases hl : isLeaf env m nd0 with
        | true => exact absurd (leaf_no_returns I C B hd0 hl) hr
        | false => exact ⟨x0, v0, ctx, args, hctx, by simp only [hvis, h1]; rfl⟩
      · exact U.d d nd hd hf2 hr
    · rw [returnsC_keep (by simp)] at hr
      obtain ⟨hq, hf⟩ := free_of (f := Phase.pendC c) hw rfl (by simp [Phase.pendC]) hf
      obtain ⟨y0, args, h1⟩ := U.c c nc hc hf hr
      refine ⟨y0, args, ?_⟩
      refine h1.trans (congrArg (fun k => alg.backupC nc.state nc.action y0 k args) (kidsX_congr (st := st) ?_).symm)
      intro o d hk
      dsimp only
      by_cases he : cur = d
      · subst he
        obtain ⟨b1, b2, _⟩ := I.ws w _ hw
        have := path_parent I.tree hu b1.1 (childD_of_mem I.tree hc hk)
        rw [← b2] at this
        exact absurd hq (countP_mem this)
      · rw [List.getElem?_set_ne he]
  | @stepOld cur a c0 path rs new nc0 nd0 o d' hw hc0 hd0 ho hf0 =>
    obtain ⟨b1, _, _, _, _, _, b7, _⟩ := I.ws w _ hw
    obtain ⟨ndc, _, k1, _, k2, _⟩ := childC_facts I.tree b7
    refine ⟨fun d nd hd hf hr => ?_, fun c nc hc hf hr => ?_⟩
    · rw [returnsD_keep (by simp)] at hr
      obtain ⟨hq, hf⟩ := free_of (f := Phase.pendD d) hw rfl (by simp [Phase.pendD, List.countP_cons]) hf
      have hne : d ≠ cur := by rintro rfl; simp [Phase.pendD, List.countP_cons] at hq
      obtain ⟨x0, v0, ctx, args, hctx, h1⟩ := U.d d nd hd hf hr
      refine ⟨x0, v0, ctx, args, hctx, ?_⟩
      refine h1.trans (congrArg (fun v => alg.backupD v ctx args) (viewOf_congr (st := st) ?_).symm)
      intro b c hb
      dsimp only at hb ⊢
      by_cases he : c0 = c
      · subst he
        exact absurd (childC_unique I.tree hd k1 hb k2) hne
      · rw [List.getElem?_set_ne he]
    · rw [returnsC_keep (by simp)] at hr
      obtain ⟨hq, hf⟩ := free_of (f := Phase.pendC c) hw rfl (by simp only [Phase.pendC, List.countP_append]; omega) hf
      have hne : c ≠ c0 := by rintro rfl; simp [Phase.pendC, List.countP_cons] at hq
      dsimp only at hc
      rw [List.getElem?_set_ne (Ne.symm hne)] at hc
      exact U.c c nc hc hf hr
  | @stepNew cur a c0 path rs new nc0 nd0 o tb hw hc0 hd0 ho hf0 ht =>
    obtain ⟨b1, _, _, _, _, _, b7, _⟩ := I.ws w _ hw
    obtain ⟨ndc, _, k1, _, k2, _⟩ := childC_facts I.tree b7
    refine ⟨fun d nd hd hf hr => ?_, fun c nc hc hf hr => ?_⟩
    · rw [returnsD_keep (by simp)] at hr
      rcases snoc_cases hd with ⟨_, hd⟩ | ⟨rfl, rfl⟩
      · obtain ⟨hq, hf⟩ := free_of (f := Phase.pendD d) hw rfl (by simp [Phase.pendD, List.countP_cons]) hf
        have hne : d ≠ cur := by rintro rfl; simp [Phase.pendD, List.countP_cons] at hq
        obtain ⟨x0, v0, ctx, args, hctx, h1⟩ := U.d d nd hd hf hr
        refine ⟨x0, v0, ctx, args, hctx, ?_⟩
        refine h1.trans (congrArg (fun v => alg.backupD v ctx args) (viewOf_congr (st := st) ?_).symm)
        intro b c hb
        dsimp only at hb ⊢
        by_cases he : c0 = c
        · subst he
          exact absurd (childC_unique I.tree hd k1 hb k2) hne
        · rw [List.getElem?_set_ne he]
      · exact absurd (returnsD_nil T.freshD) hr
    · rw [returnsC_keep (by simp)] at hr
      obtain ⟨hq, hf⟩ := free_of (f := Phase.pendC c) hw rfl (by simp only [Phase.pendC, List.countP_append]; omega) hf
      have hne : c ≠ c0 := by rintro rfl; simp [Phase.pendC, List.countP_cons] at hq
      dsimp only at hc
      rw [List.getElem?_set_ne (Ne.symm hne)] at hc
      obtain ⟨y0, args, h1⟩ := U.c c nc hc hf hr
      refine ⟨y0, args, ?_⟩
      refine h1.trans (congrArg (fun k => alg.backupC nc.state nc.action y0 k args) (kidsX_congr (st := st) ?_).symm)
      intro o d hk
      dsimp only
      rw [List.getElem?_append_left (ckid_lt I.tree hc hk)]
  | @stepHit cur a c0 path rs new nc0 nd0 o d' hw hc0 hd0 ho hf0 hu' ht => rw [hu] at hu'; exact absurd hu' (by simp)
  | completed hw =>
    refine ⟨fun d nd hd hf hr => ?_, fun c nc hc hf hr => ?_⟩
    · rw [returnsD_keep (by simp)] at hr
      exact U.d d nd hd (free_of (f := Phase.pendD d) hw rfl (by simp [Phase.pendD]) hf).2 hr
    · rw [returnsC_keep (by simp)] at hr
      exact U.c c nc hc (free_of (f := Phase.pendC c) hw rfl (by simp [Phase.pendC]) hf).2 hr
  | @backedC nodes d0 c0 before r after ret tot nc0 hw hc0 =>
    obtain ⟨e, hv, j, h1, h2, h3, h4, h5, _⟩ := I.ws w _ hw
    have hlink : ∃ a, childC st d0 a = some c0 := by
      have : (d0, c0) ∈ (pairs (stepsOf w h)).take j := by rw [← h5]; simp
      obtain ⟨s, hs, hs2⟩ := List.mem_map.1 (List.mem_of_mem_take this)
      simp only [Prod.mk.injEq] at hs2
      obtain ⟨rfl, rfl⟩ := hs2
      exact ⟨s.a, (isPath_mem h3.1 s hs).1⟩
    obtain ⟨a, hlink⟩ := hlink
    obtain ⟨ndc, _, k1, _, k2, _⟩ := childC_facts I.tree hlink
    refine ⟨fun d nd hd hf hr => ?_, fun c nc hc hf hr => ?_⟩
    · rw [returnsD_keep (by simp)] at hr
      obtain ⟨hq, hf⟩ := free_of (f := Phase.pendD d) hw rfl (by simp [Phase.pendD, List.countP_cons]) hf
      have hne : d ≠ d0 := by rintro rfl; simp [Phase.pendD, List.countP_cons] at hq
      obtain ⟨x0, v0, ctx, args, hctx, h1⟩ := U.d d nd hd hf hr
      refine ⟨x0, v0, ctx, args, hctx, ?_⟩
      refine h1.trans (congrArg (fun v => alg.backupD v ctx args) (viewOf_congr (st := st) ?_).symm)
      intro b c hb
      dsimp only at hb ⊢
      by_cases he : c0 = c
      · subst he
        exact absurd (childC_unique I.tree hd k1 hb k2) hne
      · rw [List.getElem?_set_ne he]
    · rcases set_cases hc with ⟨rfl, rfl⟩ | ⟨hne, hc⟩
      · exact ⟨nc0.y, ⟨before, after ++ [r], ret + r, tot⟩, rfl⟩
      · rw [returnsC_keep (by simp [Ne.symm hne])] at hr
        obtain ⟨hq, hf⟩ := free_of (f := Phase.pendC c) hw rfl (by simp [Phase.pendC, List.countP_cons, Ne.symm hne]) hf
        exact U.c c nc hc hf hr
  | @backedD d0 nodes before after ret tot nd0 hw hd0 =>
    refine ⟨fun d nd hd hf hr => ?_, fun c nc hc hf hr => ?_⟩
    · rcases set_cases hd with ⟨rfl, rfl⟩ | ⟨hne, hd⟩
      · exact ⟨nd0.x, nd0.visits, st.ctxOf w, ⟨before, after, ret, tot⟩, hK w, rfl⟩
      · rw [returnsD_keep (by simp [Ne.symm hne])] at hr
        obtain ⟨hq, hf⟩ := free_of (f := Phase.pendD d) hw rfl (by simp [Phase.pendD, List.countP_cons, Ne.symm hne]) hf
        exact U.d d nd hd hf hr
    · rw [returnsC_keep (by simp)] at hr
      obtain ⟨hq, hf⟩ := free_of (f := Phase.pendC c) hw rfl (by simp [Phase.pendC]) hf
      obtain ⟨y0, args, h1⟩ := U.c c nc hc hf hr
      refine ⟨y0, args, ?_⟩
      refine h1.trans (congrArg (fun k => alg.backupC nc.state nc.action y0 k args) (kidsX_congr (st := st) ?_).symm)
      intro o d hk
      dsimp only
      by_cases he : d0 = d
      · subst he
        obtain ⟨e, hv, j, s, g1, g2, g3, g4, g5, g6, _⟩ := I.ws w _ hw
        have hp := isPath_take g4.1 g1
        rw [g2] at hp
        have := path_parent I.tree hu hp (childD_of_mem I.tree hc hk)
        rw [show pairs ((stepsOf w h).take j) = nodes by rw [g6]; simp [pairs, List.map_take]] at this
        exact absurd hq (countP_mem this)
      · rw [List.getElem?_set_ne he]

theorem reach_uptodateK [AddMonoid R] {K : Ctx A R → Prop} {env : Env S A R} {m : Manager S R} {alg : Alg S A R X Y} (hv : alg.Valid)
    (hvis : ∀ x, alg.visitD false x = x) (hu : m.useTable = false) {k : Nat} {s0 : S} {dp tm : Int}
    {tb : List ((Int × S) × Option Nat)} (htb : Leftover tb) {st : St S A R X Y} {h : List (Event S A R)}
    (hK : ∀ st' h', Reachable env m alg k s0 dp tm tb st' h' → h' <:+ h → ∀ w, K (st'.ctxOf w))
    (hr : Reachable env m alg k s0 dp tm tb st h) : UpToDateK K env m alg st h := by
  obtain ⟨ls, hx⟩ := hr
  obtain ⟨n, hn⟩ : ∃ n, ls.length = n := ⟨_, rfl⟩
  suffices H : (Inv env m s0 dp tm st h ∧ Cnt m alg st h) ∧ (Bk st h ∧ Touch st h) ∧ UpToDateK K env m alg st h from H.2.2
  induction n generalizing ls st h with
  | zero =>
    have : ls = [] := List.length_eq_zero_iff.1 hn
    subst this
    simp [execFrom] at hx
    obtain ⟨rfl, rfl⟩ := hx
    exact ⟨⟨inv_init env m alg k s0 dp tm tb htb, cnt_init env m alg k s0 dp tm tb⟩,
      ⟨bk_init env m alg k s0 dp tm tb, ⟨by simp, by simp⟩⟩, uptodate_init K env m alg k s0 dp tm tb⟩
  | succ n ih =>
    rcases getLast?_cases ls with rfl | ⟨l, ⟨w, ch⟩, rfl⟩
    · simp at hn
    · rw [exec_snoc] at hx
      simp only [Option.bind_eq_some_iff, Option.map_eq_some_iff, Prod.exists] at hx
      obtain ⟨s1, h', hx1, s2, e', hst, heq⟩ := hx
      simp only [Prod.mk.injEq] at heq
      obtain ⟨rfl, rfl⟩ := heq
      obtain ⟨_, E⟩ := step_eff hst
      have hp := ih (fun st' h'' hr' hs' => hK st' h'' hr' (hs'.trans (List.suffix_cons _ _))) l hx1 (by simpa using hn)
      exact ⟨⟨inv_eff hv hp.1.1 E, cnt_eff hp.1.1 hp.1.2 E⟩, ⟨bk_eff hp.2.1.1 E, touch_eff hp.2.1.2 E⟩,
        uptodate_eff hvis hu hp.1.1 hp.1.2 hp.2.1.1 hp.2.1.2 (hK _ _ ⟨l, hx1⟩ (List.suffix_cons _ _)) hp.2.2 E⟩

/-- Every node is up to date with its children. -/
structure UpToDate (env : Env S A R) (m : Manager S R) (alg : Alg S A R X Y) (st : St S A R X Y) (h : List (Event S A R)) : Prop where
  d : ∀ (d : Nat) (nd : DNode S A R X), st.dn[d]? = some nd → FreeD st d → returnsD d h ≠ [] →
    ∃ x0 v0 ctx args, nd.x = alg.backupD (viewOf env m st { nd with x := x0, visits := v0 }) ctx args
  c : ∀ (c : Nat) (nc : CNode S A R Y), st.cn[c]? = some nc → FreeC st c → returnsC c h ≠ [] →
    ∃ y0 args, nc.y = alg.backupC nc.state nc.action y0 (kidsX st nc) args

theorem reach_uptodate [AddMonoid R] {env : Env S A R} {m : Manager S R} {alg : Alg S A R X Y} (hv : alg.Valid)
    (hvis : ∀ x, alg.visitD false x = x) (hu : m.useTable = false) {k : Nat} {s0 : S} {dp tm : Int}
    {tb : List ((Int × S) × Option Nat)} (htb : Leftover tb) {st : St S A R X Y} {h : List (Event S A R)}
    (hr : Reachable env m alg k s0 dp tm tb st h) : UpToDate env m alg st h := by
  have U := reach_uptodateK (K := fun _ => True) hv hvis hu htb (fun _ _ _ _ _ => trivial) hr
  refine ⟨fun d nd hd hf hr => ?_, U.c⟩
  obtain ⟨x0, v0, ctx, args, _, h1⟩ := U.d d nd hd hf hr
  exact ⟨x0, v0, ctx, args, h1⟩

end Verif.Search
