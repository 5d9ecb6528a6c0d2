import Verif.Proofs.SearchStep

/-! # The tree invariant along executions, and monotone growth of the tree -/

namespace Verif.Search

set_option linter.unusedSimpArgs false
set_option linter.unusedSectionVars false

variable {S A R X Y : Type} [DecidableEq S] [DecidableEq A] [Add R] [Zero R]


structure Tree (env : Env S A R) (m : Manager S R) (s0 : S) (dp tm : Int) (st : St S A R X Y) : Prop where
  root : st.root = 0
  heap : HInv env m s0 dp tm (st.dn.map DNode.skel) (st.cn.map CNode.skel) st.table

theorem tree_init (env : Env S A R) (m : Manager S R) (alg : Alg S A R X Y) (k : Nat) (s0 : S) (dp tm : Int)
    (tb : List ((Int × S) × Option Nat)) (htb : ∀ p ∈ tb, p.2 = none) :
    Tree env m s0 dp tm (init env m alg k s0 dp tm tb) :=
  ⟨rfl, hinv_init env m s0 dp tm tb htb⟩

theorem map_set_same {α β : Type} (f : α → β) {l : List α} {i : Nat} {a b : α} (h : l[i]? = some a) (hf : f b = f a) :
    (l.set i b).map f = l.map f := by
  rw [List.map_set, hf]
  apply List.ext_getElem?
  intro j
  rw [List.getElem?_set]
  split
  · rename_i hij; subst hij
    simp [h]
    exact (List.getElem?_eq_some_iff.1 h).1
  · rfl

theorem tree_eff {env : Env S A R} {m : Manager S R} {alg : Alg S A R X Y} (hv : alg.Valid) {s0 : S} {dp tm : Int}
    {st st' : St S A R X Y} {w : Nat} {e : Event S A R} (T : Tree env m s0 dp tm st) (E : Eff env m alg st w e st') :
    Tree env m s0 dp tm st' := by
  obtain ⟨hr, H⟩ := T
  cases E with
  | crash | began | completed => exact ⟨hr, H⟩
  | selOld hw hd =>
    refine ⟨hr, ?_⟩
    simp only
    rw [map_set_same DNode.skel hd]
    · exact H
    · rfl
  | ended hw hd =>
    refine ⟨hr, ?_⟩
    simp only
    rw [map_set_same DNode.skel hd]
    · exact H
    · rfl
  | backedD hw hd =>
    refine ⟨hr, ?_⟩
    simp only
    rw [map_set_same DNode.skel hd]
    · exact H
    · rfl
  | stepOld hw hc =>
    refine ⟨hr, ?_⟩
    simp only
    rw [map_set_same CNode.skel hc]
    · exact H
    · rfl
  | backedC hw hc =>
    refine ⟨hr, ?_⟩
    simp only
    rw [map_set_same CNode.skel hc]
    · exact H
    · rfl
  | @selNew cur path rs new nd a hw hd hl hm ha hf =>
    refine ⟨hr, ?_⟩
    have h1 : (st.dn.map DNode.skel)[cur]? = some nd.skel := by simp [hd]
    have := hinv_addC H h1 hl (hv _ _ _ ha) hf
    simpa [List.map_set, DNode.skel, CNode.skel, newC] using this
  | @stepNew cur a c path rs new nc nd o tb hw hc hd ho hf ht =>
    refine ⟨hr, ?_⟩
    have h1 : (st.cn.map CNode.skel)[c]? = some nc.skel := by simp [hc]
    have := hinv_addD H h1 ho hf (tb' := tb) (by simpa [CNode.skel] using ht)
    simpa [List.map_set, DNode.skel, CNode.skel, newD] using this
  | @stepHit cur a c path rs new nc nd o d' hw hc hd ho hf hu ht =>
    refine ⟨hr, ?_⟩
    have h1 : (st.cn.map CNode.skel)[c]? = some nc.skel := by simp [hc]
    have := hinv_linkD H h1 ho hf hu ht
    simpa [List.map_set, DNode.skel, CNode.skel] using this

/-! ## Growth -/

/-- Every node of `st` is still in `st'`, with the same identity, constants and children, and at least as many visits. -/
structure Le (st st' : St S A R X Y) : Prop where
  root : st'.root = st.root
  d : ∀ (i : Nat) nd, st.dn[i]? = some nd → ∃ nd', st'.dn[i]? = some nd' ∧ nd'.state = nd.state ∧ nd'.depth = nd.depth ∧
    nd'.time = nd.time ∧ nd'.heur = nd.heur ∧ (∃ ks, nd'.kids = nd.kids ++ ks) ∧ nd.visits ≤ nd'.visits
  c : ∀ (i : Nat) nc, st.cn[i]? = some nc → ∃ nc', st'.cn[i]? = some nc' ∧ nc'.state = nc.state ∧ nc'.action = nc.action ∧
    nc'.depth = nc.depth ∧ nc'.time = nc.time ∧ (∃ ks, nc'.kids = nc.kids ++ ks) ∧ nc.visits ≤ nc'.visits

theorem Le.refl (st : St S A R X Y) : Le st st :=
  ⟨rfl, fun _ nd h => ⟨nd, h, rfl, rfl, rfl, rfl, ⟨[], by simp⟩, Nat.le_refl _⟩,
    fun _ nd h => ⟨nd, h, rfl, rfl, rfl, rfl, ⟨[], by simp⟩, Nat.le_refl _⟩⟩

theorem Le.trans {s1 s2 s3 : St S A R X Y} (h : Le s1 s2) (h' : Le s2 s3) : Le s1 s3 := by
  refine ⟨h'.root.trans h.root, ?_, ?_⟩
  · intro i nd hi
    obtain ⟨n2, h2, a1, a2, a3, a4, ⟨k1, a5⟩, a6⟩ := h.d i nd hi
    obtain ⟨n3, h3, b1, b2, b3, b4, ⟨k2, b5⟩, b6⟩ := h'.d i n2 h2
    exact ⟨n3, h3, b1.trans a1, b2.trans a2, b3.trans a3, b4.trans a4, ⟨k1 ++ k2, by rw [b5, a5]; simp⟩, Nat.le_trans a6 b6⟩
  · intro i nd hi
    obtain ⟨n2, h2, a1, a2, a3, a4, ⟨k1, a5⟩, a6⟩ := h.c i nd hi
    obtain ⟨n3, h3, b1, b2, b3, b4, ⟨k2, b5⟩, b6⟩ := h'.c i n2 h2
    exact ⟨n3, h3, b1.trans a1, b2.trans a2, b3.trans a3, b4.trans a4, ⟨k1 ++ k2, by rw [b5, a5]; simp⟩, Nat.le_trans a6 b6⟩

/-- Growth of one list of nodes under `set` / `++ [x]`, generic in the relation. -/
theorem grow_set {α : Type} (P : α → α → Prop) (hr : ∀ a, P a a) {l : List α} {i : Nat} {a b : α} (h : l[i]? = some a)
    (hab : P a b) : ∀ (j : Nat) x, l[j]? = some x → ∃ y, (l.set i b)[j]? = some y ∧ P x y := by
  intro j x hx
  by_cases hj : i = j
  · subst hj
    rw [h] at hx; simp at hx; subst hx
    exact ⟨b, List.getElem?_set_self (List.getElem?_eq_some_iff.1 h).1, hab⟩
  · exact ⟨x, by simp [hj, hx], hr x⟩

theorem grow_append {α : Type} (P : α → α → Prop) (hr : ∀ a, P a a) {l : List α} {b : α} :
    ∀ (j : Nat) x, l[j]? = some x → ∃ y, (l ++ [b])[j]? = some y ∧ P x y := by
  intro j x hx
  exact ⟨x, by rw [List.getElem?_append_left (List.getElem?_eq_some_iff.1 hx).1]; exact hx, hr x⟩

theorem le_eff {env : Env S A R} {m : Manager S R} {alg : Alg S A R X Y}
    {st st' : St S A R X Y} {w : Nat} {e : Event S A R} (E : Eff env m alg st w e st') : Le st st' := by
  let P : DNode S A R X → DNode S A R X → Prop := fun nd nd' => nd'.state = nd.state ∧ nd'.depth = nd.depth ∧
    nd'.time = nd.time ∧ nd'.heur = nd.heur ∧ (∃ ks, nd'.kids = nd.kids ++ ks) ∧ nd.visits ≤ nd'.visits
  let Q : CNode S A R Y → CNode S A R Y → Prop := fun nc nc' => nc'.state = nc.state ∧ nc'.action = nc.action ∧
    nc'.depth = nc.depth ∧ nc'.time = nc.time ∧ (∃ ks, nc'.kids = nc.kids ++ ks) ∧ nc.visits ≤ nc'.visits
  have hP : ∀ a, P a a := fun a => ⟨rfl, rfl, rfl, rfl, ⟨[], by simp⟩, Nat.le_refl _⟩
  have hQ : ∀ a, Q a a := fun a => ⟨rfl, rfl, rfl, rfl, ⟨[], by simp⟩, Nat.le_refl _⟩
  have idD := (Le.refl st).d
  have idC := (Le.refl st).c
  cases E with
  | crash | began | completed => exact ⟨rfl, idD, idC⟩
  | selOld hw hd | ended hw hd =>
    exact ⟨rfl, grow_set P hP hd ⟨rfl, rfl, rfl, rfl, ⟨[], by simp⟩, by simp⟩, idC⟩
  | selNew hw hd =>
    exact ⟨rfl, grow_set P hP hd ⟨rfl, rfl, rfl, rfl, ⟨_, rfl⟩, by simp⟩, grow_append Q hQ⟩
  | backedD hw hd =>
    exact ⟨rfl, grow_set P hP hd ⟨rfl, rfl, rfl, rfl, ⟨[], by simp⟩, by simp⟩, idC⟩
  | stepOld hw hc | backedC hw hc =>
    exact ⟨rfl, idD, grow_set Q hQ hc ⟨rfl, rfl, rfl, rfl, ⟨[], by simp⟩, by simp⟩⟩
  | stepHit hw hc =>
    exact ⟨rfl, idD, grow_set Q hQ hc ⟨rfl, rfl, rfl, rfl, ⟨_, rfl⟩, by simp⟩⟩
  | stepNew hw hc =>
    exact ⟨rfl, grow_append P hP, grow_set Q hQ hc ⟨rfl, rfl, rfl, rfl, ⟨_, rfl⟩, by simp⟩⟩

theorem find?_append_some {K V : Type} [DecidableEq K] {k : K} {v : V} {l l' : List (K × V)} (h : find? k l = some v) :
    find? k (l ++ l') = some v := by
  induction l with
  | nil => simp [find?] at h
  | cons a l ih =>
    obtain ⟨k1, v1⟩ := a
    simp only [List.cons_append, find?] at h ⊢
    split at h
    · simp_all
    · simp_all

theorem Le.stateOf {st st' : St S A R X Y} (h : Le st st') {d : Nat} {x : S} (hx : stateOf st d = some x) :
    stateOf st' d = some x := by
  simp only [Verif.Search.stateOf, Option.map_eq_some_iff] at hx ⊢
  obtain ⟨nd, h1, rfl⟩ := hx
  obtain ⟨nd', h2, h3, _⟩ := h.d d nd h1
  exact ⟨nd', h2, h3⟩

theorem Le.childC {st st' : St S A R X Y} (h : Le st st') {d : Nat} {a : A} {c : Nat} (hx : childC st d a = some c) :
    childC st' d a = some c := by
  simp only [Verif.Search.childC, Option.bind_eq_some_iff] at hx ⊢
  obtain ⟨nd, h1, h2⟩ := hx
  obtain ⟨nd', h3, _, _, _, _, ⟨ks, hk⟩, _⟩ := h.d d nd h1
  exact ⟨nd', h3, by rw [hk]; exact find?_append_some h2⟩

theorem Le.childD {st st' : St S A R X Y} (h : Le st st') {c : Nat} {o : S} {d : Nat} (hx : childD st c o = some d) :
    childD st' c o = some d := by
  simp only [Verif.Search.childD, Option.bind_eq_some_iff] at hx ⊢
  obtain ⟨nd, h1, h2⟩ := hx
  obtain ⟨nd', h3, _, _, _, _, ⟨ks, hk⟩, _⟩ := h.c c nd h1
  exact ⟨nd', h3, by rw [hk]; exact find?_append_some h2⟩

theorem Le.isPath {env : Env S A R} {st st' : St S A R X Y} (h : Le st st') {ss : List (Step S A R)} :
    ∀ {d e : Nat}, IsPath env st d ss e → IsPath env st' d ss e := by
  induction ss with
  | nil => intro d e hp; exact hp
  | cons s ss ih =>
    intro d e hp
    obtain ⟨h1, h2, h3, ⟨x, h4, h5⟩, h6⟩ := hp
    exact ⟨h1, h.childC h2, h.childD h3, ⟨x, h.stateOf h4, h5⟩, ih h6⟩

theorem isPath_snoc {env : Env S A R} {st : St S A R X Y} {ss : List (Step S A R)} {s : Step S A R} :
    ∀ {d : Nat}, IsPath env st d ss s.d → IsPath env st s.d [s] s.d' → IsPath env st d (ss ++ [s]) s.d' := by
  induction ss with
  | nil => intro d hp hs; simp only [IsPath] at hp; subst hp; simpa using hs
  | cons t ss ih =>
    intro d hp hs
    obtain ⟨h1, h2, h3, h4, h6⟩ := hp
    exact ⟨h1, h2, h3, h4, ih h6 hs⟩

/-! ## Executions -/

/-- Induction principle: a property of (state, history) preserved by every effect holds along every execution. -/
theorem exec_induct {env : Env S A R} {m : Manager S R} {alg : Alg S A R X Y} (P : St S A R X Y → List (Event S A R) → Prop)
    (hstep : ∀ st h w e st', P st h → st.crashed = none → Eff env m alg st w e st' → P st' (e :: h))
    {ls : List (Nat × Choice S A)} : ∀ {st h st' h'}, P st h → execFrom env m alg st h ls = some (st', h') → P st' h' := by
  induction ls with
  | nil => intro st h st' h' hp hx; simp [execFrom] at hx; obtain ⟨rfl, rfl⟩ := hx; exact hp
  | cons l ls ih =>
    obtain ⟨w, ch⟩ := l
    intro st h st' h' hp hx
    simp only [execFrom] at hx
    split at hx
    · rename_i st1 e hs
      obtain ⟨hc, E⟩ := step_eff hs
      exact ih (hstep _ _ _ _ _ hp hc E) hx
    · simp at hx

theorem exec_le {env : Env S A R} {m : Manager S R} {alg : Alg S A R X Y} {ls : List (Nat × Choice S A)}
    {st st' : St S A R X Y} {h h'} (hx : execFrom env m alg st h ls = some (st', h')) : Le st st' :=
  exec_induct (fun s _ => Le st s) (fun _ _ _ _ _ hp _ E => hp.trans (le_eff E)) (Le.refl st) hx

end Verif.Search
