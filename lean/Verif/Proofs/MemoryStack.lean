import Verif.Proofs.MemorySearch
import Verif.Proofs.SearchMore
import Verif.Proofs.CtxInv

/-! # How much stack the destruction of a tree takes -/

namespace Verif.Mem

open Verif Verif.Search

theorem count_flatMap_le {x : Obj} : ∀ (l : List (Obj × List Obj)), (l.map Prod.fst).Nodup → (∀ p ∈ l, p.2.count x ≤ 1) →
    (∀ p ∈ l, ∀ q ∈ l, x ∈ p.2 → x ∈ q.2 → p.1 = q.1) → (l.flatMap Prod.snd).count x ≤ 1
  | [], _, _, _ => by simp
  | p :: l, hn, h1, h2 => by
    simp only [List.map_cons, List.nodup_cons] at hn
    have ih := count_flatMap_le l hn.2 (fun q hq => h1 q (by simp [hq])) (fun q hq r hr => h2 q (by simp [hq]) r (by simp [hr]))
    rw [List.flatMap_cons, List.count_append]
    by_cases hx : x ∈ p.2
    · have : (l.flatMap Prod.snd).count x = 0 := by
        rw [List.count_eq_zero]
        intro hm
        obtain ⟨q, hq, hxq⟩ := List.mem_flatMap.1 hm
        exact hn.1 (List.mem_map.2 ⟨q, hq, (h2 p (by simp) q (by simp [hq]) hx hxq).symm⟩)
      have := h1 p (by simp)
      omega
    · rw [List.count_eq_zero.2 hx]; omega

theorem count_map_le {K V : Type} [DecidableEq K] {f : V → Obj} {v : V} (hf : ∀ a b, f a = f b → a = b) : ∀ (l : List (K × V)),
    (l.map Prod.fst).Nodup → (∀ a b, (a, v) ∈ l → (b, v) ∈ l → a = b) → (l.map fun p => f p.2).count (f v) ≤ 1
  | [], _, _ => by simp
  | (a, u) :: l, hn, h => by
    simp only [List.map_cons, List.nodup_cons] at hn
    have ih := count_map_le (v := v) hf l hn.2 (fun a b ha hb => h a b (by simp [ha]) (by simp [hb]))
    rw [List.map_cons, List.count_cons]
    split
    · rename_i e
      have e : u = v := hf _ _ (by simpa using e)
      subst e
      have : (l.map fun p => f p.2).count (f u) = 0 := by
        rw [List.count_eq_zero]
        intro hm
        obtain ⟨⟨b, w⟩, hb, hw⟩ := List.mem_map.1 hm
        have := hf _ _ hw
        simp only at this
        subst this
        exact hn.1 (List.mem_map.2 ⟨(b, w), hb, (h a b (by simp) (by simp [hb])).symm⟩)
      omega
    · omega

section
variable {S A R X Y : Type} [DecidableEq S] [DecidableEq A] [AddMonoid R]
variable {env : Env S A R} {m : Manager S R} {s0 : S} {dp tm : Int} {st : Search.St S A R X Y}

theorem owners_c (T : Tree env m s0 dp tm st) (i : Nat) : ((owned st).flatMap Prod.snd).count (.c i) ≤ 1 := by
  refine count_flatMap_le _ (owned_nodup st) ?_ ?_
  · intro p hp
    rcases mem_owned.1 hp with rfl | ⟨j, nd, h, rfl⟩ | ⟨j, nc, h, rfl⟩
    · simp
    · rw [List.count_append]
      have := count_map_le (f := Obj.c) (v := i) (by simp) nd.kids (T.heap.dNodup j nd.skel (by simp [h])) (by
        intro a b ha hb
        obtain ⟨n, h1, -, h2, -⟩ := T.heap.dKid j nd.skel a i (by simp [h]) ha
        obtain ⟨n', h1', -, h2', -⟩ := T.heap.dKid j nd.skel b i (by simp [h]) hb
        rw [h1] at h1'
        simp only [Option.some.injEq] at h1'
        rw [← h2, ← h2', h1'])
      simpa using this
    · rw [List.count_append]
      have : (nc.kids.map fun k => Obj.d k.2).count (.c i) = 0 := by simp [List.count_eq_zero]
      rw [this]; simp
  · intro p hp q hq h1 h2
    have key : ∀ p ∈ owned st, Obj.c i ∈ p.2 → ∃ (j : Nat) (nd : DNode S A R X) (a : A), st.dn[j]? = some nd ∧ (a, i) ∈ nd.kids ∧ p.1 = .d j := by
      intro p hp hi
      rcases mem_owned.1 hp with rfl | ⟨j, nd, h, rfl⟩ | ⟨j, nc, h, rfl⟩
      · simp at hi
      · rcases mem_snoc.1 hi with hi | hi
        · simp at hi
        · obtain ⟨⟨a, c⟩, hk, e⟩ := List.mem_map.1 hi
          simp only [Obj.c.injEq] at e
          subst e
          exact ⟨j, nd, a, h, hk, rfl⟩
      · simp at hi
    obtain ⟨j, nd, a, g1, g2, g3⟩ := key p hp h1
    obtain ⟨j', nd', a', g1', g2', g3'⟩ := key q hq h2
    rw [g3, g3', T.heap.dUniq j j' nd.skel nd'.skel a a' i (by simp [g1]) (by simp [g1']) g2 g2']

theorem owners_d (T : Tree env m s0 dp tm st) (ht : m.useTable = false) (i : Nat) : ((owned st).flatMap Prod.snd).count (.d i) ≤ 1 := by
  refine count_flatMap_le _ (owned_nodup st) ?_ ?_
  · intro p hp
    rcases mem_owned.1 hp with rfl | ⟨j, nd, h, rfl⟩ | ⟨j, nc, h, rfl⟩
    · simp
    · rw [List.count_append]
      have : (nd.kids.map fun k => Obj.c k.2).count (.d i) = 0 := by simp [List.count_eq_zero]
      rw [this]; simp
    · rw [List.count_append]
      have := count_map_le (f := Obj.d) (v := i) (by simp) nc.kids (T.heap.cNodup j nc.skel (by simp [h])) (by
        intro a b ha hb
        obtain ⟨n, h1, h2, -⟩ := T.heap.cKid j nc.skel a i (by simp [h]) ha
        obtain ⟨n', h1', h2', -⟩ := T.heap.cKid j nc.skel b i (by simp [h]) hb
        rw [h1] at h1'
        simp only [Option.some.injEq] at h1'
        rw [← h2, ← h2', h1'])
      simpa using this
  · intro p hp q hq h1 h2
    have key : ∀ p ∈ owned st, Obj.d i ∈ p.2 → ∃ (j : Nat) (nc : CNode S A R Y) (o : S), st.cn[j]? = some nc ∧ (o, i) ∈ nc.kids ∧ p.1 = .c j := by
      intro p hp hi
      rcases mem_owned.1 hp with rfl | ⟨j, nd, h, rfl⟩ | ⟨j, nc, h, rfl⟩
      · simp at hi
      · simp at hi
      · rcases mem_snoc.1 hi with hi | hi
        · simp at hi
        · obtain ⟨⟨o, d⟩, hk, e⟩ := List.mem_map.1 hi
          simp only [Obj.d.injEq] at e
          subst e
          exact ⟨j, nc, o, h, hk, rfl⟩
    obtain ⟨j, nc, o, g1, g2, g3⟩ := key p hp h1
    obtain ⟨j', nc', o', g1', g2', g3'⟩ := key q hq h2
    rw [g3, g3', T.heap.cUniq ht j j' nc.skel nc'.skel o o' i (by simp [g1]) (by simp [g1']) g2 g2']

theorem owners_root (T : Tree env m s0 dp tm st) : ((owned st).flatMap Prod.snd).count (.d st.root) = 0 := by
  rw [List.count_eq_zero]
  intro hm
  obtain ⟨p, hp, hi⟩ := List.mem_flatMap.1 hm
  rcases mem_owned.1 hp with rfl | ⟨j, nd, h, rfl⟩ | ⟨j, nc, h, rfl⟩
  · simp at hi
  · simp at hi
  · rcases mem_snoc.1 hi with hi | hi
    · simp at hi
    · obtain ⟨⟨o, d⟩, hk, e⟩ := List.mem_map.1 hi
      simp only [Obj.d.injEq] at e
      subst e
      obtain ⟨n, h1, -, h2, -⟩ := T.heap.cKid j nc.skel o _ (by simp [h]) hk
      obtain ⟨r, h3, -, h4, -⟩ := T.heap.root
      rw [T.root, h3] at h1
      simp only [Option.some.injEq] at h1
      subst h1
      obtain ⟨i, nd, g1, g2⟩ := T.heap.cPar j nc.skel (by simp [h])
      obtain ⟨n, g3, -, -, g4, -⟩ := T.heap.dKid i nd _ j g1 g2
      have g5 := (T.heap.dTime i nd g1).2
      have : n = nc.skel := by
        have : (st.cn.map CNode.skel)[j]? = some nc.skel := by simp [h]
        rw [this] at g3; exact (Option.some.inj g3).symm
      subst this
      omega

/-- The nodes of a path. -/
def nodesOf : List (Step S A R) → List Obj
  | [] => []
  | s :: ss => .c s.c :: .d s.d' :: nodesOf ss

omit [DecidableEq S] [DecidableEq A] [AddMonoid R] in
theorem nodesOf_length : ∀ ss : List (Step S A R), (nodesOf ss).length = 2 * ss.length
  | [] => rfl
  | s :: ss => by simp [nodesOf, nodesOf_length ss]; omega

omit [AddMonoid R] in
theorem nodesOf_chain [Add R] [Zero R] : ∀ (ss : List (Step S A R)) (d e : Nat), IsPath env st d ss e → List.IsChain (Holds st) (.d d :: nodesOf ss)
  | [], _, _, _ => by simp [nodesOf]
  | s :: ss, d, e, h => by
    obtain ⟨h1, h2, h3, -, h4⟩ := h
    have := nodesOf_chain ss s.d' e h4
    simp only [nodesOf, List.isChain_cons_cons]
    exact ⟨.dc h2, .cd h3, this⟩

theorem path_depth (T : Tree env m s0 dp tm st) : ∀ (ss : List (Step S A R)) (d e : Nat) (nd ne : DNode S A R X), IsPath env st d ss e →
    st.dn[d]? = some nd → st.dn[e]? = some ne → ne.depth = nd.depth + ss.length
  | [], d, e, nd, ne, h, h1, h2 => by
    have h : d = e := h
    subst h
    rw [h1] at h2
    simp only [Option.some.injEq] at h2
    simp [h2]
  | s :: ss, d, e, nd, ne, h, h1, h2 => by
    obtain ⟨rfl, g1, g2, -, h4⟩ := h
    simp only [childC, h1, Option.bind_some] at g1
    obtain ⟨n, h5, -, -, h6, -⟩ := T.heap.dKid s.d nd.skel _ _ (by simp [h1]) (find?_mem g1)
    simp only [List.getElem?_map, Option.map_eq_some_iff] at h5
    obtain ⟨nc, h5, rfl⟩ := h5
    simp only [childD, h5, Option.bind_some] at g2
    obtain ⟨n, h7, -, h8, -⟩ := T.heap.cKid s.c nc.skel _ _ (by simp [h5]) (find?_mem g2)
    simp only [List.getElem?_map, Option.map_eq_some_iff] at h7
    obtain ⟨nd', h7, rfl⟩ := h7
    have := path_depth T ss s.d' e nd' ne h4 h7 h2
    simp only [DNode.skel, CNode.skel] at h6 h8
    simp only [List.length_cons]
    omega

/-- Destroying a tree by its last handle takes two stack frames for every level. -/
theorem stack_lower (T : Tree env m s0 dp tm st) (ht : m.useTable = false) {hs : List Obj} (hhs : ∀ x ∈ hs, x = .mgr) {k : Nat} {s : Mem}
    (hd : drop k (memOf st (.d st.root :: hs)) (.d st.root) = .ok s) {ss : List (Step S A R)} {e : Nat} (hp : IsPath env st st.root ss e) :
    2 * ss.length < k := by
  have hA : Acc (memOf st (.d st.root :: hs)).heap (.d st.root :: hs) := by
    refine memOf_acc T (by simp) ?_
    intro x hx
    rcases List.mem_cons.1 hx with rfl | hx
    · obtain ⟨r, h3, -⟩ := T.heap.root
      have := (List.getElem?_eq_some_iff.1 h3).1
      rw [T.root]
      simpa [Exists] using this
    · rw [hhs x hx]; trivial
  rw [← nodesOf_length]
  refine stack_needed k _ s _ hs (nodesOf ss) hA hd ?_ ?_
  · have := nodesOf_chain ss st.root e hp
    exact this.imp fun a b h => (holds_iff T _ a b).2 h
  · have hc0 : ∀ x, x ≠ .mgr → hs.count x = 0 := by
      intro x hx
      rw [List.count_eq_zero]
      intro h; exact hx (hhs x h)
    intro y hy c hc
    have h2 := (mem_memOf hc).2
    simp only at h2
    rcases List.mem_cons.1 hy with rfl | hy
    · rw [owners_root T, List.count_cons, hc0 _ (by simp)] at h2
      simp at h2; omega
    · have hnr : y ≠ .mgr ∧ y ≠ .d st.root → c.count ≤ 1 := by
        rintro ⟨n1, n2⟩
        rw [List.count_cons_of_ne (Ne.symm n2), hc0 _ n1] at h2
        cases y with
        | mgr => simp at n1
        | c i => have := owners_c T i; omega
        | d i => have := owners_d T ht i; omega
      have hmem : ∀ (ss : List (Step S A R)) (d : Nat), IsPath env st d ss e → y ∈ nodesOf ss → y ≠ .mgr ∧ (∀ i, y = .d i → Obj.d i ∈ (owned st).flatMap Prod.snd) := by
        intro ss
        induction ss with
        | nil => intro d _ h; simp [nodesOf] at h
        | cons s ss ih =>
          intro d h hy
          obtain ⟨h1, h2, h3, -, h4⟩ := h
          simp only [nodesOf, List.mem_cons] at hy
          rcases hy with rfl | rfl | hy
          · exact ⟨by simp, by simp⟩
          · refine ⟨by simp, ?_⟩
            intro i hi
            obtain ⟨c, hc, hm⟩ := (holds_iff T (.d st.root :: hs) _ _).2 (Holds.cd h3)
            rw [← hi]
            exact List.mem_flatMap.2 ⟨_, (mem_memOf hc).1, hm⟩
          · exact ih _ h4 hy
      obtain ⟨n1, n2⟩ := hmem ss st.root hp hy
      refine hnr ⟨n1, ?_⟩
      intro he
      have := List.count_pos_iff.2 (n2 _ he)
      have := owners_root T
      omega

/-- Without mcts mode, a completed trial leaves a path from the root to a leaf. -/
theorem completed_leaf {alg : Alg S A R X Y} {k : Nat} {tb : List ((Int × S) × Option Nat)} {h : List (Event S A R)} (hv : alg.Valid) (htb : Leftover tb)
    (hm : m.mctsMode = false) (hr : Reachable env m alg k s0 dp tm tb st h) {w : Nat} (hw : Event.completed w ∈ h) :
    ∃ ss e nd, IsPath env st st.root ss e ∧ st.dn[e]? = some nd ∧ isLeaf env m nd = true := by
  refine reach_induct (fun st h => ∀ w, Event.completed w ∈ h → ∃ ss e nd, IsPath env st st.root ss e ∧ st.dn[e]? = some nd ∧ isLeaf env m nd = true)
    (by simp) ?_ hr w hw
  intro st h w e st' hr ih hc E v hv'
  have L := le_eff E
  rcases List.mem_cons.1 hv' with he | hmem
  · have I := inv_eff hv (reach_inv hv htb hr) E
    subst he
    have hi : st'.ws[v]? = some .idle := by
      have hvw : v = w := eff_worker E
      subst hvw
      cases E
      rename_i hws
      have := (List.getElem?_eq_some_iff.1 hws).1
      simp [this]
    rcases I.ws v _ hi with h0 | ⟨e, x, h1, h2, ⟨nd, h3, -, h4⟩, -⟩
    · simp [trialOf, Event.worker] at h0
    · rcases h4 with h4 | ⟨h4, -⟩
      · exact ⟨_, e, nd, h2.1, h3, h4⟩
      · simp [hm] at h4
  · obtain ⟨ss, e, nd, h1, h2, h3⟩ := ih v hmem
    obtain ⟨nd', g1, g2, g3, -⟩ := L.d _ nd h2
    exact ⟨ss, e, nd', by rw [L.root]; exact L.isPath h1, g1, by rw [isLeaf_congr g2 g3]; exact h3⟩

/-- The nodes on a path exist. -/
theorem path_exists (T : Tree env m s0 dp tm st) : ∀ (ss : List (Step S A R)) (d e : Nat), IsPath env st d ss e →
    ∀ x ∈ pathHandles (pairs ss), Exists st x
  | [], _, _, _ => by simp [pairs, pathHandles]
  | s :: ss, d, e, h => by
    obtain ⟨rfl, g1, -, -, h4⟩ := h
    intro x hx
    have ih := path_exists T ss s.d' e h4 x
    simp only [pairs, pathHandles, List.map_cons, List.flatMap_cons, List.mem_append, List.mem_cons, List.not_mem_nil, or_false] at hx ih
    simp only [childC] at g1
    cases hd : st.dn[s.d]? with
    | none => simp [hd] at g1
    | some nd =>
      simp only [hd, Option.bind_some] at g1
      rcases hx with (rfl | rfl) | hx
      · exact (List.getElem?_eq_some_iff.1 hd).1
      · obtain ⟨n, h5, -⟩ := T.heap.dKid s.d nd.skel _ _ (by simp [hd]) (find?_mem g1)
        have := (List.getElem?_eq_some_iff.1 h5).1
        simpa [Exists] using this
      · exact ih hx

omit [DecidableEq S] [DecidableEq A] [AddMonoid R] in
theorem pathHandles_take {l : List (Nat × Nat)} {j : Nat} {x : Obj} (h : x ∈ pathHandles (l.take j)) : x ∈ pathHandles l := by
  obtain ⟨p, hp, hx⟩ := List.mem_flatMap.1 h
  exact List.mem_flatMap.2 ⟨p, List.mem_of_mem_take hp, hx⟩

/-- The nodes a worker holds exist. -/
theorem local_exists {h : List (Event S A R)} (I : Inv env m s0 dp tm st h) {w : Nat} {p : Phase S A R} (hp : st.ws[w]? = some p) :
    ∀ x ∈ localHandles p, Exists st x := by
  have T := I.tree
  have H := I.ws w p hp
  intro x hx
  cases p with
  | idle => simp [localHandles] at hx
  | sel cur path rs new =>
    obtain ⟨⟨h1, ⟨nd, h2⟩, -⟩, rfl, -⟩ := H
    rcases List.mem_cons.1 hx with rfl | hx
    · exact (List.getElem?_eq_some_iff.1 h2).1
    · exact path_exists T _ _ _ h1 x hx
  | samp cur a c path rs new =>
    obtain ⟨⟨h1, ⟨nd, h2⟩, -⟩, rfl, -, -, -, -, g1, -⟩ := H
    rcases List.mem_cons.1 hx with rfl | hx
    · exact (List.getElem?_eq_some_iff.1 h2).1
    · rcases List.mem_cons.1 hx with rfl | hx
      · simp only [childC, h2, Option.bind_some] at g1
        obtain ⟨n, h5, -⟩ := T.heap.dKid cur nd.skel _ _ (by simp [h2]) (find?_mem g1)
        have := (List.getElem?_eq_some_iff.1 h5).1
        simpa [Exists] using this
      · exact path_exists T _ _ _ h1 x hx
  | back nodes before after ret tot =>
    obtain ⟨e, v, j, -, -, h1, -, rfl, -⟩ := H
    exact path_exists T _ _ _ h1.1 x (pathHandles_take hx)
  | backD d nodes before after ret tot =>
    obtain ⟨e, v, j, s, hs, rfl, -, h1, -, rfl, -⟩ := H
    rcases List.mem_cons.1 hx with rfl | hx
    · refine path_exists T _ _ _ h1.1 _ ?_
      exact List.mem_flatMap.2 ⟨(s.d, s.c), List.mem_map.2 ⟨s, List.mem_of_getElem? hs, rfl⟩, by simp⟩
    · exact path_exists T _ _ _ h1.1 x (pathHandles_take hx)

end

end Verif.Mem
