import Verif.Spec.Memory
import Verif.Proofs.Memory
import Verif.Proofs.SearchMore
import Mathlib.Data.List.Nodup

/-! # The memory of a search -/

set_option linter.unusedSectionVars false

namespace Verif.Mem

open Verif Search

variable {S A R X Y : Type} [DecidableEq S] [DecidableEq A]

theorem mem_snoc {α : Type} {x y : α} {l : List α} : x ∈ l ++ [y] ↔ x = y ∨ x ∈ l := by
  simp [or_comm]

theorem mem_owned {st : Search.St S A R X Y} {p : Obj × List Obj} : p ∈ owned st ↔ p = (.mgr, []) ∨
    (∃ (i : Nat) (nd : DNode S A R X), st.dn[i]? = some nd ∧ p = (.d i, (nd.kids.map fun k => .c k.2) ++ [.mgr])) ∨
    (∃ (i : Nat) (nc : CNode S A R Y), st.cn[i]? = some nc ∧ p = (.c i, (nc.kids.map fun k => .d k.2) ++ [.mgr])) := by
  simp only [owned, List.mem_cons, List.mem_append, List.mem_map, Prod.exists, List.mem_zipIdx_iff_getElem?]
  constructor
  · rintro (h | ⟨nd, i, h, rfl⟩ | ⟨nc, i, h, rfl⟩)
    · exact .inl h
    · exact .inr (.inl ⟨i, nd, h, rfl⟩)
    · exact .inr (.inr ⟨i, nc, h, rfl⟩)
  · rintro (h | ⟨i, nd, h, rfl⟩ | ⟨i, nc, h, rfl⟩)
    · exact .inl h
    · exact .inr (.inl ⟨nd, i, h, rfl⟩)
    · exact .inr (.inr ⟨nc, i, h, rfl⟩)

theorem owned_nodup (st : Search.St S A R X Y) : ((owned st).map Prod.fst).Nodup := by
  have e : (owned st).map Prod.fst = .mgr :: ((List.range' 0 st.dn.length).map Obj.d ++ (List.range' 0 st.cn.length).map Obj.c) := by
    simp only [owned, List.map_cons, List.map_append, List.map_map, ← List.zipIdx_map_snd]
    rfl
  rw [e, List.nodup_cons, List.nodup_append]
  refine ⟨by simp, ?_, ?_, by simp⟩
  · exact List.Nodup.map (fun a b h => by simpa using h) List.nodup_range'
  · exact List.Nodup.map (fun a b h => by simpa using h) List.nodup_range'

theorem memOf_fst (st : Search.St S A R X Y) (hs : List Obj) : (memOf st hs).heap.map Prod.fst = (owned st).map Prod.fst := by
  simp [memOf]

theorem memOf_refs (st : Search.St S A R X Y) (hs : List Obj) : allRefs (memOf st hs).heap = (owned st).flatMap Prod.snd := by
  simp [memOf, allRefs, List.flatMap_map]

theorem mem_memOf {st : Search.St S A R X Y} {hs : List Obj} {p : Obj × Cell} (hp : p ∈ (memOf st hs).heap) :
    (p.1, p.2.refs) ∈ owned st ∧ p.2.count = ((owned st).flatMap Prod.snd).count p.1 + hs.count p.1 := by
  obtain ⟨q, hq, rfl⟩ := List.mem_map.1 hp
  exact ⟨hq, rfl⟩

theorem exists_iff {st : Search.St S A R X Y} {x : Obj} : x ∈ (owned st).map Prod.fst ↔ Exists st x := by
  simp only [List.mem_map]
  constructor
  · rintro ⟨p, hp, rfl⟩
    rcases mem_owned.1 hp with rfl | ⟨i, nd, h, rfl⟩ | ⟨i, nc, h, rfl⟩
    · trivial
    · exact (List.getElem?_eq_some_iff.1 h).1
    · exact (List.getElem?_eq_some_iff.1 h).1
  · intro h
    cases x with
    | mgr => exact ⟨_, mem_owned.2 (.inl rfl), rfl⟩
    | d i => exact ⟨_, mem_owned.2 (.inr (.inl ⟨i, _, List.getElem?_eq_getElem h, rfl⟩)), rfl⟩
    | c i => exact ⟨_, mem_owned.2 (.inr (.inr ⟨i, _, List.getElem?_eq_getElem h, rfl⟩)), rfl⟩

variable [Add R] [Zero R] {env : Env S A R} {m : Manager S R} {s0 : S} {dp tm : Int} {st : Search.St S A R X Y}

theorem holds_iff (T : Tree env m s0 dp tm st) (hs : List Obj) (x y : Obj) : Owns (memOf st hs).heap x y ↔ Holds st x y := by
  constructor
  · rintro ⟨c, hc, hy⟩
    rcases mem_owned.1 (mem_memOf hc).1 with h | ⟨i, nd, h, e⟩ | ⟨i, nc, h, e⟩
    · simp only [Prod.mk.injEq] at h
      rw [h.2] at hy; simp at hy
    · simp only [Prod.mk.injEq] at e
      obtain ⟨rfl, e⟩ := e
      rw [e] at hy
      rcases mem_snoc.1 hy with rfl | hy
      · exact .dm (List.getElem?_eq_some_iff.1 h).1
      · obtain ⟨⟨a, j⟩, hk, rfl⟩ := List.mem_map.1 hy
        refine .dc (a := a) ?_
        have hn := T.heap.dNodup i nd.skel (by simp [h])
        simp only [childC, h, Option.bind_some]
        exact find?_of_mem hn hk
    · simp only [Prod.mk.injEq] at e
      obtain ⟨rfl, e⟩ := e
      rw [e] at hy
      rcases mem_snoc.1 hy with rfl | hy
      · exact .cm (List.getElem?_eq_some_iff.1 h).1
      · obtain ⟨⟨a, j⟩, hk, rfl⟩ := List.mem_map.1 hy
        refine .cd (o := a) ?_
        have hn := T.heap.cNodup i nc.skel (by simp [h])
        simp only [childD, h, Option.bind_some]
        exact find?_of_mem hn hk
  · intro h
    have mk : ∀ {x : Obj} {l : List Obj}, (x, l) ∈ owned st → y ∈ l → Owns (memOf st hs).heap x y := by
      intro x l hx hy
      exact ⟨_, List.mem_map.2 ⟨_, hx, rfl⟩, hy⟩
    cases h with
    | @dc d c a h =>
      obtain ⟨nd, h1, h2⟩ := Option.bind_eq_some_iff.1 h
      exact mk (mem_owned.2 (.inr (.inl ⟨d, nd, h1, rfl⟩))) (List.mem_append_left _ (List.mem_map.2 ⟨_, find?_mem h2, rfl⟩))
    | @cd c d o h =>
      obtain ⟨nc, h1, h2⟩ := Option.bind_eq_some_iff.1 h
      exact mk (mem_owned.2 (.inr (.inr ⟨c, nc, h1, rfl⟩))) (List.mem_append_left _ (List.mem_map.2 ⟨_, find?_mem h2, rfl⟩))
    | dm h => exact mk (mem_owned.2 (.inr (.inl ⟨_, _, List.getElem?_eq_getElem h, rfl⟩))) (by simp)
    | cm h => exact mk (mem_owned.2 (.inr (.inr ⟨_, _, List.getElem?_eq_getElem h, rfl⟩))) (by simp)

/-- The counts of a search are right. -/
theorem memOf_acc (T : Tree env m s0 dp tm st) {hs : List Obj} (hroot : .d st.root ∈ hs) (hex : ∀ x ∈ hs, Exists st x) :
    Acc (memOf st hs).heap hs := by
  refine ⟨by rw [memOf_fst]; exact owned_nodup st, ?_, ?_, ?_⟩
  · intro p hp
    rw [memOf_refs]; exact (mem_memOf hp).2
  · intro p hp
    obtain ⟨h1, h2⟩ := mem_memOf hp
    obtain ⟨r, hr0, -⟩ := T.heap.root
    have owner : ∀ {l : List Obj} {x : Obj}, (x, l) ∈ owned st → p.1 ∈ l → 0 < p.2.count := by
      intro l x hx hl
      have := List.count_pos_iff.2 (List.mem_flatMap.2 ⟨_, hx, hl⟩ : p.1 ∈ (owned st).flatMap Prod.snd)
      omega
    rcases mem_owned.1 h1 with h | ⟨i, nd, h, e⟩ | ⟨i, nc, h, e⟩
    · simp only [Prod.mk.injEq] at h
      simp only [List.getElem?_map, Option.map_eq_some_iff] at hr0
      obtain ⟨nd, hnd, -⟩ := hr0
      exact owner (mem_owned.2 (.inr (.inl ⟨0, nd, hnd, rfl⟩))) (by rw [h.1]; simp)
    · simp only [Prod.mk.injEq] at e
      by_cases hi : i = 0
      · have : p.1 ∈ hs := by rw [e.1, hi, ← T.root]; exact hroot
        have := List.count_pos_iff.2 this
        omega
      · obtain ⟨c, n, o, g1, g2⟩ := T.heap.dPar i nd.skel (by simp [h]) hi
        simp only [List.getElem?_map, Option.map_eq_some_iff] at g1
        obtain ⟨nc, g1, rfl⟩ := g1
        exact owner (mem_owned.2 (.inr (.inr ⟨c, nc, g1, rfl⟩))) (by rw [e.1]; exact List.mem_append_left _ (List.mem_map.2 ⟨_, g2, rfl⟩))
    · simp only [Prod.mk.injEq] at e
      obtain ⟨d, n, g1, g2⟩ := T.heap.cPar i nc.skel (by simp [h])
      simp only [List.getElem?_map, Option.map_eq_some_iff] at g1
      obtain ⟨nd, g1, rfl⟩ := g1
      exact owner (mem_owned.2 (.inr (.inl ⟨d, nd, g1, rfl⟩))) (by rw [e.1]; exact List.mem_append_left _ (List.mem_map.2 ⟨_, g2, rfl⟩))
  · intro x hx
    rw [memOf_fst, exists_iff]
    rcases hx with hx | hx
    · exact hex x hx
    · rw [memOf_refs] at hx
      obtain ⟨p, hp, hx⟩ := List.mem_flatMap.1 hx
      rcases mem_owned.1 hp with rfl | ⟨i, nd, h, rfl⟩ | ⟨i, nc, h, rfl⟩
      · simp at hx
      · rcases mem_snoc.1 hx with rfl | hx
        · trivial
        · obtain ⟨⟨a, c⟩, hk, rfl⟩ := List.mem_map.1 hx
          obtain ⟨n, hn, -⟩ := T.heap.dKid i nd.skel a c (by simp [h]) hk
          have := (List.getElem?_eq_some_iff.1 hn).1
          simpa [Exists] using this
      · rcases mem_snoc.1 hx with rfl | hx
        · trivial
        · obtain ⟨⟨o, d⟩, hk, rfl⟩ := List.mem_map.1 hx
          obtain ⟨n, hn, -⟩ := T.heap.cKid i nc.skel o d (by simp [h]) hk
          have := (List.getElem?_eq_some_iff.1 hn).1
          simpa [Exists] using this

/-- Ranks of the objects of a search no deeper than `D`. -/
def rank (st : Search.St S A R X Y) (D : Int) : Obj → Nat
  | .mgr => 0
  | .d i => 2 * (D - ((st.dn[i]?).map DNode.depth).getD 0).toNat + 2
  | .c i => 2 * (D - ((st.cn[i]?).map CNode.depth).getD 0).toNat + 1

theorem memOf_ranked (T : Tree env m s0 dp tm st) (hs : List Obj) {D : Int} (hD : ∀ (i : Nat) nd, st.dn[i]? = some nd → nd.depth ≤ D) :
    Ranked (rank st D) (memOf st hs).heap := by
  intro p hp y hy
  rcases mem_owned.1 (mem_memOf hp).1 with h | ⟨i, nd, h, e⟩ | ⟨i, nc, h, e⟩
  · simp only [Prod.mk.injEq] at h
    rw [h.2] at hy; simp at hy
  · simp only [Prod.mk.injEq] at e
    rw [e.2] at hy
    rw [e.1]
    rcases mem_snoc.1 hy with rfl | hy
    · simp [rank]
    · obtain ⟨⟨a, c⟩, hk, rfl⟩ := List.mem_map.1 hy
      obtain ⟨n, hn, -, -, g, -⟩ := T.heap.dKid i nd.skel a c (by simp [h]) hk
      simp only [List.getElem?_map, Option.map_eq_some_iff] at hn
      obtain ⟨nc, hn, rfl⟩ := hn
      simp only [rank, h, hn, Option.map_some, Option.getD_some]
      simp only [CNode.skel, DNode.skel] at g
      omega
  · simp only [Prod.mk.injEq] at e
    rw [e.2] at hy
    rw [e.1]
    rcases mem_snoc.1 hy with rfl | hy
    · simp [rank]
    · obtain ⟨⟨o, d⟩, hk, rfl⟩ := List.mem_map.1 hy
      obtain ⟨n, hn, -, g, -⟩ := T.heap.cKid i nc.skel o d (by simp [h]) hk
      simp only [List.getElem?_map, Option.map_eq_some_iff] at hn
      obtain ⟨nd, hn, rfl⟩ := hn
      simp only [rank, h, hn, Option.map_some, Option.getD_some]
      simp only [CNode.skel, DNode.skel] at g
      have := hD d nd hn
      omega

theorem alive_mem {s : Mem} {x : Obj} : s.alive x = true ↔ x ∈ s.heap.map Prod.fst := by
  simp [Mem.alive]

/-- Releasing handles. -/
theorem release (T : Tree env m s0 dp tm st) {xs hs : List Obj} {s : Mem} {k : Nat} (hroot : .d st.root ∈ xs ++ hs) (hex : ∀ x ∈ xs ++ hs, Exists st x)
    (h : xs.foldlM (drop k) (memOf st (xs ++ hs)) = .ok s) :
    (∀ x, s.alive x = true ↔ Needed st hs x) ∧ s.freed.Nodup ∧ (∀ x, x ∈ s.freed ↔ Exists st x ∧ ¬ Needed st hs x) := by
  have HA := memOf_acc T hroot hex
  have D := dropAll_done HA h
  obtain ⟨Dm, hDm⟩ : ∃ D : Int, ∀ (i : Nat) nd, st.dn[i]? = some nd → nd.depth ≤ D := by
    have : ∀ l : List (DNode S A R X), ∃ D : Int, ∀ nd ∈ l, nd.depth ≤ D := by
      intro l
      induction l with
      | nil => exact ⟨0, by simp⟩
      | cons a l ih =>
        obtain ⟨D, hD⟩ := ih
        refine ⟨max D a.depth, ?_⟩
        intro nd hnd
        rcases List.mem_cons.1 hnd with rfl | hnd
        · omega
        · have := hD nd hnd; omega
    obtain ⟨D, hD⟩ := this st.dn
    exact ⟨D, fun i nd h => hD nd (List.mem_of_getElem? h)⟩
  have key := alive_iff HA.nodup (memOf_ranked T _ hDm) D
  have hal : ∀ x, s.alive x = true ↔ Needed st hs x := by
    intro x
    rw [alive_mem, key x]
    unfold Needed
    have : Owns (memOf st (xs ++ hs)).heap = Holds st := by
      funext a b; exact propext (holds_iff T _ a b)
    rw [this]
  have hperm : (s.freed ++ s.heap.map Prod.fst).Perm ((owned st).map Prod.fst) := by
    have := D.perm
    rw [memOf_fst] at this
    simpa [memOf] using this
  have hnd := hperm.nodup_iff.2 (owned_nodup st)
  rw [List.nodup_append] at hnd
  refine ⟨hal, hnd.1, ?_⟩
  intro x
  constructor
  · intro hx
    refine ⟨exists_iff.1 (hperm.mem_iff.1 (List.mem_append_left _ hx)), ?_⟩
    rw [← hal, alive_mem]
    intro hx'
    exact hnd.2.2 x hx x hx' rfl
  · rintro ⟨h1, h2⟩
    rw [← hal, alive_mem] at h2
    rcases List.mem_append.1 (hperm.mem_iff.2 (exists_iff.2 h1)) with h | h
    · exact h
    · exact absurd h h2

/-- Releasing handles works if there is stack for the depth of the tree. -/
theorem release_ok (T : Tree env m s0 dp tm st) {xs hs : List Obj} {k : Nat} (hroot : .d st.root ∈ xs ++ hs) (hex : ∀ x ∈ xs ++ hs, Exists st x)
    {D : Int} (hD : ∀ (i : Nat) nd, st.dn[i]? = some nd → nd.depth ≤ D) (hk : 2 * (D - dp).toNat + 3 ≤ k) :
    ∃ s, xs.foldlM (drop k) (memOf st (xs ++ hs)) = .ok s := by
  refine dropAll_ok (memOf_acc T hroot hex) (memOf_ranked T _ hD) ?_
  intro x hx
  have he := hex x (List.mem_append_left _ hx)
  cases x with
  | mgr => simp only [rank]; omega
  | d i =>
    have h := List.getElem?_eq_getElem he
    have h1 := (T.heap.dTime i _ (by simp only [List.getElem?_map, h, Option.map_some]; rfl)).2
    simp only [DNode.skel] at h1
    simp only [rank, h, Option.map_some, Option.getD_some]
    omega
  | c i =>
    have h := List.getElem?_eq_getElem he
    obtain ⟨d, n, g1, g2⟩ := T.heap.cPar i _ (by simp only [List.getElem?_map, h, Option.map_some]; rfl)
    obtain ⟨n', h2, -, -, h3, -⟩ := T.heap.dKid d n _ i g1 g2
    have h1 := (T.heap.dTime d _ g1).2
    simp only [List.getElem?_map, h, Option.map_some, Option.some.injEq] at h2
    subst h2
    simp only [CNode.skel] at h3
    simp only [rank, h, Option.map_some, Option.getD_some]
    omega

end Verif.Mem
