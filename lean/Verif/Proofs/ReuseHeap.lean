import Verif.Proofs.ReuseWf
import Mathlib.Logic.Function.Basic

/-! # The part of the tree below a node, and the tree of a search started there: the heaps -/

namespace Verif.Search

set_option linter.unusedSimpArgs false
set_option linter.unusedSectionVars false

variable {S A R X Y : Type} [DecidableEq S] [DecidableEq A] [Add R] [Zero R]

theorem find?_renum {K : Type} [DecidableEq K] (k : K) (g : Nat → Nat) (l : List (K × Nat)) :
    find? k (l.map fun p => (p.1, g p.2)) = (find? k l).map g := by
  induction l with
  | nil => rfl
  | cons p l ih =>
    obtain ⟨k', v⟩ := p
    simp only [List.map_cons, find?]
    split
    · rfl
    · exact ih

/-- `D, C`: the nodes of the whole tree; `D', C'`: those of the search started at `d`. -/
structure HRel (dp : Int) (D : List (DNode S A R X)) (C : List (CNode S A R Y)) (d : Nat) (D' : List (DNode S A R X)) (C' : List (CNode S A R Y))
    (f g : Nat → Nat) : Prop where
  root : f 0 = d
  pos : 0 < D'.length
  injD : ∀ i j, i < D'.length → j < D'.length → f i = f j → i = j
  injC : ∀ i j, i < C'.length → j < C'.length → g i = g j → i = j
  nodeD : ∀ (i : Nat) nd, D'[i]? = some nd → D[f i]? = some (nd.renum g)
  nodeC : ∀ (i : Nat) nc, C'[i]? = some nc → C[g i]? = some (nc.renum f)
  bD : ∀ (i : Nat) nd, D'[i]? = some nd → ∀ p ∈ nd.kids, p.2 < C'.length
  bC : ∀ (i : Nat) nc, C'[i]? = some nc → ∀ p ∈ nc.kids, p.2 < D'.length
  depD : ∀ (i : Nat) nd, D'[i]? = some nd → dp ≤ nd.depth
  depC : ∀ (i : Nat) nc, C'[i]? = some nc → dp ≤ nc.depth
  outD : ∀ (i : Nat) nd, D[i]? = some nd → (∀ j < D'.length, f j ≠ i) → ∀ p ∈ nd.kids, ∀ j < C'.length, g j ≠ p.2
  outC : ∀ (i : Nat) nc, C[i]? = some nc → (∀ j < C'.length, g j ≠ i) → ∀ p ∈ nc.kids, ∀ j < D'.length, f j = p.2 → j = 0

section
variable {dp : Int} {D : List (DNode S A R X)} {C : List (CNode S A R Y)} {d : Nat} {D' : List (DNode S A R X)} {C' : List (CNode S A R Y)}
  {f g : Nat → Nat}

theorem HRel.ltD (H : HRel dp D C d D' C' f g) {j : Nat} (hj : j < D'.length) : f j < D.length :=
  (List.getElem?_eq_some_iff.1 (H.nodeD j _ (List.getElem?_eq_getElem hj))).1

theorem HRel.ltC (H : HRel dp D C d D' C' f g) {j : Nat} (hj : j < C'.length) : g j < C.length :=
  (List.getElem?_eq_some_iff.1 (H.nodeC j _ (List.getElem?_eq_getElem hj))).1

theorem DNode.renum_congr {g g' : Nat → Nat} {nd : DNode S A R X} (h : ∀ p ∈ nd.kids, g p.2 = g' p.2) : nd.renum g = nd.renum g' := by
  unfold DNode.renum
  congr 1
  exact List.map_congr_left (fun p hp => by rw [h p hp])

theorem CNode.renum_congr {f f' : Nat → Nat} {nc : CNode S A R Y} (h : ∀ p ∈ nc.kids, f p.2 = f' p.2) : nc.renum f = nc.renum f' := by
  unfold CNode.renum
  congr 1
  exact List.map_congr_left (fun p hp => by rw [h p hp])

/-- A decision node outside changes, possibly getting a new child. -/
theorem HRel.outSetD (H : HRel dp D C d D' C' f g) {cur : Nat} {nd nd' : DNode S A R X} (hd : D[cur]? = some nd)
    (ho : ∀ j < D'.length, f j ≠ cur) {n : List (CNode S A R Y)} (hn : ∀ x ∈ n, x.kids = [])
    (hk : ∀ p ∈ nd'.kids, p ∈ nd.kids ∨ p.2 = C.length) : HRel dp (D.set cur nd') (C ++ n) d D' C' f g where
  root := H.root
  pos := H.pos
  injD := H.injD
  injC := H.injC
  nodeD := by
    intro i x hx
    have hi := (List.getElem?_eq_some_iff.1 hx).1
    rw [List.getElem?_set_ne (Ne.symm (ho i hi))]
    exact H.nodeD i x hx
  nodeC := by
    intro i x hx
    have hi := (List.getElem?_eq_some_iff.1 hx).1
    rw [List.getElem?_append_left (H.ltC hi)]
    exact H.nodeC i x hx
  bD := H.bD
  bC := H.bC
  depD := H.depD
  depC := H.depC
  outD := by
    intro i x hx hi p hp j hj
    by_cases hc : cur = i
    · subst hc
      rw [List.getElem?_set_self (List.getElem?_eq_some_iff.1 hd).1] at hx
      cases hx
      rcases hk p hp with h | h
      · exact H.outD _ _ hd ho p h j hj
      · rw [h]; exact Nat.ne_of_lt (H.ltC hj)
    · rw [List.getElem?_set_ne hc] at hx
      exact H.outD i x hx hi p hp j hj
  outC := by
    intro i x hx hi p hp j hj
    by_cases hc : i < C.length
    · rw [List.getElem?_append_left hc] at hx
      exact H.outC i x hx hi p hp j hj
    · rw [List.getElem?_append_right (by omega)] at hx
      rw [hn x (List.mem_of_getElem? hx)] at hp
      simp at hp

/-- A chance node outside changes, possibly getting a new child. -/
theorem HRel.outSetC (H : HRel dp D C d D' C' f g) {cur : Nat} {nc nc' : CNode S A R Y} (hc : C[cur]? = some nc)
    (ho : ∀ j < C'.length, g j ≠ cur) {n : List (DNode S A R X)} (hn : ∀ x ∈ n, x.kids = [])
    (hk : ∀ p ∈ nc'.kids, p ∈ nc.kids ∨ p.2 = D.length) : HRel dp (D ++ n) (C.set cur nc') d D' C' f g where
  root := H.root
  pos := H.pos
  injD := H.injD
  injC := H.injC
  nodeC := by
    intro i x hx
    have hi := (List.getElem?_eq_some_iff.1 hx).1
    rw [List.getElem?_set_ne (Ne.symm (ho i hi))]
    exact H.nodeC i x hx
  nodeD := by
    intro i x hx
    have hi := (List.getElem?_eq_some_iff.1 hx).1
    rw [List.getElem?_append_left (H.ltD hi)]
    exact H.nodeD i x hx
  bD := H.bD
  bC := H.bC
  depD := H.depD
  depC := H.depC
  outC := by
    intro i x hx hi p hp j hj hf
    by_cases hcc : cur = i
    · subst hcc
      rw [List.getElem?_set_self (List.getElem?_eq_some_iff.1 hc).1] at hx
      cases hx
      rcases hk p hp with h | h
      · exact H.outC _ _ hc ho p h j hj hf
      · rw [h] at hf; exact absurd hf (Nat.ne_of_lt (H.ltD hj))
    · rw [List.getElem?_set_ne hcc] at hx
      exact H.outC i x hx hi p hp j hj hf
  outD := by
    intro i x hx hi p hp j hj
    by_cases hc : i < D.length
    · rw [List.getElem?_append_left hc] at hx
      exact H.outD i x hx hi p hp j hj
    · rw [List.getElem?_append_right (by omega)] at hx
      rw [hn x (List.mem_of_getElem? hx)] at hp
      simp at hp

/-- A decision node below `d` changes, in any way that keeps its depth and links to chance nodes below `d`. -/
theorem HRel.inSetD (H : HRel dp D C d D' C' f g) {i : Nat} {nd nd' : DNode S A R X} (hd : D'[i]? = some nd)
    (hk : ∀ p ∈ nd'.kids, p.2 < C'.length)
    (hdep : nd'.depth = nd.depth) : HRel dp (D.set (f i) (nd'.renum g)) C d (D'.set i nd') C' f g := by
  have hi := (List.getElem?_eq_some_iff.1 hd).1
  constructor
  · exact H.root
  · simpa using H.pos
  · simpa using H.injD
  · exact H.injC
  · intro j x hx
    by_cases hij : i = j
    · subst hij
      rw [List.getElem?_set_self hi] at hx; cases hx
      exact List.getElem?_set_self (H.ltD hi)
    · rw [List.getElem?_set_ne hij] at hx
      have hj := (List.getElem?_eq_some_iff.1 hx).1
      rw [List.getElem?_set_ne (fun h => hij (H.injD _ _ hi hj h))]
      exact H.nodeD j x hx
  · exact H.nodeC
  · intro j x hx
    by_cases hij : i = j
    · subst hij
      rw [List.getElem?_set_self hi] at hx; cases hx
      exact hk
    · rw [List.getElem?_set_ne hij] at hx
      exact H.bD j x hx
  · simpa using H.bC
  · intro j x hx
    by_cases hij : i = j
    · subst hij
      rw [List.getElem?_set_self hi] at hx; cases hx
      rw [hdep]; exact H.depD _ _ hd
    · rw [List.getElem?_set_ne hij] at hx
      exact H.depD j x hx
  · exact H.depC
  · intro j x hx ho
    have ho' : ∀ j' < D'.length, f j' ≠ j := by simpa using ho
    rw [List.getElem?_set_ne (ho' i hi)] at hx
    exact H.outD j x hx ho'
  · simpa using H.outC

/-- A chance node below `d` changes, in any way that keeps its depth and links to decision nodes below `d`. -/
theorem HRel.inSetC (H : HRel dp D C d D' C' f g) {i : Nat} {nc nc' : CNode S A R Y} (hd : C'[i]? = some nc) (hk : ∀ p ∈ nc'.kids, p.2 < D'.length)
    (hdep : nc'.depth = nc.depth) : HRel dp D (C.set (g i) (nc'.renum f)) d D' (C'.set i nc') f g := by
  have hi := (List.getElem?_eq_some_iff.1 hd).1
  constructor
  · exact H.root
  · exact H.pos
  · exact H.injD
  · simpa using H.injC
  · exact H.nodeD
  · intro j x hx
    by_cases hij : i = j
    · subst hij
      rw [List.getElem?_set_self hi] at hx; cases hx
      exact List.getElem?_set_self (H.ltC hi)
    · rw [List.getElem?_set_ne hij] at hx
      have hj := (List.getElem?_eq_some_iff.1 hx).1
      rw [List.getElem?_set_ne (fun h => hij (H.injC _ _ hi hj h))]
      exact H.nodeC j x hx
  · simpa using H.bD
  · intro j x hx
    by_cases hij : i = j
    · subst hij
      rw [List.getElem?_set_self hi] at hx; cases hx
      exact hk
    · rw [List.getElem?_set_ne hij] at hx
      exact H.bC j x hx
  · exact H.depD
  · intro j x hx
    by_cases hij : i = j
    · subst hij
      rw [List.getElem?_set_self hi] at hx; cases hx
      rw [hdep]; exact H.depC _ _ hd
    · rw [List.getElem?_set_ne hij] at hx
      exact H.depC j x hx
  · simpa using H.outD
  · intro j x hx ho
    have ho' : ∀ j' < C'.length, g j' ≠ j := by simpa using ho
    rw [List.getElem?_set_ne (ho' i hi)] at hx
    exact H.outC j x hx ho'

/-- A new chance node appears below `d` (not yet linked). -/
theorem HRel.newC (H : HRel dp D C d D' C' f g) (nc : CNode S A R Y) (hk : nc.kids = []) (hdep : dp ≤ nc.depth)
    (hbig : ∀ (i : Nat) nd, D[i]? = some nd → ∀ p ∈ nd.kids, p.2 < C.length) :
    HRel dp D (C ++ [nc]) d D' (C' ++ [nc]) f (Function.update g C'.length C.length) := by
  have hup : ∀ j < C'.length, Function.update g C'.length C.length j = g j := fun j hj => Function.update_of_ne (Nat.ne_of_lt hj) _ _
  have hself : Function.update g C'.length C.length C'.length = C.length := Function.update_self ..
  constructor
  · exact H.root
  · exact H.pos
  · exact H.injD
  · intro i j hi hj h
    rw [List.length_append, List.length_singleton] at hi hj
    rcases Nat.lt_or_ge i C'.length with h1 | h1 <;> rcases Nat.lt_or_ge j C'.length with h2 | h2
    · rw [hup i h1, hup j h2] at h; exact H.injC i j h1 h2 h
    · obtain rfl : j = C'.length := by omega
      rw [hup i h1, hself] at h
      exact absurd h (Nat.ne_of_lt (H.ltC h1))
    · obtain rfl : i = C'.length := by omega
      rw [hup j h2, hself] at h
      exact absurd h.symm (Nat.ne_of_lt (H.ltC h2))
    · omega
  · intro i x hx
    rw [H.nodeD i x hx]
    exact congrArg some (DNode.renum_congr fun p hp => (hup _ (H.bD i x hx p hp)).symm)
  · intro i x hx
    rcases Nat.lt_or_ge i C'.length with h1 | h1
    · rw [List.getElem?_append_left h1] at hx
      rw [hup i h1, List.getElem?_append_left (H.ltC h1)]
      exact H.nodeC i x hx
    · rw [List.getElem?_append_right h1] at hx
      have hi : i = C'.length := by
        have := (List.getElem?_eq_some_iff.1 hx).1
        simp at this; omega
      subst hi
      simp at hx; subst hx
      rw [hself]
      simp [CNode.renum, hk]; rw [← hk]
  · intro i x hx p hp
    have := H.bD i x hx p hp
    simp; omega
  · intro i x hx p hp
    rcases Nat.lt_or_ge i C'.length with h1 | h1
    · rw [List.getElem?_append_left h1] at hx
      exact H.bC i x hx p hp
    · rw [List.getElem?_append_right h1] at hx
      have := List.mem_of_getElem? hx
      simp at this; subst this; rw [hk] at hp; simp at hp
  · exact H.depD
  · intro i x hx
    rcases Nat.lt_or_ge i C'.length with h1 | h1
    · rw [List.getElem?_append_left h1] at hx
      exact H.depC i x hx
    · rw [List.getElem?_append_right h1] at hx
      have := List.mem_of_getElem? hx
      simp at this; subst this; exact hdep
  · intro i x hx ho p hp j hj
    rw [List.length_append, List.length_singleton] at hj
    rcases Nat.lt_or_ge j C'.length with h1 | h1
    · rw [hup j h1]; exact H.outD i x hx ho p hp j h1
    · obtain rfl : j = C'.length := by omega
      rw [hself]
      exact Nat.ne_of_gt (hbig i x hx p hp)
  · intro i x hx ho p hp
    have ho' : ∀ j < C'.length, g j ≠ i := fun j hj => by
      rw [← hup j hj]; exact ho j (by simp; omega)
    rcases Nat.lt_or_ge i C.length with h1 | h1
    · rw [List.getElem?_append_left h1] at hx
      exact H.outC i x hx ho' p hp
    · have hi : i = C.length := by
        have := (List.getElem?_eq_some_iff.1 hx).1
        simp at this; omega
      subst hi
      exact absurd hself (ho C'.length (by simp))

/-- A new decision node appears below `d` (not yet linked). -/
theorem HRel.newD (H : HRel dp D C d D' C' f g) (nd : DNode S A R X) (hk : nd.kids = []) (hdep : dp ≤ nd.depth)
    (hbig : ∀ (i : Nat) nc, C[i]? = some nc → ∀ p ∈ nc.kids, p.2 < D.length) :
    HRel dp (D ++ [nd]) C d (D' ++ [nd]) C' (Function.update f D'.length D.length) g := by
  have hup : ∀ j < D'.length, Function.update f D'.length D.length j = f j := fun j hj => Function.update_of_ne (Nat.ne_of_lt hj) _ _
  have hself : Function.update f D'.length D.length D'.length = D.length := Function.update_self ..
  constructor
  · rw [hup 0 H.pos]; exact H.root
  · simp
  · intro i j hi hj h
    rw [List.length_append, List.length_singleton] at hi hj
    rcases Nat.lt_or_ge i D'.length with h1 | h1 <;> rcases Nat.lt_or_ge j D'.length with h2 | h2
    · rw [hup i h1, hup j h2] at h; exact H.injD i j h1 h2 h
    · obtain rfl : j = D'.length := by omega
      rw [hup i h1, hself] at h
      exact absurd h (Nat.ne_of_lt (H.ltD h1))
    · obtain rfl : i = D'.length := by omega
      rw [hup j h2, hself] at h
      exact absurd h.symm (Nat.ne_of_lt (H.ltD h2))
    · omega
  · exact H.injC
  · intro i x hx
    rcases Nat.lt_or_ge i D'.length with h1 | h1
    · rw [List.getElem?_append_left h1] at hx
      rw [hup i h1, List.getElem?_append_left (H.ltD h1)]
      exact H.nodeD i x hx
    · rw [List.getElem?_append_right h1] at hx
      have hi : i = D'.length := by
        have := (List.getElem?_eq_some_iff.1 hx).1
        simp at this; omega
      subst hi
      simp at hx; subst hx
      rw [hself]
      simp [DNode.renum, hk]; rw [← hk]
  · intro i x hx
    rw [H.nodeC i x hx]
    exact congrArg some (CNode.renum_congr fun p hp => (hup _ (H.bC i x hx p hp)).symm)
  · intro i x hx p hp
    rcases Nat.lt_or_ge i D'.length with h1 | h1
    · rw [List.getElem?_append_left h1] at hx
      exact H.bD i x hx p hp
    · rw [List.getElem?_append_right h1] at hx
      have := List.mem_of_getElem? hx
      simp at this; subst this; rw [hk] at hp; simp at hp
  · intro i x hx p hp
    have := H.bC i x hx p hp
    simp; omega
  · intro i x hx
    rcases Nat.lt_or_ge i D'.length with h1 | h1
    · rw [List.getElem?_append_left h1] at hx
      exact H.depD i x hx
    · rw [List.getElem?_append_right h1] at hx
      have := List.mem_of_getElem? hx
      simp at this; subst this; exact hdep
  · exact H.depC
  · intro i x hx ho p hp
    have ho' : ∀ j < D'.length, f j ≠ i := fun j hj => by
      rw [← hup j hj]; exact ho j (by simp; omega)
    rcases Nat.lt_or_ge i D.length with h1 | h1
    · rw [List.getElem?_append_left h1] at hx
      exact H.outD i x hx ho' p hp
    · have hi : i = D.length := by
        have := (List.getElem?_eq_some_iff.1 hx).1
        simp at this; omega
      subst hi
      exact absurd hself (ho D'.length (by simp))
  · intro i x hx ho p hp j hj hf
    rw [List.length_append, List.length_singleton] at hj
    rcases Nat.lt_or_ge j D'.length with h1 | h1
    · rw [hup j h1] at hf; exact H.outC i x hx ho p hp j h1 hf
    · obtain rfl : j = D'.length := by omega
      rw [hself] at hf
      exact absurd hf (Nat.ne_of_gt (hbig i x hx p hp))

end

end Verif.Search
