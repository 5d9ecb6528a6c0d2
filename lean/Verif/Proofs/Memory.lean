import Verif.Model.Memory
import Verif.Proofs.SearchHeap
import Mathlib.Logic.Relation
import Mathlib.Data.List.Perm.Basic
import Mathlib.Order.Basic

/-! # Reference counting -/

namespace Verif.Mem

open Verif

/-- All references held by objects. -/
def allRefs (h : List (Obj × Cell)) : List Obj := h.flatMap fun p => p.2.refs

/-- Reference counts are right, everything has an owner, and what is owned is alive. -/
structure Acc (h : List (Obj × Cell)) (hs : List Obj) : Prop where
  nodup : (h.map Prod.fst).Nodup
  cnt : ∀ p ∈ h, p.2.count = (allRefs h).count p.1 + hs.count p.1
  pos : ∀ p ∈ h, 0 < p.2.count
  closed : ∀ x, x ∈ hs ∨ x ∈ allRefs h → x ∈ h.map Prod.fst

/-- `h'` is what is left of `h`. -/
def Sub (h' h : List (Obj × Cell)) : Prop := ∀ p ∈ h', ∃ c, (p.1, c) ∈ h ∧ c.refs = p.2.refs ∧ p.2.count ≤ c.count

theorem Sub.refl (h : List (Obj × Cell)) : Sub h h := fun p hp => ⟨p.2, hp, rfl, Nat.le_refl _⟩

theorem Sub.trans {a b c : List (Obj × Cell)} (h1 : Sub a b) (h2 : Sub b c) : Sub a c := by
  intro p hp
  obtain ⟨x, hx, e1, e2⟩ := h1 p hp
  obtain ⟨y, hy, e3, e4⟩ := h2 _ hx
  exact ⟨y, hy, e3.trans e1, Nat.le_trans e2 e4⟩

/-- Objects own objects of smaller rank only. -/
def Ranked (r : Obj → Nat) (h : List (Obj × Cell)) : Prop := ∀ p ∈ h, ∀ y ∈ p.2.refs, r y < r p.1

theorem Ranked.sub {r : Obj → Nat} {h h' : List (Obj × Cell)} (hr : Ranked r h) (hs : Sub h' h) : Ranked r h' := by
  intro p hp y hy
  obtain ⟨c, hc, e, -⟩ := hs p hp
  exact hr _ hc y (by rw [e]; exact hy)

theorem find_of_mem {h : List (Obj × Cell)} (hn : (h.map Prod.fst).Nodup) {x : Obj} {c : Cell} (hx : (x, c) ∈ h) : Search.find? x h = some c := by
  induction h with
  | nil => simp at hx
  | cons p h ih =>
    obtain ⟨y, b⟩ := p
    simp only [List.map_cons, List.nodup_cons] at hn
    simp only [Search.find?]
    rcases List.mem_cons.1 hx with h1 | h1
    · cases h1; simp
    · have : y ≠ x := by
        rintro rfl
        exact hn.1 (List.mem_map.2 ⟨_, h1, rfl⟩)
      rw [if_neg this]
      exact ih hn.2 h1

theorem mem_unique {h : List (Obj × Cell)} (hn : (h.map Prod.fst).Nodup) {x : Obj} {c c' : Cell} (h1 : (x, c) ∈ h) (h2 : (x, c') ∈ h) : c = c' := by
  have := find_of_mem hn h1
  rw [find_of_mem hn h2] at this
  simpa using this.symm

/-- Taking an object out of the heap. -/
theorem perm_filter {h : List (Obj × Cell)} (hn : (h.map Prod.fst).Nodup) {x : Obj} {c : Cell} (hx : (x, c) ∈ h) :
    h.Perm ((x, c) :: h.filter fun p => decide (p.1 ≠ x)) := by
  induction h with
  | nil => simp at hx
  | cons p h ih =>
    simp only [List.map_cons, List.nodup_cons] at hn
    rcases List.mem_cons.1 hx with h1 | h1
    · subst h1
      have : (h.filter fun p => decide (p.1 ≠ x)) = h := by
        rw [List.filter_eq_self]
        intro q hq
        simp only [decide_eq_true_eq]
        rintro rfl
        exact hn.1 (List.mem_map.2 ⟨_, hq, rfl⟩)
      rw [List.filter_cons_of_neg (by simp), this]
    · have hne : p.1 ≠ x := by
        intro e
        exact hn.1 (e ▸ List.mem_map.2 ⟨_, h1, rfl⟩)
      rw [List.filter_cons_of_pos (by simpa using hne)]
      exact ((ih hn.2 h1).cons p).trans (List.Perm.swap ..)

theorem acc_free {h : List (Obj × Cell)} {hs : List Obj} {x : Obj} {refs : List Obj} (H : Acc h (x :: hs)) (hx : (x, ⟨1, refs⟩) ∈ h) :
    Acc (h.filter fun p => decide (p.1 ≠ x)) (refs ++ hs) ∧ x ∉ refs ++ hs ∧ x ∉ allRefs (h.filter fun p => decide (p.1 ≠ x)) := by
  have hp := perm_filter H.nodup hx
  have hrefs : (allRefs h).Perm (refs ++ allRefs (h.filter fun p => decide (p.1 ≠ x))) := by
    have := hp.flatMap_right (fun p : Obj × Cell => p.2.refs)
    simpa [allRefs] using this
  have h1 := H.cnt _ hx
  simp only [List.count_cons_self] at h1
  have c1 : (allRefs h).count x = 0 := by omega
  have c2 : hs.count x = 0 := by omega
  rw [hrefs.count_eq, List.count_append] at c1
  have n1 : x ∉ refs := List.count_eq_zero.1 (by omega)
  have n2 : x ∉ allRefs (h.filter fun p => decide (p.1 ≠ x)) := List.count_eq_zero.1 (by omega)
  have n3 : x ∉ hs := List.count_eq_zero.1 c2
  refine ⟨⟨?_, ?_, ?_, ?_⟩, by simp [n1, n3], n2⟩
  · exact (List.filter_sublist.map _).nodup H.nodup
  · intro p hp'
    obtain ⟨m1, m2⟩ := List.mem_filter.1 hp'
    have m2 : p.1 ≠ x := by simpa using m2
    rw [H.cnt p m1, hrefs.count_eq, List.count_append, List.count_append, List.count_cons_of_ne (Ne.symm m2)]
    omega
  · intro p hp'
    exact H.pos p (List.mem_filter.1 hp').1
  · intro y hy
    have hyx : y ≠ x := by
      rintro rfl
      rcases hy with hy | hy
      · rcases List.mem_append.1 hy with hy | hy
        · exact n1 hy
        · exact n3 hy
      · exact n2 hy
    have : y ∈ h.map Prod.fst := by
      apply H.closed
      rcases hy with hy | hy
      · rcases List.mem_append.1 hy with hy | hy
        · exact .inr (hrefs.mem_iff.2 (List.mem_append_left _ hy))
        · exact .inl (List.mem_cons_of_mem _ hy)
      · exact .inr (hrefs.mem_iff.2 (List.mem_append_right _ hy))
    obtain ⟨p, h1, rfl⟩ := List.mem_map.1 this
    exact List.mem_map.2 ⟨p, List.mem_filter.2 ⟨h1, by simpa using hyx⟩, rfl⟩

theorem allRefs_dec {h : List (Obj × Cell)} (hn : (h.map Prod.fst).Nodup) {x : Obj} {n : Nat} {refs : List Obj} (hx : (x, ⟨n + 2, refs⟩) ∈ h) :
    allRefs (h.map fun p => if p.1 = x then (x, (⟨n + 1, refs⟩ : Cell)) else p) = allRefs h := by
  unfold allRefs
  rw [List.flatMap_map]
  apply List.flatMap_congr
  rintro ⟨y, c⟩ hy
  dsimp only
  split
  · next e =>
    subst e
    rw [← mem_unique hn hx hy]
  · rfl

theorem acc_dec {h : List (Obj × Cell)} {hs : List Obj} {x : Obj} {n : Nat} {refs : List Obj} (H : Acc h (x :: hs)) (hx : (x, ⟨n + 2, refs⟩) ∈ h) :
    Acc (h.map fun p => if p.1 = x then (x, (⟨n + 1, refs⟩ : Cell)) else p) hs := by
  have hfst : (h.map fun p => if p.1 = x then (x, (⟨n + 1, refs⟩ : Cell)) else p).map Prod.fst = h.map Prod.fst := by
    rw [List.map_map]
    apply List.map_congr_left
    rintro ⟨y, c⟩ -
    simp only [Function.comp]
    split
    · next e => exact e.symm
    · rfl
  have hrefs := allRefs_dec H.nodup hx
  refine ⟨by rw [hfst]; exact H.nodup, ?_, ?_, ?_⟩
  · intro p hp
    rw [hrefs]
    obtain ⟨⟨y, c⟩, hy, rfl⟩ := List.mem_map.1 hp
    have h1 := H.cnt _ hx
    have h2 := H.cnt _ hy
    simp only [List.count_cons] at h1 h2
    by_cases e : y = x
    · subst e
      simp only [if_true] at *
      simp at h1
      omega
    · simp only [if_neg e] at *
      have e' : ¬ (x == y) = true := by simpa using Ne.symm e
      simp only [e', if_false] at h2
      simpa using h2
  · intro p hp
    obtain ⟨⟨y, c⟩, hy, rfl⟩ := List.mem_map.1 hp
    dsimp only
    split
    · simp
    · exact H.pos _ hy
  · intro y hy
    rw [hfst]
    apply H.closed
    rw [hrefs] at hy
    rcases hy with hy | hy
    · exact .inl (List.mem_cons_of_mem _ hy)
    · exact .inr hy

theorem sub_dec {h : List (Obj × Cell)} {x : Obj} {n : Nat} {refs : List Obj} (hx : (x, ⟨n + 2, refs⟩) ∈ h) :
    Sub (h.map fun p => if p.1 = x then (x, (⟨n + 1, refs⟩ : Cell)) else p) h := by
  intro p hp
  obtain ⟨⟨y, c⟩, hy, rfl⟩ := List.mem_map.1 hp
  dsimp only
  split
  · exact ⟨_, hx, rfl, by simp⟩
  · exact ⟨_, hy, rfl, Nat.le_refl _⟩

theorem sub_filter (h : List (Obj × Cell)) (f : Obj × Cell → Bool) : Sub (h.filter f) h :=
  fun p hp => ⟨p.2, (List.mem_filter.1 hp).1, rfl, Nat.le_refl _⟩

/-- The outcome of releasing references. -/
structure Done (s s' : Mem) (hs : List Obj) : Prop where
  acc : Acc s'.heap hs
  sub : Sub s'.heap s.heap
  perm : (s'.freed ++ s'.heap.map Prod.fst).Perm (s.freed ++ s.heap.map Prod.fst)

theorem Done.trans {a b c : Mem} {hs hs' : List Obj} (h1 : Done a b hs) (h2 : Done b c hs') : Done a c hs' :=
  ⟨h2.acc, h2.sub.trans h1.sub, h2.perm.trans h1.perm⟩

theorem fold_done {k : Nat} (ih : ∀ s s' x hs, Acc s.heap (x :: hs) → drop k s x = .ok s' → Done s s' hs) :
    ∀ (xs : List Obj) s s' hs, Acc s.heap (xs ++ hs) → xs.foldlM (drop k) s = .ok s' → Done s s' hs := by
  intro xs
  induction xs with
  | nil =>
    intro s s' hs hA h
    cases h
    exact ⟨hA, Sub.refl _, .refl _⟩
  | cons x xs ihx =>
    intro s s' hs hA h
    rw [List.foldlM_cons] at h
    cases h1 : drop k s x with
    | error e => rw [h1] at h; cases h
    | ok s1 =>
      rw [h1] at h
      have D1 := ih s s1 x (xs ++ hs) hA h1
      exact D1.trans (ihx s1 s' hs D1.acc h)

/-- Releasing a reference, if the stack suffices: counts stay right, nothing is destroyed twice. -/
theorem drop_done : ∀ (k : Nat) (s s' : Mem) (x : Obj) (hs : List Obj), Acc s.heap (x :: hs) → drop k s x = .ok s' → Done s s' hs := by
  intro k
  induction k with
  | zero => intro s s' x hs _ h; simp [drop] at h
  | succ k ih =>
    intro s s' x hs hA h
    obtain ⟨⟨y, c⟩, hx, rfl⟩ := List.mem_map.1 (hA.closed x (.inl (by simp)))
    have hf := find_of_mem hA.nodup hx
    have hpos := hA.pos _ hx
    simp only [drop, hf] at h
    obtain ⟨n, refs⟩ := c
    match n, hx, hf, hpos, h with
    | 0, _, _, hpos, _ => simp at hpos
    | 1, hx, _, _, h =>
      simp only at h
      have D := fold_done ih refs _ s' hs (acc_free hA hx).1 h
      refine ⟨D.acc, D.sub.trans (sub_filter _ _), D.perm.trans ?_⟩
      have hp := (perm_filter hA.nodup hx).map Prod.fst
      simp only [List.map_cons, List.cons_append] at hp ⊢
      exact (List.perm_middle.symm).trans (hp.symm.append_left _)
    | n + 2, hx, _, _, h =>
      simp only [Except.ok.injEq] at h
      subst h
      refine ⟨acc_dec hA hx, sub_dec hx, ?_⟩
      have hfst : (s.heap.map fun p => if p.1 = y then (y, (⟨n + 1, refs⟩ : Cell)) else p).map Prod.fst = s.heap.map Prod.fst := by
        rw [List.map_map]
        apply List.map_congr_left
        rintro ⟨z, c⟩ -
        simp only [Function.comp]
        split
        · next e => exact e.symm
        · rfl
      simp only [hfst]
      exact .refl _

/-- References to destroyed objects are never released. -/
theorem drop_safe : ∀ (k : Nat) (s : Mem) (x : Obj) (hs : List Obj), Acc s.heap (x :: hs) → drop k s x ≠ .error .dangling := by
  intro k
  induction k with
  | zero => intro s x hs _; simp [drop]
  | succ k ih =>
    intro s x hs hA h
    obtain ⟨⟨y, c⟩, hx, rfl⟩ := List.mem_map.1 (hA.closed x (.inl (by simp)))
    have hf := find_of_mem hA.nodup hx
    have hpos := hA.pos _ hx
    simp only [drop, hf] at h
    have fold : ∀ (xs : List Obj) (t : Mem), Acc t.heap (xs ++ hs) → xs.foldlM (drop k) t ≠ .error .dangling := by
      intro xs
      induction xs with
      | nil => intro t _ h; cases h
      | cons u xs ihx =>
        intro t hAt h
        rw [List.foldlM_cons] at h
        cases h1 : drop k t u with
        | error e =>
          rw [h1] at h
          have : e = .dangling := by simpa [bind, Except.bind] using h
          exact ih t u (xs ++ hs) hAt (by rw [h1, this])
        | ok t1 =>
          rw [h1] at h
          exact ihx t1 (drop_done k t t1 u (xs ++ hs) hAt h1).acc h
    obtain ⟨n, refs⟩ := c
    match n, hx, hf, hpos, h with
    | 0, _, _, hpos, _ => simp at hpos
    | 1, hx, _, _, h => exact fold refs _ (acc_free hA hx).1 h
    | n + 2, _, _, _, h => simp at h

theorem dropAll_safe {k : Nat} {hs : List Obj} : ∀ (xs : List Obj) (s : Mem), Acc s.heap (xs ++ hs) → xs.foldlM (drop k) s ≠ .error .dangling := by
  intro xs
  induction xs with
  | nil => intro t _ h; cases h
  | cons u xs ihx =>
    intro t hAt h
    rw [List.foldlM_cons] at h
    cases h1 : drop k t u with
    | error e =>
      rw [h1] at h
      have : e = .dangling := by simpa [bind, Except.bind] using h
      exact drop_safe k t u (xs ++ hs) hAt (by rw [h1, this])
    | ok t1 =>
      rw [h1] at h
      exact ihx t1 (drop_done k t t1 u (xs ++ hs) hAt h1).acc h

/-- The stack suffices if there is a frame for each rank. -/
theorem drop_ok {r : Obj → Nat} : ∀ (k : Nat) (s : Mem) (x : Obj) (hs : List Obj), Acc s.heap (x :: hs) → Ranked r s.heap → r x < k →
    ∃ s', drop k s x = .ok s' := by
  intro k
  induction k with
  | zero => intro s x hs _ _ hk; omega
  | succ k ih =>
    intro s x hs hA hR hk
    obtain ⟨⟨y, c⟩, hx, rfl⟩ := List.mem_map.1 (hA.closed x (.inl (by simp)))
    have hf := find_of_mem hA.nodup hx
    have hpos := hA.pos _ hx
    have fold : ∀ (xs : List Obj) (t : Mem), Acc t.heap (xs ++ hs) → Ranked r t.heap → (∀ z ∈ xs, r z < k) → ∃ t', xs.foldlM (drop k) t = .ok t' := by
      intro xs
      induction xs with
      | nil => intro t _ _ _; exact ⟨t, rfl⟩
      | cons u xs ihx =>
        intro t hAt hRt hk
        obtain ⟨t1, h1⟩ := ih t u (xs ++ hs) hAt hRt (hk u (by simp))
        have D := drop_done k t t1 u (xs ++ hs) hAt h1
        obtain ⟨t2, h2⟩ := ihx t1 D.acc (hRt.sub D.sub) (fun z hz => hk z (List.mem_cons_of_mem _ hz))
        exact ⟨t2, by rw [List.foldlM_cons, h1]; exact h2⟩
    simp only [drop, hf]
    obtain ⟨n, refs⟩ := c
    match n, hx, hf, hpos with
    | 0, _, _, hpos => simp at hpos
    | 1, hx, _, _ =>
      refine fold refs _ (acc_free hA hx).1 (hR.sub (sub_filter _ _)) ?_
      intro z hz
      have h0 : r z < r y := hR _ hx z hz
      simp only at hk
      omega
    | n + 2, _, _, _ => exact ⟨_, rfl⟩

theorem dropAll_done {k : Nat} {xs : List Obj} {s s' : Mem} {hs : List Obj} (hA : Acc s.heap (xs ++ hs)) (h : xs.foldlM (drop k) s = .ok s') :
    Done s s' hs :=
  fold_done (fun s s' x hs => drop_done k s s' x hs) xs s s' hs hA h

theorem dropAll_ok {r : Obj → Nat} {k : Nat} {hs : List Obj} : ∀ {xs : List Obj} {s : Mem}, Acc s.heap (xs ++ hs) → Ranked r s.heap →
    (∀ x ∈ xs, r x < k) → ∃ s', xs.foldlM (drop k) s = .ok s' := by
  intro xs
  induction xs with
  | nil => intro s _ _ _; exact ⟨s, rfl⟩
  | cons u xs ihx =>
    intro t hAt hRt hk
    obtain ⟨t1, h1⟩ := drop_ok k t u (xs ++ hs) hAt hRt (hk u (by simp))
    have D := drop_done k t t1 u (xs ++ hs) hAt h1
    obtain ⟨t2, h2⟩ := ihx D.acc (hRt.sub D.sub) (fun z hz => hk z (List.mem_cons_of_mem _ hz))
    exact ⟨t2, by rw [List.foldlM_cons, h1]; exact h2⟩

/-- Direct ownership. -/
def Owns (h : List (Obj × Cell)) (x y : Obj) : Prop := ∃ c, (x, c) ∈ h ∧ y ∈ c.refs

/-- What is alive is exactly what somebody can reach. -/
theorem alive_iff {r : Obj → Nat} {s s' : Mem} {hs : List Obj} (hn : (s.heap.map Prod.fst).Nodup) (hR : Ranked r s.heap) (D : Done s s' hs) (x : Obj) :
    x ∈ s'.heap.map Prod.fst ↔ ∃ y ∈ hs, Relation.ReflTransGen (Owns s.heap) y x := by
  constructor
  · have hR' := hR.sub D.sub
    -- ranks of living objects are bounded
    obtain ⟨B, hB⟩ : ∃ B, ∀ p ∈ s'.heap, r p.1 ≤ B := by
      generalize s'.heap = l
      induction l with
      | nil => exact ⟨0, by simp⟩
      | cons p l ih =>
        obtain ⟨B, hB⟩ := ih
        refine ⟨max B (r p.1), ?_⟩
        intro q hq
        rcases List.mem_cons.1 hq with rfl | hq
        · exact Nat.le_max_right _ _
        · exact Nat.le_trans (hB q hq) (Nat.le_max_left _ _)
    have key : ∀ j x, x ∈ s'.heap.map Prod.fst → B - r x ≤ j → ∃ y ∈ hs, Relation.ReflTransGen (Owns s.heap) y x := by
      intro j
      induction j with
      | zero =>
        intro x hx hj
        obtain ⟨p, hp, rfl⟩ := List.mem_map.1 hx
        have h1 := D.acc.cnt p hp
        have h2 := D.acc.pos p hp
        by_cases hh : p.1 ∈ hs
        · exact ⟨_, hh, .refl⟩
        · have : p.1 ∈ allRefs s'.heap := List.count_pos_iff.1 (by rw [List.count_eq_zero.2 hh] at h1; omega)
          obtain ⟨q, hq, hqp⟩ := List.mem_flatMap.1 this
          have h3 := hR' q hq _ hqp
          have h4 := hB q hq
          omega
      | succ j ih =>
        intro x hx hj
        obtain ⟨p, hp, rfl⟩ := List.mem_map.1 hx
        have h1 := D.acc.cnt p hp
        have h2 := D.acc.pos p hp
        by_cases hh : p.1 ∈ hs
        · exact ⟨_, hh, .refl⟩
        · have : p.1 ∈ allRefs s'.heap := List.count_pos_iff.1 (by rw [List.count_eq_zero.2 hh] at h1; omega)
          obtain ⟨q, hq, hqp⟩ := List.mem_flatMap.1 this
          have h3 := hR' q hq _ hqp
          have h4 := hB q hq
          obtain ⟨y, hy, hyq⟩ := ih q.1 (List.mem_map.2 ⟨q, hq, rfl⟩) (by omega)
          obtain ⟨c, hc, e, -⟩ := D.sub q hq
          exact ⟨y, hy, hyq.tail ⟨c, hc, by rw [e]; exact hqp⟩⟩
    intro hx
    exact key _ x hx (Nat.le_refl _)
  · rintro ⟨y, hy, hyx⟩
    induction hyx with
    | refl => exact D.acc.closed y (.inl hy)
    | tail _ ho ih =>
      obtain ⟨p, hp, e⟩ := List.mem_map.1 ih
      obtain ⟨c, hc, hz⟩ := ho
      obtain ⟨c', hc', e', -⟩ := D.sub p hp
      rw [e] at hc'
      rw [mem_unique hn hc hc', e'] at hz
      exact D.acc.closed _ (.inr (List.mem_flatMap.2 ⟨p, hp, hz⟩))

/-- Chains of objects with one owner each take stack. -/
theorem stack_needed : ∀ (k : Nat) (s s' : Mem) (x : Obj) (hs : List Obj) (p : List Obj), Acc s.heap (x :: hs) →
    drop k s x = .ok s' → List.IsChain (Owns s.heap) (x :: p) → (∀ y ∈ x :: p, ∀ c, (y, c) ∈ s.heap → c.count ≤ 1) → p.length < k := by
  intro k
  induction k with
  | zero => intro s s' x hs p _ hd _ _; simp [drop] at hd
  | succ k ih =>
    intro s s' x hs p hA hd hc h1
    cases p with
    | nil => simp
    | cons y p =>
      obtain ⟨⟨z, c⟩, hx, rfl⟩ := List.mem_map.1 (hA.closed x (.inl (by simp)))
      have hf := find_of_mem hA.nodup hx
      have hpos := hA.pos _ hx
      have hle := h1 z (by simp) c hx
      obtain ⟨n, refs⟩ := c
      obtain rfl : n = 1 := by simp only at hpos hle; omega
      simp only [drop, hf] at hd
      obtain ⟨hA', n1, n2⟩ := acc_free hA hx
      rw [List.isChain_cons_cons] at hc
      obtain ⟨⟨c', hc', hy⟩, hc⟩ := hc
      rw [mem_unique hA.nodup hc' hx] at hy
      simp only at hy
      -- a chain stays a chain as long as its head is alive
      have stay : ∀ {a b : List (Obj × Cell)} {q : List Obj} {w : Obj}, Sub b a → (a.map Prod.fst).Nodup → Acc b q → w ∈ b.map Prod.fst →
          ∀ (p : List Obj), List.IsChain (Owns a) (w :: p) → List.IsChain (Owns b) (w :: p) := by
        intro a b q w hab han hb hw p
        induction p generalizing w with
        | nil => intro _; simp
        | cons v p ihp =>
          intro hch
          rw [List.isChain_cons_cons] at hch ⊢
          obtain ⟨⟨c, hc, hv⟩, hch⟩ := hch
          obtain ⟨⟨w', c2⟩, hw2, rfl⟩ := List.mem_map.1 hw
          obtain ⟨c3, hc3, e, -⟩ := hab _ hw2
          rw [mem_unique han hc hc3, e] at hv
          refine ⟨⟨c2, hw2, hv⟩, ihp (hb.closed _ (.inr (List.mem_flatMap.2 ⟨_, hw2, hv⟩))) hch⟩
      have fold : ∀ (xs : List Obj) (t t' : Mem), y ∈ xs → Acc t.heap (xs ++ hs) → Sub t.heap s.heap →
          xs.foldlM (drop k) t = .ok t' → p.length < k := by
        intro xs
        induction xs with
        | nil => intro t t' hy; simp at hy
        | cons u xs ihx =>
          intro t t' hy hAt hst hd
          rw [List.foldlM_cons] at hd
          cases hu : drop k t u with
          | error e => rw [hu] at hd; simp [bind, Except.bind] at hd
          | ok t1 =>
            rw [hu] at hd
            by_cases huy : y = u
            · subst huy
              refine ih t t1 y (xs ++ hs) p hAt hu (stay hst hA.nodup hAt (hAt.closed y (.inl (by simp))) p hc) ?_
              intro v hv c hvc
              obtain ⟨c2, h2, -, h3⟩ := hst _ hvc
              exact Nat.le_trans h3 (h1 v (List.mem_cons_of_mem _ hv) c2 h2)
            · have hy' : y ∈ xs := by
                rcases List.mem_cons.1 hy with h | h
                · exact absurd h huy
                · exact h
              have D := drop_done k t t1 u (xs ++ hs) hAt hu
              exact ihx t1 t' hy' D.acc (D.sub.trans hst) hd
      have := fold refs _ _ hy hA' (sub_filter _ _) hd
      simpa using this

end Verif.Mem
