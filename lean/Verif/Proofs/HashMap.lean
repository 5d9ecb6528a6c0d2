import Verif.Spec.Context

namespace Verif.HashMap

variable {K V : Type} {ks : Keys K}

/-- Entries with different keys. -/
def Apart (ks : Keys K) (l : List (K × V)) : Prop := l.Pairwise (fun p q => ks.eq p.1 q.1 = false)

/-- Every entry is in the bucket of its key; no bucket holds two entries with equal keys. -/
structure Inv (ks : Keys K) (m : HMap K V) : Prop where
  placed : ∀ j p, p ∈ m.bucket j → j = slot ks m p.1
  apart : ∀ j, Apart ks (m.bucket j)

theorem neq_comm (G : ks.Good) {a b : K} (h : ks.eq a b = false) : ks.eq b a = false := by
  cases h' : ks.eq b a with
  | false => rfl
  | true => rw [G.symm _ _ h'] at h; cases h

theorem findIn_some_mem {k : K} {v : V} : ∀ {l : List (K × V)}, findIn ks k l = some v → ∃ k', (k', v) ∈ l ∧ ks.eq k' k = true
  | [], h => by simp [findIn] at h
  | (k', v') :: l, h => by
    unfold findIn at h
    split at h
    · next he =>
      simp at h; subst h
      exact ⟨k', by simp, he⟩
    · obtain ⟨k2, h1, h2⟩ := findIn_some_mem h
      exact ⟨k2, by simp [h1], h2⟩

theorem findIn_of_mem (G : ks.Good) {k k' : K} {v : V} : ∀ {l : List (K × V)}, Apart ks l → (k', v) ∈ l → ks.eq k' k = true →
    findIn ks k l = some v
  | [], _, h, _ => by simp at h
  | (k2, v2) :: l, ha, h, he => by
    unfold findIn
    rw [Apart, List.pairwise_cons] at ha
    rcases List.mem_cons.1 h with h | h
    · simp at h
      obtain ⟨rfl, rfl⟩ := h
      rw [if_pos he]
    · have h1 := ha.1 _ h
      have h2 : ks.eq k2 k = false := by
        cases h3 : ks.eq k2 k with
        | false => rfl
        | true => rw [G.trans _ _ _ h3 (G.symm _ _ he)] at h1; cases h1
      rw [if_neg (by simp [h2])]
      exact findIn_of_mem G ha.2 h he

theorem findIn_iff (G : ks.Good) {k : K} {v : V} {l : List (K × V)} (ha : Apart ks l) :
    findIn ks k l = some v ↔ ∃ k', (k', v) ∈ l ∧ ks.eq k' k = true :=
  ⟨findIn_some_mem, fun ⟨_, h1, h2⟩ => findIn_of_mem G ha h1 h2⟩

theorem findIn_putIn (G : ks.Good) (k k2 : K) (v : V) : ∀ l : List (K × V),
    findIn ks k2 (putIn ks k v l) = if ks.eq k k2 then some v else findIn ks k2 l
  | [] => by simp [putIn, findIn]
  | (k', v') :: l => by
    unfold putIn
    by_cases h : ks.eq k' k = true
    · rw [if_pos h]
      unfold findIn
      by_cases h2 : ks.eq k k2 = true
      · rw [if_pos (G.trans _ _ _ h h2), if_pos h2]
      · have h3 : ¬ ks.eq k' k2 = true := fun h3 => h2 (G.trans _ _ _ (G.symm _ _ h) h3)
        rw [if_neg h3, if_neg h2]
        rw [if_neg h3]
    · rw [if_neg h]
      have ih := findIn_putIn G k k2 v l
      unfold findIn
      rw [ih]
      by_cases h2 : ks.eq k k2 = true
      · have h3 : ¬ ks.eq k' k2 = true := fun h3 => h (G.trans _ _ _ h3 (G.symm _ _ h2))
        simp [h2, h3]
      · simp [h2]

theorem mem_putIn {k : K} {v : V} {p : K × V} : ∀ {l : List (K × V)}, p ∈ putIn ks k v l →
    p ∈ l ∨ p = (k, v) ∨ ∃ v', (p.1, v') ∈ l
  | [], h => by simp [putIn] at h; exact .inr (.inl h)
  | (k', v') :: l, h => by
    unfold putIn at h
    split at h
    · rcases List.mem_cons.1 h with h | h
      · exact .inr (.inr ⟨v', by simp [h]⟩)
      · exact .inl (by simp [h])
    · rcases List.mem_cons.1 h with h | h
      · exact .inl (by simp [h])
      · rcases mem_putIn h with h | h | ⟨v2, h⟩
        · exact .inl (by simp [h])
        · exact .inr (.inl h)
        · exact .inr (.inr ⟨v2, by simp [h]⟩)

theorem apart_putIn (G : ks.Good) {k : K} {v : V} : ∀ {l : List (K × V)}, Apart ks l → Apart ks (putIn ks k v l)
  | [], _ => by simp [putIn, Apart]
  | (k', v') :: l, h => by
    have h' := h
    rw [Apart, List.pairwise_cons] at h
    unfold putIn
    split
    · rw [Apart, List.pairwise_cons]; exact h
    · next hne =>
      rw [Apart, List.pairwise_cons]
      refine ⟨?_, apart_putIn G h.2⟩
      intro p hp
      rcases mem_putIn hp with hp | hp | ⟨v2, hp⟩
      · exact h.1 p hp
      · subst hp; simpa using hne
      · exact h.1 (p.1, v2) hp

theorem mem_eraseIn {k : K} {p : K × V} : ∀ {l : List (K × V)}, p ∈ eraseIn ks k l → p ∈ l
  | [], h => by simp [eraseIn] at h
  | (k', v') :: l, h => by
    unfold eraseIn at h
    split at h
    · simp [h]
    · rcases List.mem_cons.1 h with h | h
      · simp [h]
      · simp [mem_eraseIn h]

theorem apart_eraseIn {k : K} : ∀ {l : List (K × V)}, Apart ks l → Apart ks (eraseIn ks k l)
  | [], _ => by simp [eraseIn, Apart]
  | (k', v') :: l, h => by
    rw [Apart, List.pairwise_cons] at h
    unfold eraseIn
    split
    · exact h.2
    · rw [Apart, List.pairwise_cons]
      exact ⟨fun p hp => h.1 p (mem_eraseIn hp), apart_eraseIn h.2⟩

theorem findIn_none {k : K} : ∀ {l : List (K × V)}, (∀ p ∈ l, ks.eq p.1 k = false) → findIn ks k l = none
  | [], _ => rfl
  | (k', v') :: l, h => by
    unfold findIn
    rw [if_neg (by simp [h (k', v') (by simp)])]
    exact findIn_none (fun p hp => h p (by simp [hp]))

theorem findIn_eraseIn (G : ks.Good) (k k2 : K) : ∀ {l : List (K × V)}, Apart ks l →
    findIn ks k2 (eraseIn ks k l) = if ks.eq k k2 then none else findIn ks k2 l
  | [], _ => by simp [eraseIn, findIn]
  | (k', v') :: l, ha => by
    rw [Apart, List.pairwise_cons] at ha
    unfold eraseIn
    by_cases h : ks.eq k' k = true
    · rw [if_pos h]
      by_cases h2 : ks.eq k k2 = true
      · rw [if_pos h2]
        apply findIn_none
        intro p hp
        cases h3 : ks.eq p.1 k2 with
        | false => rfl
        | true =>
          have := ha.1 p hp
          rw [G.trans _ _ _ (G.trans _ _ _ h h2) (G.symm _ _ h3)] at this
          cases this
      · have h3 : ¬ ks.eq k' k2 = true := fun h3 => h2 (G.trans _ _ _ (G.symm _ _ h) h3)
        simp [findIn, h2, h3]
    · rw [if_neg h]
      have ih := findIn_eraseIn G k k2 ha.2
      unfold findIn
      rw [ih]
      by_cases h2 : ks.eq k k2 = true
      · have h3 : ¬ ks.eq k' k2 = true := fun h3 => h (G.trans _ _ _ h3 (G.symm _ _ h2))
        simp [h2, h3]
      · simp [h2]

theorem slot_eq (G : ks.Good) (m : HMap K V) {a b : K} (h : ks.eq a b = true) : slot ks m a = slot ks m b := by
  simp [slot, G.hash a b h]

theorem slot_lt (m : HMap K V) (k : K) : slot ks m k < m.more + 1 := Nat.mod_lt _ (by omega)

theorem mem_entries {m : HMap K V} (I : Inv ks m) {p : K × V} : p ∈ entries m ↔ p ∈ m.bucket (slot ks m p.1) := by
  simp only [entries, List.mem_flatMap, List.mem_range]
  constructor
  · rintro ⟨j, _, h⟩
    rwa [← I.placed j p h]
  · intro h
    exact ⟨_, slot_lt m p.1, h⟩

theorem apart_entries (G : ks.Good) {m : HMap K V} (I : Inv ks m) : Apart ks (entries m) := by
  unfold Apart entries
  rw [List.pairwise_flatMap]
  refine ⟨fun j _ => I.apart j, ?_⟩
  refine List.Pairwise.imp ?_ (List.pairwise_lt_range (n := m.more + 1))
  intro i j hij p hp q hq
  cases h : ks.eq p.1 q.1 with
  | false => rfl
  | true =>
    have h1 := I.placed _ _ hp
    have h2 := I.placed _ _ hq
    have h3 := slot_eq G m h
    omega

theorem inv_rehash (G : ks.Good) {m : HMap K V} (I : Inv ks m) (n : Nat) : Inv ks (rehash ks m n) := by
  constructor
  · intro j p hp
    simp only [rehash, List.mem_filter, decide_eq_true_eq] at hp
    exact hp.2.symm
  · intro j
    exact List.Pairwise.filter _ (apart_entries G I)

theorem get_iff (G : ks.Good) {m : HMap K V} (I : Inv ks m) {k : K} {v : V} :
    get ks m k = some v ↔ ∃ k', (k', v) ∈ entries m ∧ ks.eq k' k = true := by
  unfold get
  rw [findIn_iff G (I.apart _)]
  constructor
  · rintro ⟨k', h1, h2⟩
    refine ⟨k', (mem_entries I).2 ?_, h2⟩
    simpa [slot_eq G m h2] using h1
  · rintro ⟨k', h1, h2⟩
    refine ⟨k', ?_, h2⟩
    have := (mem_entries I).1 h1
    simpa [slot_eq G m h2] using this

theorem get_rehash (G : ks.Good) {m : HMap K V} (I : Inv ks m) (n : Nat) (k : K) : get ks (rehash ks m n) k = get ks m k := by
  apply Option.ext
  intro v
  rw [get_iff G I]
  unfold get
  rw [findIn_iff G ((inv_rehash G I n).apart _)]
  constructor
  · rintro ⟨k', h1, h2⟩
    simp only [rehash, List.mem_filter] at h1
    exact ⟨k', h1.1, h2⟩
  · rintro ⟨k', h1, h2⟩
    refine ⟨k', ?_, h2⟩
    simp only [rehash, List.mem_filter, decide_eq_true_eq, slot]
    exact ⟨h1, by rw [G.hash _ _ h2]⟩

theorem inv_empty : Inv ks (empty : HMap K V) := ⟨by simp [empty], by simp [empty, Apart]⟩

/-- The map before the rehash that may follow an insertion. -/
def put1 (ks : Keys K) (m : HMap K V) (k : K) (v : V) : HMap K V :=
  ⟨m.more, fun j => if j = slot ks m k then putIn ks k v (m.bucket j) else m.bucket j⟩

theorem inv_put1 (G : ks.Good) {m : HMap K V} (I : Inv ks m) (k : K) (v : V) : Inv ks (put1 ks m k v) := by
  constructor
  · intro j p hp
    simp only [put1] at hp
    split at hp
    · next hj =>
      show j = slot ks m p.1
      rcases mem_putIn hp with hp | hp | ⟨v', hp⟩
      · exact I.placed j p hp
      · subst hp; exact hj
      · exact I.placed j (p.1, v') hp
    · exact I.placed j p hp
  · intro j
    simp only [put1]
    split
    · exact apart_putIn G (I.apart j)
    · exact I.apart j

theorem inv_put (G : ks.Good) {m : HMap K V} (I : Inv ks m) (k : K) (v : V) : Inv ks (put ks m k v) :=
  inv_rehash G (inv_put1 G I k v) _

theorem inv_erase {m : HMap K V} (I : Inv ks m) (k : K) : Inv ks (erase ks m k) := by
  constructor
  · intro j p hp
    simp only [erase] at hp
    split at hp
    · exact I.placed j p (mem_eraseIn hp)
    · exact I.placed j p hp
  · intro j
    simp only [erase]
    split
    · exact apart_eraseIn (I.apart j)
    · exact I.apart j

theorem get_put (G : ks.Good) {m : HMap K V} (I : Inv ks m) (k k2 : K) (v : V) :
    get ks (put ks m k v) k2 = if ks.eq k k2 then some v else get ks m k2 := by
  show get ks (rehash ks (put1 ks m k v) _) k2 = _
  rw [get_rehash G (inv_put1 G I k v)]
  unfold get
  show findIn ks k2 (if slot ks m k2 = slot ks m k then _ else _) = _
  split
  · exact findIn_putIn G k k2 v _
  · next h =>
    have h2 : ¬ ks.eq k k2 = true := fun h2 => h (slot_eq G m h2).symm
    rw [if_neg h2]
    rfl

theorem get_erase (G : ks.Good) {m : HMap K V} (I : Inv ks m) (k k2 : K) :
    get ks (erase ks m k) k2 = if ks.eq k k2 then none else get ks m k2 := by
  unfold get
  show findIn ks k2 (if slot ks m k2 = slot ks m k then _ else _) = _
  split
  · exact findIn_eraseIn G k k2 (I.apart _)
  · next h =>
    have h2 : ¬ ks.eq k k2 = true := fun h2 => h (slot_eq G m h2).symm
    rw [if_neg h2]
    rfl

theorem inv_run (G : ks.Good) {m : HMap K V} (I : Inv ks m) : ∀ ops : List (Op K V), Inv ks (run ks m ops) := by
  intro ops
  induction ops generalizing m with
  | nil => exact I
  | cons o ops ih =>
    apply ih
    cases o with
    | put k v => exact inv_put G I k v
    | erase k => exact inv_erase I k

theorem get_run (G : ks.Good) (k : K) (ops : List (Op K V)) :
    get ks (run ks empty ops) k = lastPut (fun a b => ks.eq a b = true) k ops.reverse := by
  rw [← List.reverse_reverse ops]
  generalize ops.reverse = h
  rw [List.reverse_reverse]
  induction h with
  | nil => rfl
  | cons o h ih =>
    rw [List.reverse_cons, run, List.foldl_append]
    have I := inv_run (V := V) G inv_empty h.reverse
    cases o with
    | put k' v =>
      show get ks (put ks (run ks empty h.reverse) k' v) k = _
      rw [get_put G I, ih, lastPut]
    | erase k' =>
      show get ks (erase ks (run ks empty h.reverse) k') k = _
      rw [get_erase G I, ih, lastPut]

end Verif.HashMap
