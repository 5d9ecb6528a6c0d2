import Verif.Proofs.Locks

/-! # Property C20: deadlock freedom of the node locks -/

namespace Verif.Locks

/-- Thread `i` is about to lock a mutex that thread `j` holds. -/
def WaitsFor (st : St) (i j : Nat) : Prop :=
  ∃ p q x, st.ths[i]? = some p ∧ p.wants = some x ∧ st.ths[j]? = some q ∧ x ∈ q.holds

/-- Following the waits-for relation leads from `i` to `j`. -/
inductive WaitsChain (st : St) : Nat → Nat → Prop where
  | refl (i : Nat) : WaitsChain st i i
  | step {i j k : Nat} : WaitsFor st i j → WaitsChain st j k → WaitsChain st i k

/-- Thread `i` can make a step. -/
def CanStep (shared : Bool) (rank : Nat → Nat) (st : St) (i : Nat) : Prop :=
  ∃ a st', step shared rank st i a = some st'

/-- States reachable by any number of threads. -/
def Reachable (shared : Bool) (rank : Nat → Nat) (st : St) : Prop :=
  ∃ k l, run shared rank (init k) l = some st

theorem canStep_of_not_waiting {shared : Bool} {rank : Nat → Nat} {st : St} {i : Nat} {p : Pc}
    (hi : st.ths[i]? = some p) (h : ∀ j, ¬ WaitsFor st i j) : CanStep shared rank st i := by
  have hfree : ∀ x, p.wants = some x → st.free x = true := fun x hx =>
    free_iff.mpr fun j q hj hq => h j ⟨p, q, x, hi, hx, hj, hq⟩
  cases p with
  | idle => exact ⟨.begin 0, by simp [step, hi]⟩
  | wantLog n => exact ⟨.acquire, by simp [step, hi, hfree _ rfl]⟩
  | want log n => exact ⟨.acquire, by simp [step, hi, hfree _ rfl]⟩
  | own log n held =>
    cases held with
    | nil => exact ⟨.release, by simp [step, hi]⟩
    | cons c held => exact ⟨.unlockKids, by simp [step, hi]⟩
  | lockKids log n held todo =>
    cases todo with
    | nil => exact ⟨.acquire, by simp [step, hi]⟩
    | cons c todo => exact ⟨.acquire, by simp [step, hi, hfree _ rfl]⟩
  | wantLeaf log n held l => exact ⟨.acquire, by simp [step, hi, hfree _ rfl]⟩
  | inLeaf log n held l => exact ⟨.unleaf, by simp [step, hi]⟩

/-- How deep in the tree a thread waits: at a node it wants to work on, or (more) at a child it wants to lock. -/
def level (rank : Nat → Nat) : Pc → Nat
  | .want _ n => 1 + 2 * rank n
  | .lockKids _ _ _ (c :: _) => 2 + 2 * rank c
  | _ => 0

theorem level_bound (rank : Nat → Nat) (l : List Pc) : ∃ B, ∀ p ∈ l, level rank p ≤ B := by
  induction l with
  | nil => exact ⟨0, by simp⟩
  | cons p l ih =>
    obtain ⟨B, hB⟩ := ih
    refine ⟨level rank p + B, fun q hq => ?_⟩
    rcases List.mem_cons.mp hq with rfl | hq
    · omega
    · have := hB q hq; omega

/-- Members of `holds` that are nodes. -/
theorem holds_node {p : Pc} {x : Nat} (h : Mutex.node x ∈ p.holds) :
    ∃ n l, p.owned = some (n, l) ∧ (x = n ∨ x ∈ l) := by
  cases p with
  | idle => simp [Pc.holds] at h
  | wantLog n => simp [Pc.holds] at h
  | want log n => simp [Pc.holds] at h
  | own log n held => simp [Pc.holds] at h; exact ⟨n, held, rfl, h⟩
  | lockKids log n held todo =>
    simp [Pc.holds] at h
    exact ⟨n, held ++ todo, rfl, h.imp id fun h => List.mem_append_left _ h⟩
  | wantLeaf log n held l => simp [Pc.holds] at h; exact ⟨n, held, rfl, h⟩
  | inLeaf log n held l => simp [Pc.holds] at h; exact ⟨n, held, rfl, h⟩

/-- Waiting leads deeper into the tree. -/
theorem level_lt {rank : Nat → Nat} {st : St} (h : Inv rank st) {i j : Nat} {p q : Pc} {x y : Mutex}
    (hi : st.ths[i]? = some p) (hx : p.wants = some x) (hj : st.ths[j]? = some q) (hq : x ∈ q.holds)
    (hy : q.wants = some y) (hnl : ∀ log n held l, q ≠ .wantLeaf log n held l) (hpl : ∀ log n held l, p ≠ .wantLeaf log n held l) :
    level rank p < level rank q := by
  have hqc : (∃ log n, q = .want log n) ∨ (∃ log n held c todo, q = .lockKids log n held (c :: todo)) := by
    cases q with
    | idle => simp [Pc.wants] at hy
    | wantLog n => simp [Pc.holds] at hq
    | want log n => exact .inl ⟨log, n, rfl⟩
    | own log n held => simp [Pc.wants] at hy
    | lockKids log n held todo =>
      cases todo with
      | nil => simp [Pc.wants] at hy
      | cons c todo => exact .inr ⟨_, _, _, _, _, rfl⟩
    | wantLeaf log n held l => exact absurd rfl (hnl log n held l)
    | inLeaf log n held l => simp [Pc.wants] at hy
  cases p with
  | idle => simp [Pc.wants] at hx
  | wantLog n =>
    rcases hqc with ⟨log, m, rfl⟩ | ⟨log, m, held, c, todo, rfl⟩ <;> simp [level] <;> omega
  | want log n =>
    simp [Pc.wants] at hx; subst hx
    rcases hqc with ⟨log', m, rfl⟩ | ⟨log', m, held, c, todo, rfl⟩
    · simp [Pc.holds] at hq
    · obtain ⟨_, hk⟩ := h.kids j _ m _ hj rfl
      have hc := h.rank m c (hk c (by simp))
      simp [Pc.holds] at hq
      simp only [level]
      rcases hq with rfl | hq
      · omega
      · have := h.rank m n (hk n (by simp [hq]))
        omega
  | own log n held => simp [Pc.wants] at hx
  | lockKids log n held todo =>
    cases todo with
    | nil => simp [Pc.wants] at hx
    | cons c todo =>
      simp [Pc.wants] at hx; subst hx
      obtain ⟨hnd, hk⟩ := h.kids i _ n _ hi rfl
      have hc := h.rank n c (hk c (by simp))
      rcases hqc with ⟨log', m, rfl⟩ | ⟨log', m, held', c', todo', rfl⟩
      · simp [Pc.holds] at hq
      · obtain ⟨_, hk'⟩ := h.kids j _ m _ hj rfl
        have hc' := h.rank m c' (hk' c' (by simp))
        simp [Pc.holds] at hq
        simp only [level]
        rcases hq with rfl | hq
        · omega
        · have hm : n = m := h.parent n m c (hk c (by simp)) (hk' c (by simp [hq]))
          subst hm
          have hij : i = j := h.excl i j _ _ (.node n) hi hj (by simp [Pc.holds]) (by simp [Pc.holds])
          subst hij
          rw [hi] at hj
          simp at hj
          obtain ⟨_, rfl, rfl, rfl⟩ := hj
          rw [List.nodup_append] at hnd
          exact absurd rfl (hnd.2.2 c hq c (by simp))
  | wantLeaf log n held l => exact absurd rfl (hpl log n held l)
  | inLeaf log n held l => simp [Pc.wants] at hx

/-- Without a transposition table the locks never deadlock: from every thread that is waiting, the waits-for relation leads
to a thread that can proceed, in every reachable state, for every number of threads, tree and order of locking children.
(Missing: with the table this is false, see below.) -/
theorem c20_no_deadlock_partial (rank : Nat → Nat) (st : St) (hr : Reachable false rank st) (i : Nat) (hi : i < st.ths.length) :
    ∃ j, WaitsChain st i j ∧ CanStep false rank st j := by
  obtain ⟨k, l, hrun⟩ := hr
  have h := inv_run l _ _ (inv_init rank k) hrun
  obtain ⟨B, hB⟩ := level_bound rank st.ths
  -- a thread waiting for a leaf mutex
  have leafCase : ∀ (i : Nat) log n held lf, st.ths[i]? = some (.wantLeaf log n held lf) →
      ∃ j, WaitsChain st i j ∧ CanStep false rank st j := by
    intro i log n held lf hi
    by_cases hw : ∃ j, WaitsFor st i j
    · obtain ⟨j, p, q, x, h1, h2, h3, h4⟩ := hw
      rw [hi] at h1
      simp at h1; subst h1
      simp [Pc.wants] at h2; subst h2
      refine ⟨j, .step ⟨_, q, _, hi, rfl, h3, h4⟩ (.refl j), ?_⟩
      cases q with
      | idle => simp [Pc.holds] at h4
      | wantLog n => simp [Pc.holds] at h4
      | want log n => simp [Pc.holds] at h4
      | own log n held => simp [Pc.holds] at h4
      | lockKids log n held todo => simp [Pc.holds] at h4
      | wantLeaf log n held l => simp [Pc.holds] at h4
      | inLeaf log n held l => exact ⟨.unleaf, by simp [step, h3]⟩
    · exact ⟨i, .refl i, canStep_of_not_waiting hi fun j hj => hw ⟨j, hj⟩⟩
  have main : ∀ (b : Nat) (i : Nat) (p : Pc), st.ths[i]? = some p → B - level rank p ≤ b →
      ∃ j, WaitsChain st i j ∧ CanStep false rank st j := by
    intro b
    induction b with
    | zero =>
      intro i p hi hb
      by_cases hpl : ∃ log n held l, p = .wantLeaf log n held l
      · obtain ⟨log, n, held, lf, rfl⟩ := hpl
        exact leafCase i log n held lf hi
      · by_cases hw : ∃ j, WaitsFor st i j
        · obtain ⟨j, p', q, x, h1, h2, h3, h4⟩ := hw
          rw [hi] at h1; simp at h1; subst h1
          have hch : WaitsFor st i j := ⟨p, q, x, hi, h2, h3, h4⟩
          by_cases hql : ∃ log n held l, q = .wantLeaf log n held l
          · obtain ⟨log, n, held, lf, rfl⟩ := hql
            obtain ⟨m, hm1, hm2⟩ := leafCase j log n held lf h3
            exact ⟨m, .step hch hm1, hm2⟩
          · by_cases hqw : ∃ y, q.wants = some y
            · obtain ⟨y, hy⟩ := hqw
              have := level_lt h hi h2 h3 h4 hy (fun a b c d e => hql ⟨a, b, c, d, e⟩) (fun a b c d e => hpl ⟨a, b, c, d, e⟩)
              have := hB q (List.mem_of_getElem? h3)
              omega
            · refine ⟨j, .step hch (.refl j), canStep_of_not_waiting h3 ?_⟩
              rintro m ⟨q', _, y, g1, g2, _⟩
              rw [h3] at g1; simp at g1; subst g1
              exact hqw ⟨y, g2⟩
        · exact ⟨i, .refl i, canStep_of_not_waiting hi fun j hj => hw ⟨j, hj⟩⟩
    | succ b ih =>
      intro i p hi hb
      by_cases hpl : ∃ log n held l, p = .wantLeaf log n held l
      · obtain ⟨log, n, held, lf, rfl⟩ := hpl
        exact leafCase i log n held lf hi
      · by_cases hw : ∃ j, WaitsFor st i j
        · obtain ⟨j, p', q, x, h1, h2, h3, h4⟩ := hw
          rw [hi] at h1; simp at h1; subst h1
          have hch : WaitsFor st i j := ⟨p, q, x, hi, h2, h3, h4⟩
          by_cases hql : ∃ log n held l, q = .wantLeaf log n held l
          · obtain ⟨log, n, held, lf, rfl⟩ := hql
            obtain ⟨m, hm1, hm2⟩ := leafCase j log n held lf h3
            exact ⟨m, .step hch hm1, hm2⟩
          · by_cases hqw : ∃ y, q.wants = some y
            · obtain ⟨y, hy⟩ := hqw
              have hlt := level_lt h hi h2 h3 h4 hy (fun a b c d e => hql ⟨a, b, c, d, e⟩)
                (fun a b c d e => hpl ⟨a, b, c, d, e⟩)
              obtain ⟨m, hm1, hm2⟩ := ih j q h3 (by omega)
              exact ⟨m, .step hch hm1, hm2⟩
            · refine ⟨j, .step hch (.refl j), canStep_of_not_waiting h3 ?_⟩
              rintro m ⟨q', _, y, g1, g2, _⟩
              rw [h3] at g1; simp at g1; subst g1
              exact hqw ⟨y, g2⟩
        · exact ⟨i, .refl i, canStep_of_not_waiting hi fun j hj => hw ⟨j, hj⟩⟩
  exact main _ i _ (List.getElem?_eq_getElem hi) (Nat.le_refl _)

/-- Mutual exclusion: no mutex is ever held by two threads (stated without the table). -/
theorem c20_mutual_exclusion (rank : Nat → Nat) (st : St) (hr : Reachable false rank st) (i j : Nat) (p q : Pc) (x : Mutex)
    (hi : st.ths[i]? = some p) (hj : st.ths[j]? = some q) (hx : x ∈ p.holds) (hy : x ∈ q.holds) : i = j := by
  obtain ⟨k, l, hrun⟩ := hr
  exact (inv_run l _ _ (inv_init rank k) hrun).excl i j p q x hi hj hx hy

/-- Depths in the example: root 0, its chance nodes 1 and 2, the decision nodes 3 and 4 below both. -/
def exRank : Nat → Nat
  | 0 => 0
  | 1 => 1
  | 2 => 1
  | _ => 2

/-- A search with the table: two actions lead to the same two outcomes, so both chance nodes have the same children. -/
def exBuild : List (Nat × Act) :=
  [(0, .begin 0), (0, .acquire), (0, .addChild 1), (0, .addChild 2), (0, .release),
   (0, .begin 1), (0, .acquire), (0, .addChild 3), (0, .addChild 4), (0, .release),
   (0, .begin 2), (0, .acquire), (0, .addChild 4), (0, .addChild 3), (0, .release)]

/-- Two workers back up the two chance nodes and lock their common children in opposite orders. -/
def exDeadlock : List (Nat × Act) :=
  exBuild ++ [(0, .begin 1), (0, .acquire), (0, .lockKids [3, 4]), (0, .acquire),
              (1, .begin 2), (1, .acquire), (1, .lockKids [4, 3]), (1, .acquire)]

def exStuck : St :=
  { edges := [(0, 1), (0, 2), (1, 3), (1, 4), (2, 4), (2, 3)],
    ths := [.lockKids false 1 [3] [4], .lockKids false 2 [4] [3]] }

/-- With the transposition table the property is false of the code: a reachable state in which two workers wait for each
other and no step is possible any more. -/
theorem c20_table_deadlock_false :
    Reachable true exRank exStuck ∧ WaitsFor exStuck 0 1 ∧ WaitsFor exStuck 1 0 ∧
      ∀ i a, step true exRank exStuck i a = none := by
  refine ⟨⟨2, exDeadlock, by decide⟩, ⟨_, _, .node 4, rfl, rfl, rfl, by decide⟩,
    ⟨_, _, .node 3, rfl, rfl, rfl, by decide⟩, ?_⟩
  intro i a
  match i with
  | 0 => cases a <;> simp [step, exStuck] <;> decide
  | 1 => cases a <;> simp [step, exStuck] <;> decide
  | i + 2 => simp [step, exStuck]

/-- Without the table: a reachable state in which thread 1 waits for a child held by thread 0 which waits for another one. -/
example : ∃ st, Reachable false (fun n => if n = 0 then 0 else 1) st ∧ WaitsFor st 1 0 ∧ WaitsFor st 0 2 := by
  refine ⟨_, ⟨3, [(0, .begin 0), (0, .acquire), (0, .addChild 1), (0, .addChild 2), (0, .lockKids [1, 2]), (0, .acquire),
    (2, .begin 2), (2, .acquire), (1, .begin 1)], rfl⟩, ⟨_, _, .node 1, rfl, rfl, rfl, by decide⟩,
    ⟨_, _, .node 2, rfl, rfl, rfl, by decide⟩⟩

end Verif.Locks
