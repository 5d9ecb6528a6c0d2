import Verif.Spec.Search

/-! # Heap invariant of the search: shape of the tree -/

namespace Verif.Search

set_option linter.unusedSimpArgs false

/-! ## Association lists -/

section
variable {K V : Type} [DecidableEq K]

theorem find?_mem {k : K} {v : V} {l : List (K × V)} (h : find? k l = some v) : (k, v) ∈ l := by
  induction l with
  | nil => simp [find?] at h
  | cons a l ih =>
    obtain ⟨k', v'⟩ := a
    simp only [find?] at h
    split at h
    · simp at h; simp_all
    · exact List.mem_cons_of_mem _ (ih h)

theorem find?_eq_none {k : K} {l : List (K × V)} : find? k l = none ↔ k ∉ l.map Prod.fst := by
  induction l with
  | nil => simp [find?]
  | cons a l ih =>
    obtain ⟨k', v'⟩ := a
    simp only [find?]
    split
    · simp_all
    · rename_i hne; simp [ih, Ne.symm hne]

theorem find?_append (k k' : K) (v : V) (l : List (K × V)) :
    find? k (l ++ [(k', v)]) = match find? k l with
      | some u => some u
      | none => if k' = k then some v else none := by
  induction l with
  | nil => simp [find?]
  | cons a l ih =>
    obtain ⟨k1, v1⟩ := a
    simp only [List.cons_append, find?]
    split
    · rfl
    · exact ih

theorem find?_of_mem {k : K} {v : V} {l : List (K × V)} (hn : (l.map Prod.fst).Nodup) (h : (k, v) ∈ l) :
    find? k l = some v := by
  induction l with
  | nil => simp at h
  | cons a l ih =>
    obtain ⟨k', v'⟩ := a
    simp only [List.map_cons, List.nodup_cons] at hn
    simp only [find?]
    rcases List.mem_cons.1 h with h | h
    · simp at h; simp [h]
    · have : k' ≠ k := by
        rintro rfl
        exact hn.1 (List.mem_map.2 ⟨_, h, rfl⟩)
      simp [this, ih hn.2 h]

end

set_option linter.unusedSectionVars false

variable {S A R X Y : Type} [DecidableEq S] [DecidableEq A]

/-! ## Skeletons: the part of a node that backups and visits do not touch -/

structure DS (S A R : Type) where
  state : S
  depth : Int
  time : Int
  heur : R
  kids : List (A × Nat)

structure CS (S A : Type) where
  state : S
  action : A
  depth : Int
  time : Int
  kids : List (S × Nat)

def DNode.skel (d : DNode S A R X) : DS S A R := ⟨d.state, d.depth, d.time, d.heur, d.kids⟩
def CNode.skel (c : CNode S A R Y) : CS S A := ⟨c.state, c.action, c.depth, c.time, c.kids⟩

def leafS (env : Env S A R) (m : Manager S R) (d : DS S A R) : Bool :=
  env.isSink d.state || decide (m.maxDepth ≤ d.depth)

theorem isLeaf_skel (env : Env S A R) (m : Manager S R) (d : DNode S A R X) : isLeaf env m d = leafS env m d.skel := rfl

/-- The shape invariant. -/
structure HInv [Zero R] (env : Env S A R) (m : Manager S R) (s0 : S) (dp tm : Int)
    (ds : List (DS S A R)) (cs : List (CS S A)) (tb : List ((Int × S) × Option Nat)) : Prop where
  root : ∃ r, ds[0]? = some r ∧ r.state = s0 ∧ r.depth = dp ∧ r.time = tm
  dHeur : ∀ (i : Nat) d, ds[i]? = some d → d.heur = heurOf env m d.state
  dTime : ∀ (i : Nat) d, ds[i]? = some d → d.time - d.depth = tm - dp ∧ dp ≤ d.depth
  dMax : dp ≤ m.maxDepth → ∀ (i : Nat) d, ds[i]? = some d → d.depth ≤ m.maxDepth
  dNodup : ∀ (i : Nat) d, ds[i]? = some d → (d.kids.map Prod.fst).Nodup
  dLeaf : ∀ (i : Nat) d, ds[i]? = some d → leafS env m d = true → d.kids = []
  dKid : ∀ (i : Nat) d a c, ds[i]? = some d → (a, c) ∈ d.kids →
    ∃ n, cs[c]? = some n ∧ n.state = d.state ∧ n.action = a ∧ n.depth = d.depth ∧ n.time = d.time
  dAct : ∀ (i : Nat) d a c, ds[i]? = some d → (a, c) ∈ d.kids → a ∈ env.actions d.state
  dUniq : ∀ (i i' : Nat) d d' a a' c, ds[i]? = some d → ds[i']? = some d' → (a, c) ∈ d.kids → (a', c) ∈ d'.kids → i = i'
  cPar : ∀ (c : Nat) n, cs[c]? = some n → ∃ (i : Nat) (d : DS S A R), ds[i]? = some d ∧ (n.action, c) ∈ d.kids
  cNodup : ∀ (c : Nat) n, cs[c]? = some n → (n.kids.map Prod.fst).Nodup
  cKid : ∀ (c : Nat) n o i, cs[c]? = some n → (o, i) ∈ n.kids →
    ∃ d, ds[i]? = some d ∧ d.state = o ∧ d.depth = n.depth + 1 ∧ d.time = n.time + 1
  cObs : ∀ (c : Nat) n o i, cs[c]? = some n → (o, i) ∈ n.kids → o ∈ env.succ n.state n.action
  cUniq : m.useTable = false → ∀ (c c' : Nat) n n' o o' i, cs[c]? = some n → cs[c']? = some n' →
    (o, i) ∈ n.kids → (o', i) ∈ n'.kids → c = c'
  dPar : ∀ (i : Nat) d, ds[i]? = some d → i ≠ 0 → ∃ (c : Nat) (n : CS S A) (o : S), cs[c]? = some n ∧ (o, i) ∈ n.kids
  tSome : ∀ k i, find? k tb = some (some i) → ∃ d, ds[i]? = some d ∧ d.state = k.2 ∧ d.time = k.1 + 1
  tKid : m.useTable = true → ∀ (c : Nat) n o i, cs[c]? = some n → (o, i) ∈ n.kids → find? (n.time, o) tb = some (some i)

theorem hinv_init [Zero R] (env : Env S A R) (m : Manager S R) (s0 : S) (dp tm : Int)
    (tb : List ((Int × S) × Option Nat)) (htb : ∀ p ∈ tb, p.2 = none) :
    HInv env m s0 dp tm [⟨s0, dp, tm, heurOf env m s0, []⟩] [] tb := by
  have h0 : ∀ (i : Nat) (d : DS S A R), [(⟨s0, dp, tm, heurOf env m s0, []⟩ : DS S A R)][i]? = some d →
      i = 0 ∧ d = ⟨s0, dp, tm, heurOf env m s0, []⟩ := by
    intro i d h
    rcases i with _ | i
    · simp at h; exact ⟨rfl, h.symm⟩
    · simp at h
  constructor
  case tSome =>
    intro k i h
    have := htb _ (find?_mem h)
    simp at this
  case root => exact ⟨_, rfl, rfl, rfl, rfl⟩
  all_goals grind

/-- Adding a chance node for an untried action of a non-leaf node. -/
theorem hinv_addC [Zero R] {env : Env S A R} {m : Manager S R} {s0 : S} {dp tm : Int}
    {ds : List (DS S A R)} {cs : List (CS S A)} {tb : List ((Int × S) × Option Nat)}
    (H : HInv env m s0 dp tm ds cs tb) {i : Nat} {d : DS S A R} {a : A} (hd : ds[i]? = some d)
    (hl : leafS env m d = false) (ha : a ∈ env.actions d.state) (hf : find? a d.kids = none) :
    HInv env m s0 dp tm (ds.set i { d with kids := d.kids ++ [(a, cs.length)] })
      (cs ++ [⟨d.state, a, d.depth, d.time, []⟩]) tb := by
  obtain ⟨root, dHeur, dTime, dMax, dNodup, dLeaf, dKid, dAct, dUniq, cPar, cNodup, cKid, cObs, cUniq, dPar, tSome, tKid⟩ := H
  have hlt := (List.getElem?_eq_some_iff.1 hd).1
  have hset : ∀ (j : Nat) e, (ds.set i { d with kids := d.kids ++ [(a, cs.length)] })[j]? = some e →
      (j = i ∧ e = { d with kids := d.kids ++ [(a, cs.length)] }) ∨ (j ≠ i ∧ ds[j]? = some e) := by
    intro j e he
    by_cases hj : i = j
    · subst hj
      left; rw [List.getElem?_set] at he; simp [hlt] at he; exact ⟨rfl, he.symm⟩
    · right; rw [List.getElem?_set] at he; simp [hj] at he; exact ⟨fun h => hj h.symm, he⟩
  have hset' : ∀ (j : Nat) e, ds[j]? = some e → ∃ e', (ds.set i { d with kids := d.kids ++ [(a, cs.length)] })[j]? = some e' ∧
      e'.state = e.state ∧ e'.depth = e.depth ∧ e'.time = e.time ∧ (∀ p ∈ e.kids, p ∈ e'.kids) := by
    intro j e he
    by_cases hj : i = j
    · subst hj
      rw [hd] at he; simp at he; subst he
      exact ⟨_, List.getElem?_set_self hlt, rfl, rfl, rfl, fun p h => List.mem_append.2 (.inl h)⟩
    · exact ⟨e, by simp [hj, he], rfl, rfl, rfl, fun _ h => h⟩
  have happ : ∀ (c : Nat) n, (cs ++ [(⟨d.state, a, d.depth, d.time, []⟩ : CS S A)])[c]? = some n →
      (c < cs.length ∧ cs[c]? = some n) ∨ (c = cs.length ∧ n = ⟨d.state, a, d.depth, d.time, []⟩) := by
    intro c n h
    by_cases hc : c < cs.length
    · left; rw [List.getElem?_append_left hc] at h; exact ⟨hc, h⟩
    · right
      rw [List.getElem?_append_right (by omega)] at h
      have : c - cs.length = 0 := by
        cases hk : c - cs.length with
        | zero => rfl
        | succ k => rw [hk] at h; simp at h
      rw [this] at h; simp at h
      exact ⟨by omega, h.symm⟩
  have happ' : ∀ (c : Nat) n, cs[c]? = some n → (cs ++ [(⟨d.state, a, d.depth, d.time, []⟩ : CS S A)])[c]? = some n := by
    intro c n h
    rw [List.getElem?_append_left (List.getElem?_eq_some_iff.1 h).1]; exact h
  have hkidlt : ∀ (j : Nat) e b c, ds[j]? = some e → (b, c) ∈ e.kids → c < cs.length := by
    intro j e b c he hb
    obtain ⟨n, hn, _⟩ := dKid j e b c he hb
    exact (List.getElem?_eq_some_iff.1 hn).1
  constructor
  · obtain ⟨r, hr, h1, h2, h3⟩ := root
    obtain ⟨r', hr', g1, g2, g3, _⟩ := hset' 0 r hr
    exact ⟨r', hr', by rw [g1, h1], by rw [g2, h2], by rw [g3, h3]⟩
  · intro j e he
    rcases hset j e he with ⟨rfl, rfl⟩ | ⟨_, he⟩
    · exact dHeur j d hd
    · exact dHeur j e he
  · intro j e he
    rcases hset j e he with ⟨rfl, rfl⟩ | ⟨_, he⟩
    · exact dTime j d hd
    · exact dTime j e he
  · intro hm j e he
    rcases hset j e he with ⟨rfl, rfl⟩ | ⟨_, he⟩
    · exact dMax hm j d hd
    · exact dMax hm j e he
  · intro j e he
    rcases hset j e he with ⟨rfl, rfl⟩ | ⟨_, he⟩
    · have := dNodup j d hd
      have hf' := find?_eq_none.1 hf
      simp only [List.map_append, List.map_cons, List.map_nil]
      rw [List.nodup_append]
      refine ⟨this, by simp, ?_⟩
      intro x hx y hy
      simp at hy; subst hy
      rintro rfl; exact hf' hx
    · exact dNodup j e he
  · intro j e he hl'
    rcases hset j e he with ⟨rfl, rfl⟩ | ⟨_, he⟩
    · have : leafS env m d = true := hl'
      simp [hl] at this
    · exact dLeaf j e he hl'
  · intro j e b c he hb
    rcases hset j e he with ⟨rfl, rfl⟩ | ⟨_, he⟩
    · simp only [List.mem_append, List.mem_singleton, Prod.mk.injEq] at hb
      rcases hb with hb | ⟨rfl, rfl⟩
      · obtain ⟨n, hn, h1⟩ := dKid j d b c hd hb
        exact ⟨n, happ' c n hn, h1⟩
      · exact ⟨⟨d.state, b, d.depth, d.time, []⟩, by simp, rfl, rfl, rfl, rfl⟩
    · obtain ⟨n, hn, h1⟩ := dKid j e b c he hb
      exact ⟨n, happ' c n hn, h1⟩
  · intro j e b c he hb
    rcases hset j e he with ⟨rfl, rfl⟩ | ⟨_, he⟩
    · simp only [List.mem_append, List.mem_singleton, Prod.mk.injEq] at hb
      rcases hb with hb | ⟨rfl, rfl⟩
      · exact dAct j d b c hd hb
      · exact ha
    · exact dAct j e b c he hb
  · intro j j' e e' b b' c he he' hb hb'
    rcases hset j e he with ⟨rfl, rfl⟩ | ⟨hne, ke⟩ <;> rcases hset j' e' he' with ⟨rfl, rfl⟩ | ⟨hne', ke'⟩
    · rfl
    · simp only [List.mem_append, List.mem_singleton, Prod.mk.injEq] at hb
      have := hkidlt j' e' b' c ke' hb'
      rcases hb with hb | ⟨_, rfl⟩
      · exact dUniq _ _ _ _ _ _ _ hd ke' hb hb'
      · omega
    · simp only [List.mem_append, List.mem_singleton, Prod.mk.injEq] at hb'
      have := hkidlt j e b c ke hb
      rcases hb' with hb' | ⟨_, rfl⟩
      · exact dUniq _ _ _ _ _ _ _ ke hd hb hb'
      · omega
    · exact dUniq _ _ _ _ _ _ _ ke ke' hb hb'
  · intro c n hn
    rcases happ c n hn with ⟨_, hn⟩ | ⟨rfl, rfl⟩
    · obtain ⟨j, e, he, hk⟩ := cPar c n hn
      obtain ⟨e', he', _, _, _, hk'⟩ := hset' j e he
      exact ⟨j, e', he', hk' _ hk⟩
    · exact ⟨i, _, List.getElem?_set_self hlt, by simp⟩
  · intro c n hn
    rcases happ c n hn with ⟨_, hn⟩ | ⟨rfl, rfl⟩
    · exact cNodup c n hn
    · simp
  · intro c n o j hn hk
    rcases happ c n hn with ⟨_, hn⟩ | ⟨rfl, rfl⟩
    · obtain ⟨e, he, h1, h2, h3⟩ := cKid c n o j hn hk
      obtain ⟨e', he', g1, g2, g3, _⟩ := hset' j e he
      exact ⟨e', he', by rw [g1, h1], by rw [g2, h2], by rw [g3, h3]⟩
    · simp at hk
  · intro c n o j hn hk
    rcases happ c n hn with ⟨_, hn⟩ | ⟨rfl, rfl⟩
    · exact cObs c n o j hn hk
    · simp at hk
  · intro ht c c' n n' o o' j hn hn' hk hk'
    rcases happ c n hn with ⟨_, hn⟩ | ⟨rfl, rfl⟩
    · rcases happ c' n' hn' with ⟨_, hn'⟩ | ⟨rfl, rfl⟩
      · exact cUniq ht _ _ _ _ _ _ _ hn hn' hk hk'
      · simp at hk'
    · simp at hk
  · intro j e he hj
    rcases hset j e he with ⟨rfl, rfl⟩ | ⟨hne, he⟩
    · obtain ⟨c, n, o, hn, hk⟩ := dPar j d hd hj
      exact ⟨c, n, o, happ' c n hn, hk⟩
    · obtain ⟨c, n, o, hn, hk⟩ := dPar j e he hj
      exact ⟨c, n, o, happ' c n hn, hk⟩
  · intro k j hk
    obtain ⟨e, he, h1, h2⟩ := tSome k j hk
    obtain ⟨e', he', g1, g2, g3, _⟩ := hset' j e he
    exact ⟨e', he', by rw [g1, h1], by rw [g3, h2]⟩
  · intro ht c n o j hn hk
    rcases happ c n hn with ⟨_, hn⟩ | ⟨rfl, rfl⟩
    · exact tKid ht c n o j hn hk
    · simp at hk

/-- Linking an existing decision node below a chance node (table hit), or a new one: common part. -/
theorem hinv_addD [Zero R] {env : Env S A R} {m : Manager S R} {s0 : S} {dp tm : Int}
    {ds : List (DS S A R)} {cs : List (CS S A)} {tb : List ((Int × S) × Option Nat)}
    (H : HInv env m s0 dp tm ds cs tb) {c : Nat} {n : CS S A} {o : S} (hn : cs[c]? = some n)
    (ho : o ∈ env.succ n.state n.action) (hf : find? o n.kids = none) {tb' : List ((Int × S) × Option Nat)}
    (htb : (m.useTable = false ∧ tb' = tb) ∨
      (m.useTable = true ∧ find? (n.time, o) tb = none ∧ tb' = tb ++ [((n.time, o), some ds.length)])) :
    HInv env m s0 dp tm (ds ++ [⟨o, n.depth + 1, n.time + 1, heurOf env m o, []⟩])
      (cs.set c { n with kids := n.kids ++ [(o, ds.length)] }) tb' := by
  obtain ⟨root, dHeur, dTime, dMax, dNodup, dLeaf, dKid, dAct, dUniq, cPar, cNodup, cKid, cObs, cUniq, dPar, tSome, tKid⟩ := H
  have hlt := (List.getElem?_eq_some_iff.1 hn).1
  have hset : ∀ (j : Nat) e, (cs.set c { n with kids := n.kids ++ [(o, ds.length)] })[j]? = some e →
      (j = c ∧ e = { n with kids := n.kids ++ [(o, ds.length)] }) ∨ (j ≠ c ∧ cs[j]? = some e) := by
    intro j e he
    by_cases hj : c = j
    · subst hj
      left; rw [List.getElem?_set] at he; simp [hlt] at he; exact ⟨rfl, he.symm⟩
    · right; rw [List.getElem?_set] at he; simp [hj] at he; exact ⟨fun h => hj h.symm, he⟩
  have hset' : ∀ (j : Nat) e, cs[j]? = some e → ∃ e', (cs.set c { n with kids := n.kids ++ [(o, ds.length)] })[j]? = some e' ∧
      e'.state = e.state ∧ e'.action = e.action ∧ e'.depth = e.depth ∧ e'.time = e.time ∧ (∀ p ∈ e.kids, p ∈ e'.kids) := by
    intro j e he
    by_cases hj : c = j
    · subst hj
      rw [hn] at he; simp at he; subst he
      exact ⟨_, List.getElem?_set_self hlt, rfl, rfl, rfl, rfl, fun p h => List.mem_append.2 (.inl h)⟩
    · exact ⟨e, by simp [hj, he], rfl, rfl, rfl, rfl, fun _ h => h⟩
  have happ : ∀ (j : Nat) d, (ds ++ [(⟨o, n.depth + 1, n.time + 1, heurOf env m o, []⟩ : DS S A R)])[j]? = some d →
      (j < ds.length ∧ ds[j]? = some d) ∨ (j = ds.length ∧ d = ⟨o, n.depth + 1, n.time + 1, heurOf env m o, []⟩) := by
    intro j d h
    by_cases hc : j < ds.length
    · left; rw [List.getElem?_append_left hc] at h; exact ⟨hc, h⟩
    · right
      rw [List.getElem?_append_right (by omega)] at h
      have : j - ds.length = 0 := by
        cases hk : j - ds.length with
        | zero => rfl
        | succ k => rw [hk] at h; simp at h
      rw [this] at h; simp at h
      exact ⟨by omega, h.symm⟩
  have happ' : ∀ (j : Nat) d, ds[j]? = some d →
      (ds ++ [(⟨o, n.depth + 1, n.time + 1, heurOf env m o, []⟩ : DS S A R)])[j]? = some d := by
    intro j d h
    rw [List.getElem?_append_left (List.getElem?_eq_some_iff.1 h).1]; exact h
  have hnew : (ds ++ [(⟨o, n.depth + 1, n.time + 1, heurOf env m o, []⟩ : DS S A R)])[ds.length]? =
      some ⟨o, n.depth + 1, n.time + 1, heurOf env m o, []⟩ := by simp
  have hkidlt : ∀ (j : Nat) e b i, cs[j]? = some e → (b, i) ∈ e.kids → i < ds.length := by
    intro j e b i he hb
    obtain ⟨n, hn, _⟩ := cKid j e b i he hb
    exact (List.getElem?_eq_some_iff.1 hn).1
  -- the parent of the chance node is not a leaf, so the new depth is within bounds
  have hpar : ∃ (i : Nat) (d : DS S A R), ds[i]? = some d ∧ n.depth = d.depth ∧ n.time = d.time ∧ leafS env m d = false := by
    obtain ⟨i, d, hd, hk⟩ := cPar c n hn
    obtain ⟨n', hn', _, _, h3, h4⟩ := dKid i d _ c hd hk
    rw [hn] at hn'; simp at hn'; subst hn'
    refine ⟨i, d, hd, h3, h4, ?_⟩
    cases hl : leafS env m d with
    | false => rfl
    | true => rw [dLeaf i d hd hl] at hk; simp at hk
  constructor
  · obtain ⟨r, hr, h1⟩ := root
    exact ⟨r, happ' 0 r hr, h1⟩
  · intro j e he
    rcases happ j e he with ⟨_, he⟩ | ⟨rfl, rfl⟩
    · exact dHeur j e he
    · rfl
  · intro j e he
    rcases happ j e he with ⟨_, he⟩ | ⟨rfl, rfl⟩
    · exact dTime j e he
    · obtain ⟨i, d, hd, h1, h2, _⟩ := hpar
      have := dTime i d hd
      simp only; omega
  · intro hm j e he
    rcases happ j e he with ⟨_, he⟩ | ⟨rfl, rfl⟩
    · exact dMax hm j e he
    · obtain ⟨i, d, hd, h1, h2, h3⟩ := hpar
      simp [leafS] at h3
      simp only; omega
  · intro j e he
    rcases happ j e he with ⟨_, he⟩ | ⟨rfl, rfl⟩
    · exact dNodup j e he
    · simp
  · intro j e he hl'
    rcases happ j e he with ⟨_, he⟩ | ⟨rfl, rfl⟩
    · exact dLeaf j e he hl'
    · rfl
  · intro j e b k he hb
    rcases happ j e he with ⟨_, he⟩ | ⟨rfl, rfl⟩
    · obtain ⟨n1, hn1, h1, h2, h3, h4⟩ := dKid j e b k he hb
      obtain ⟨n2, hn2, g1, g2, g3, g4, _⟩ := hset' k n1 hn1
      exact ⟨n2, hn2, by rw [g1, h1], by rw [g2, h2], by rw [g3, h3], by rw [g4, h4]⟩
    · simp at hb
  · intro j e b k he hb
    rcases happ j e he with ⟨_, he⟩ | ⟨rfl, rfl⟩
    · exact dAct j e b k he hb
    · simp at hb
  · intro j j' e e' b b' k he he' hb hb'
    rcases happ j e he with ⟨_, he⟩ | ⟨rfl, rfl⟩
    · rcases happ j' e' he' with ⟨_, he'⟩ | ⟨rfl, rfl⟩
      · exact dUniq _ _ _ _ _ _ _ he he' hb hb'
      · simp at hb'
    · simp at hb
  · intro k e he
    have : ∃ e0, cs[k]? = some e0 ∧ e0.action = e.action := by
      rcases hset k e he with ⟨rfl, rfl⟩ | ⟨_, he⟩
      · exact ⟨n, hn, rfl⟩
      · exact ⟨e, he, rfl⟩
    obtain ⟨e0, he0, ha⟩ := this
    obtain ⟨i, d, hd, hk⟩ := cPar k e0 he0
    exact ⟨i, d, happ' i d hd, by rw [← ha]; exact hk⟩
  · intro k e he
    rcases hset k e he with ⟨rfl, rfl⟩ | ⟨_, he⟩
    · have := cNodup k n hn
      have hf' := find?_eq_none.1 hf
      simp only [List.map_append, List.map_cons, List.map_nil]
      rw [List.nodup_append]
      refine ⟨this, by simp, ?_⟩
      intro x hx y hy
      simp at hy; subst hy
      rintro rfl; exact hf' hx
    · exact cNodup k e he
  · intro k e o' j he hk
    rcases hset k e he with ⟨rfl, rfl⟩ | ⟨_, he⟩
    · simp only [List.mem_append, List.mem_singleton, Prod.mk.injEq] at hk
      rcases hk with hk | ⟨rfl, rfl⟩
      · obtain ⟨d, hd, h1⟩ := cKid k n o' j hn hk
        exact ⟨d, happ' j d hd, h1⟩
      · exact ⟨_, hnew, rfl, rfl, rfl⟩
    · obtain ⟨d, hd, h1⟩ := cKid k e o' j he hk
      exact ⟨d, happ' j d hd, h1⟩
  · intro k e o' j he hk
    rcases hset k e he with ⟨rfl, rfl⟩ | ⟨_, he⟩
    · simp only [List.mem_append, List.mem_singleton, Prod.mk.injEq] at hk
      rcases hk with hk | ⟨rfl, rfl⟩
      · exact cObs k n o' j hn hk
      · exact ho
    · exact cObs k e o' j he hk
  · intro ht k k' e e' o1 o2 j he he' hk hk'
    rcases hset k e he with ⟨rfl, rfl⟩ | ⟨hne, ke⟩ <;> rcases hset k' e' he' with ⟨rfl, rfl⟩ | ⟨hne', ke'⟩
    · rfl
    · simp only [List.mem_append, List.mem_singleton, Prod.mk.injEq] at hk
      have := hkidlt k' e' o2 j ke' hk'
      rcases hk with hk | ⟨_, rfl⟩
      · exact cUniq ht _ _ _ _ _ _ _ hn ke' hk hk'
      · omega
    · simp only [List.mem_append, List.mem_singleton, Prod.mk.injEq] at hk'
      have := hkidlt k e o1 j ke hk
      rcases hk' with hk' | ⟨_, rfl⟩
      · exact cUniq ht _ _ _ _ _ _ _ ke hn hk hk'
      · omega
    · exact cUniq ht _ _ _ _ _ _ _ ke ke' hk hk'
  · intro j e he hj
    rcases happ j e he with ⟨_, he⟩ | ⟨rfl, rfl⟩
    · obtain ⟨k, n1, o', hn1, hk⟩ := dPar j e he hj
      obtain ⟨n2, hn2, _, _, _, _, h5⟩ := hset' k n1 hn1
      exact ⟨k, n2, o', hn2, h5 _ hk⟩
    · exact ⟨c, _, o, List.getElem?_set_self hlt, by simp⟩
  · intro k j hk
    rcases htb with ⟨_, rfl⟩ | ⟨_, hnone, rfl⟩
    · obtain ⟨d, hd, h1⟩ := tSome k j hk
      exact ⟨d, happ' j d hd, h1⟩
    · rw [find?_append] at hk
      cases hk1 : find? k tb with
      | some u =>
        rw [hk1] at hk; simp at hk; subst hk
        obtain ⟨d, hd, h1⟩ := tSome k j hk1
        exact ⟨d, happ' j d hd, h1⟩
      | none =>
        rw [hk1] at hk
        by_cases hko : (n.time, o) = k
        · simp [hko] at hk; subst hk; subst hko
          exact ⟨_, hnew, rfl, rfl⟩
        · simp [hko] at hk
  · intro ht k e o' j he hk
    rcases htb with ⟨h, _⟩ | ⟨_, hnone, rfl⟩
    · simp [h] at ht
    · rw [find?_append]
      rcases hset k e he with ⟨rfl, rfl⟩ | ⟨_, he⟩
      · simp only [List.mem_append, List.mem_singleton, Prod.mk.injEq] at hk
        rcases hk with hk | ⟨rfl, rfl⟩
        · rw [tKid ht k n o' j hn hk]
        · simp only [hnone, if_true]
      · rw [tKid ht k e o' j he hk]

/-- Linking an existing decision node found in the table. -/
theorem hinv_linkD [Zero R] {env : Env S A R} {m : Manager S R} {s0 : S} {dp tm : Int}
    {ds : List (DS S A R)} {cs : List (CS S A)} {tb : List ((Int × S) × Option Nat)}
    (H : HInv env m s0 dp tm ds cs tb) {c : Nat} {n : CS S A} {o : S} {i : Nat} (hn : cs[c]? = some n)
    (ho : o ∈ env.succ n.state n.action) (hf : find? o n.kids = none)
    (hu : m.useTable = true) (ht : find? (n.time, o) tb = some (some i)) :
    HInv env m s0 dp tm ds (cs.set c { n with kids := n.kids ++ [(o, i)] }) tb := by
  obtain ⟨root, dHeur, dTime, dMax, dNodup, dLeaf, dKid, dAct, dUniq, cPar, cNodup, cKid, cObs, cUniq, dPar, tSome, tKid⟩ := H
  have hlt := (List.getElem?_eq_some_iff.1 hn).1
  have hset : ∀ (j : Nat) e, (cs.set c { n with kids := n.kids ++ [(o, i)] })[j]? = some e →
      (j = c ∧ e = { n with kids := n.kids ++ [(o, i)] }) ∨ (j ≠ c ∧ cs[j]? = some e) := by
    intro j e he
    by_cases hj : c = j
    · subst hj
      left; rw [List.getElem?_set] at he; simp [hlt] at he; exact ⟨rfl, he.symm⟩
    · right; rw [List.getElem?_set] at he; simp [hj] at he; exact ⟨fun h => hj h.symm, he⟩
  have hset' : ∀ (j : Nat) e, cs[j]? = some e → ∃ e', (cs.set c { n with kids := n.kids ++ [(o, i)] })[j]? = some e' ∧
      e'.state = e.state ∧ e'.action = e.action ∧ e'.depth = e.depth ∧ e'.time = e.time ∧ (∀ p ∈ e.kids, p ∈ e'.kids) := by
    intro j e he
    by_cases hj : c = j
    · subst hj
      rw [hn] at he; simp at he; subst he
      exact ⟨_, List.getElem?_set_self hlt, rfl, rfl, rfl, rfl, fun p h => List.mem_append.2 (.inl h)⟩
    · exact ⟨e, by simp [hj, he], rfl, rfl, rfl, rfl, fun _ h => h⟩
  obtain ⟨dnew, hdnew, hs1, hs2⟩ := tSome _ i ht
  refine ⟨root, dHeur, dTime, dMax, dNodup, dLeaf, ?_, dAct, dUniq, ?_, ?_, ?_, ?_, ?_, ?_, tSome, ?_⟩
  · intro j e b k he hb
    obtain ⟨n1, hn1, h1, h2, h3, h4⟩ := dKid j e b k he hb
    obtain ⟨n2, hn2, g1, g2, g3, g4, _⟩ := hset' k n1 hn1
    exact ⟨n2, hn2, by rw [g1, h1], by rw [g2, h2], by rw [g3, h3], by rw [g4, h4]⟩
  · intro k e he
    have : ∃ e0, cs[k]? = some e0 ∧ e0.action = e.action := by
      rcases hset k e he with ⟨rfl, rfl⟩ | ⟨_, he⟩
      · exact ⟨n, hn, rfl⟩
      · exact ⟨e, he, rfl⟩
    obtain ⟨e0, he0, ha⟩ := this
    obtain ⟨i, d, hd, hk⟩ := cPar k e0 he0
    exact ⟨i, d, hd, by rw [← ha]; exact hk⟩
  · intro k e he
    rcases hset k e he with ⟨rfl, rfl⟩ | ⟨_, he⟩
    · have := cNodup k n hn
      have hf' := find?_eq_none.1 hf
      simp only [List.map_append, List.map_cons, List.map_nil]
      rw [List.nodup_append]
      refine ⟨this, by simp, ?_⟩
      intro x hx y hy
      simp at hy; subst hy
      rintro rfl; exact hf' hx
    · exact cNodup k e he
  · intro k e o' j he hk
    rcases hset k e he with ⟨rfl, rfl⟩ | ⟨_, he⟩
    · simp only [List.mem_append, List.mem_singleton, Prod.mk.injEq] at hk
      rcases hk with hk | ⟨rfl, rfl⟩
      · exact cKid k n o' j hn hk
      · refine ⟨dnew, hdnew, hs1, ?_, hs2⟩
        obtain ⟨p, d, hd, hk⟩ := cPar k n hn
        obtain ⟨n', hn', _, _, h3, h4⟩ := dKid p d _ k hd hk
        rw [hn] at hn'; simp at hn'; subst hn'
        have h5 := dTime p d hd
        have h6 := dTime _ dnew hdnew
        simp only at hs2 ⊢
        omega
    · exact cKid k e o' j he hk
  · intro k e o' j he hk
    rcases hset k e he with ⟨rfl, rfl⟩ | ⟨_, he⟩
    · simp only [List.mem_append, List.mem_singleton, Prod.mk.injEq] at hk
      rcases hk with hk | ⟨rfl, rfl⟩
      · exact cObs k n o' j hn hk
      · exact ho
    · exact cObs k e o' j he hk
  · intro h; simp [h] at hu
  · intro j e he hj
    obtain ⟨k, n1, o', hn1, hk⟩ := dPar j e he hj
    obtain ⟨n2, hn2, _, _, _, _, h5⟩ := hset' k n1 hn1
    exact ⟨k, n2, o', hn2, h5 _ hk⟩
  · intro _ k e o' j he hk
    rcases hset k e he with ⟨rfl, rfl⟩ | ⟨_, he⟩
    · simp only [List.mem_append, List.mem_singleton, Prod.mk.injEq] at hk
      rcases hk with hk | ⟨rfl, rfl⟩
      · exact tKid hu k n o' j hn hk
      · exact ht
    · exact tKid hu k e o' j he hk

end Verif.Search
