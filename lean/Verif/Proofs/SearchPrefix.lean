import Verif.Proofs.SearchBack

/-! # The state in which an event of the history happened -/

namespace Verif.Search

set_option linter.unusedSimpArgs false
set_option linter.unusedSectionVars false

variable {S A R X Y : Type} [DecidableEq S] [DecidableEq A]

section
variable [Add R] [Zero R]

theorem exec_snoc {env : Env S A R} {m : Manager S R} {alg : Alg S A R X Y} {l1 : List (Nat × Choice S A)} {w : Nat} {ch : Choice S A} :
    ∀ {st h}, execFrom env m alg st h (l1 ++ [(w, ch)]) =
      (execFrom env m alg st h l1).bind fun p => (step env m alg p.1 w ch).map fun q => (q.1, q.2 :: p.2) := by
  induction l1 with
  | nil =>
    intro st h
    simp only [List.nil_append, execFrom, Option.bind_some]
    cases step env m alg st w ch <;> simp
  | cons l l1 ih =>
    obtain ⟨w', ch'⟩ := l
    intro st h
    simp only [List.cons_append, execFrom]
    cases step env m alg st w' ch' with
    | none => simp
    | some q => exact ih

theorem reach_prefix {env : Env S A R} {m : Manager S R} {alg : Alg S A R X Y} {k : Nat} {s0 : S} {dp tm : Int}
    {tb : List ((Int × S) × Option Nat)} {st : St S A R X Y} {h : List (Event S A R)}
    (hr : Reachable env m alg k s0 dp tm tb st h) : ∀ {h2 : List (Event S A R)} {e : Event S A R} {h1 : List (Event S A R)},
    h = h2 ++ e :: h1 → ∃ (s1 s2 : St S A R X Y) (w : Nat), Reachable env m alg k s0 dp tm tb s1 h1 ∧ s1.crashed = none ∧
      Eff env m alg s1 w e s2 ∧ Reachable env m alg k s0 dp tm tb s2 (e :: h1) ∧ Le s2 st := by
  obtain ⟨ls, hx⟩ := hr
  obtain ⟨n, hn⟩ : ∃ n, ls.length = n := ⟨_, rfl⟩
  induction n generalizing ls st h with
  | zero =>
    have : ls = [] := List.length_eq_zero_iff.1 hn
    subst this
    simp [execFrom] at hx
    obtain ⟨rfl, rfl⟩ := hx
    intro h2 e h1 hh
    simp at hh
  | succ n ih =>
    rcases getLast?_cases ls with rfl | ⟨l, ⟨w, ch⟩, rfl⟩
    · simp at hn
    · have hx' := hx
      rw [exec_snoc] at hx
      simp only [Option.bind_eq_some_iff, Option.map_eq_some_iff, Prod.exists] at hx
      obtain ⟨s1, h', hx1, s2, e', hs, heq⟩ := hx
      simp only [Prod.mk.injEq] at heq
      obtain ⟨rfl, rfl⟩ := heq
      obtain ⟨hc, E⟩ := step_eff hs
      intro h2 e h1 hh
      cases h2 with
      | nil =>
        simp only [List.nil_append, List.cons.injEq] at hh
        obtain ⟨rfl, rfl⟩ := hh
        exact ⟨s1, s2, w, ⟨l, hx1⟩, hc, E, ⟨_, hx'⟩, Le.refl _⟩
      | cons e2 h2 =>
        simp only [List.cons_append, List.cons.injEq] at hh
        obtain ⟨rfl, rfl⟩ := hh
        obtain ⟨t1, t2, w', g1, g2, g3, g4, g5⟩ := ih l hx1 (by simpa using hn) rfl
        exact ⟨t1, t2, w', g1, g2, g3, g4, g5.trans (le_eff E)⟩

/-- A node exists at the child link of an action only if the action has been selected there. -/
theorem reach_selKid {env : Env S A R} {m : Manager S R} {alg : Alg S A R X Y} {k : Nat} {s0 : S} {dp tm : Int}
    {tb : List ((Int × S) × Option Nat)} {st : St S A R X Y} {h : List (Event S A R)}
    (hr : Reachable env m alg k s0 dp tm tb st h) : ∀ (d : Nat) (nd : DNode S A R X) (a : A) (c : Nat), st.dn[d]? = some nd →
      (a, c) ∈ nd.kids → ∃ w, Event.selected w d a c ∈ h := by
  obtain ⟨ls, hx⟩ := hr
  refine exec_induct (fun st h => ∀ (d : Nat) (nd : DNode S A R X) (a : A) (c : Nat), st.dn[d]? = some nd →
      (a, c) ∈ nd.kids → ∃ w, Event.selected w d a c ∈ h) ?_ ?_ hx
  · intro st h w e st' ih _ E d nd a c hd hm
    have old : ∀ nd0 : DNode S A R X, st.dn[d]? = some nd0 → (a, c) ∈ nd0.kids → ∃ w, Event.selected w d a c ∈ e :: h := by
      intro nd0 h0 h1
      obtain ⟨w, hw⟩ := ih d nd0 a c h0 h1
      exact ⟨w, by simp [hw]⟩
    rcases dn_chg E hd with ⟨nd0, h0, hc⟩ | ⟨_, _, s, dep, tim, rfl⟩
    · cases hc with
      | same => exact old _ h0 hm
      | selOld => exact old _ h0 hm
      | ended => exact old _ h0 hm
      | backed => exact old _ h0 hm
      | @selNew w a' hl ha hf =>
        simp only [List.mem_append, List.mem_singleton, Prod.mk.injEq] at hm
        rcases hm with hm | ⟨rfl, rfl⟩
        · exact old _ h0 hm
        · exact ⟨w, by simp⟩
    · simp [newD] at hm
  · intro d nd a c hd hm
    rcases d with _ | d
    · simp [init, newD] at hd; subst hd; simp at hm
    · simp [init] at hd

/-- The data of a child, looked up through the view of its parent. -/
theorem find?_kidsY {env : Env S A R} {m : Manager S R} {s0 : S} {dp tm : Int} {st : St S A R X Y} (T : Tree env m s0 dp tm st)
    {d : Nat} {nd nd' : DNode S A R X} (hd : st.dn[d]? = some nd) (hk : nd'.kids = nd.kids) (a : A) :
    find? a (kidsY st nd') = (find? a nd.kids).bind fun c => (st.cn[c]?).map fun nc => (nc.visits, nc.y) := by
  have hex : ∀ p ∈ nd.kids, ∃ nc, st.cn[p.2]? = some nc := by
    rintro ⟨b, c⟩ hp
    obtain ⟨n, h1, _⟩ := T.heap.dKid d nd.skel b c (by simp [hd]) hp
    simp only [List.getElem?_map, Option.map_eq_some_iff] at h1
    obtain ⟨nc, h1, _⟩ := h1
    exact ⟨nc, h1⟩
  unfold kidsY
  rw [hk]
  generalize nd.kids = l at hex
  induction l with
  | nil => rfl
  | cons p l ih =>
    obtain ⟨b, c⟩ := p
    obtain ⟨nc, hc⟩ := hex (b, c) (by simp)
    dsimp only at hc
    simp only [List.filterMap_cons, hc, Option.map_some, find?]
    by_cases hb : b = a
    · simp [hb, hc]
    · simp only [hb, if_false]
      exact ih (fun q hq => hex q (by simp [hq]))

theorem mem_kidsY_keys {env : Env S A R} {m : Manager S R} {s0 : S} {dp tm : Int} {st : St S A R X Y} (T : Tree env m s0 dp tm st)
    {d : Nat} {nd nd' : DNode S A R X} (hd : st.dn[d]? = some nd) (hk : nd'.kids = nd.kids) (a : A) :
    a ∈ (kidsY st nd').map Prod.fst ↔ ∃ c, find? a nd.kids = some c := by
  have h := find?_kidsY T hd hk a
  constructor
  · intro hm
    cases hf : find? a nd.kids with
    | some c => exact ⟨c, rfl⟩
    | none =>
      rw [hf] at h
      simp only [Option.bind_none] at h
      exact absurd hm (find?_eq_none.1 h)
  · rintro ⟨c, hf⟩
    obtain ⟨n, h1, _⟩ := T.heap.dKid d nd.skel a c (by simp [hd]) (find?_mem hf)
    simp only [List.getElem?_map, Option.map_eq_some_iff] at h1
    obtain ⟨nc, h1, _⟩ := h1
    rw [hf] at h
    simp only [Option.bind_some, h1, Option.map_some] at h
    exact List.mem_map.2 ⟨_, find?_mem h, rfl⟩

end

end Verif.Search
