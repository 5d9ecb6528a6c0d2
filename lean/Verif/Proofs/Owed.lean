import Verif.Proofs.CtxInv
import Verif.Proofs.Dp

/-! # The (decision node, action) pairs a worker still has to back up -/

namespace Verif.Search

set_option linter.unusedSimpArgs false
set_option linter.unusedSectionVars false

variable {S A R X Y : Type} [DecidableEq S] [DecidableEq A]

def dacts (l : List (Step S A R)) : List (Nat × A) := l.map fun s => (s.d, s.a)

/-- The selections of the current trial of worker `w` whose decision nodes have not been backed up yet. -/
def owed (w : Nat) (h : List (Event S A R)) : Phase S A R → List (Nat × A)
  | .idle => []
  | .sel _ _ _ _ => dacts (stepsOf w h)
  | .samp cur a _ _ _ _ => dacts (stepsOf w h) ++ [(cur, a)]
  | .back nodes _ _ _ _ => dacts ((stepsOf w h).take nodes.length)
  | .backD _ nodes _ _ _ _ => dacts ((stepsOf w h).take (nodes.length + 1))

/-- No worker still has to back up decision node `d` after having selected `a` there. -/
def Settled (st : St S A R X Y) (h : List (Event S A R)) (d : Nat) (a : A) : Prop :=
  ∀ (w : Nat) p, st.ws[w]? = some p → (d, a) ∉ owed w h p

section
variable [AddMonoid R] {env : Env S A R} {m : Manager S R} {alg : Alg S A R X Y} {s0 : S} {dp tm : Int} {st st' : St S A R X Y}
  {h : List (Event S A R)} {w : Nat} {e : Event S A R}

theorem pairs_length (l : List (Step S A R)) : (pairs l).length = l.length := by simp [pairs]

theorem pairs_take_length {l : List (Step S A R)} {j : Nat} (hj : j ≤ l.length) : ((pairs l).take j).length = j := by
  rw [List.length_take, pairs_length, Nat.min_eq_left hj]

/-- How the selections owed by the worker that makes the step change. -/
theorem owed_self (I : Inv env m s0 dp tm st h) (E : Eff env m alg st w e st') {p q : Phase S A R} (hp : st.ws[w]? = some p)
    (hq : st'.ws[w]? = some q) :
    (owed w (e :: h) q = owed w h p ∧ (∀ d a c, e ≠ .selected w d a c) ∧ ∀ d args, e ≠ .backedD w d args) ∨
    (∃ d a c, e = .selected w d a c ∧ owed w (e :: h) q = owed w h p ++ [(d, a)]) ∨
    (∃ d a args, e = .backedD w d args ∧ owed w h p = owed w (e :: h) q ++ [(d, a)]) := by
  have hself : ∀ {p0 q0 : Phase S A R}, st.ws[w]? = some p0 → (st.ws.set w q0)[w]? = some q → p = p0 ∧ q = q0 := by
    intro p0 q0 h1 h2
    rw [List.getElem?_set_self (List.getElem?_eq_some_iff.1 h1).1] at h2
    rw [hp] at h1
    exact ⟨Option.some.inj h1, (Option.some.inj h2).symm⟩
  cases E with
  | crash hc =>
    left
    rw [hp] at hq
    obtain rfl := Option.some.inj hq
    refine ⟨?_, by simp, by simp⟩
    cases p <;> simp [owed, st_crash]
  | began hw =>
    obtain ⟨rfl, rfl⟩ := hself hw hq
    left
    exact ⟨by simp [owed, stepsOf, tr_began, dacts], by simp, by simp⟩
  | selOld hw hd hl hm ha hf =>
    obtain ⟨rfl, rfl⟩ := hself hw hq
    exact .inr (.inl ⟨_, _, _, rfl, by simp [owed, st_sel]⟩)
  | selNew hw hd hl hm ha hf =>
    obtain ⟨rfl, rfl⟩ := hself hw hq
    exact .inr (.inl ⟨_, _, _, rfl, by simp [owed, st_sel]⟩)
  | ended hw hd hs =>
    obtain ⟨rfl, rfl⟩ := hself hw hq
    obtain ⟨_, b2, _⟩ := I.ws w _ hw
    left
    refine ⟨?_, by simp, by simp⟩
    simp only [owed, st_end]
    rw [b2, pairs_length, List.take_length]
  | stepOld hw hc hd ho hf =>
    obtain ⟨rfl, rfl⟩ := hself hw hq
    left
    exact ⟨by simp [owed, st_stp, dacts], by simp, by simp⟩
  | stepNew hw hc hd ho hf ht =>
    obtain ⟨rfl, rfl⟩ := hself hw hq
    left
    exact ⟨by simp [owed, st_stp, dacts], by simp, by simp⟩
  | stepHit hw hc hd ho hf hu ht =>
    obtain ⟨rfl, rfl⟩ := hself hw hq
    left
    exact ⟨by simp [owed, st_stp, dacts], by simp, by simp⟩
  | completed hw =>
    obtain ⟨rfl, rfl⟩ := hself hw hq
    left
    exact ⟨by simp [owed, dacts], by simp, by simp⟩
  | backedC hw hc =>
    obtain ⟨rfl, rfl⟩ := hself hw hq
    left
    exact ⟨by simp [owed, st_bc], by simp, by simp⟩
  | @backedD d nodes before after ret tot nd hw hd =>
    obtain ⟨rfl, rfl⟩ := hself hw hq
    obtain ⟨e, hv, j, s, g1, g2, g3, g4, g5, g6, _⟩ := I.ws w _ hw
    right; right
    have hj := (List.getElem?_eq_some_iff.1 g1).1
    have hl : nodes.length = j := by rw [g6, pairs_take_length (Nat.le_of_lt hj)]
    refine ⟨d, s.a, _, rfl, ?_⟩
    simp only [owed, st_bd, hl]
    rw [List.take_add_one, g1, ← g2]
    simp [dacts]

theorem owed_other (E : Eff env m alg st w e st') {w' : Nat} (hne : w' ≠ w) (p : Phase S A R) : owed w' (e :: h) p = owed w' h p := by
  have : stepsOf w' (e :: h) = stepsOf w' h := stepsOf_other (by rw [eff_worker E]; exact fun h => hne h.symm)
  cases p <;> simp [owed, this]

/-- If a selection is settled after a step then it was before, or the step is the backup that settles it. -/
theorem settled_back (I : Inv env m s0 dp tm st h) (E : Eff env m alg st w e st') {d : Nat} {a : A} (H : Settled st' (e :: h) d a) :
    Settled st h d a ∨ ∃ args, e = .backedD w d args := by
  cases hp : st.ws[w]? with
  | none =>
    left
    intro w' p hp'
    have hne : w' ≠ w := by rintro rfl; rw [hp] at hp'; simp at hp'
    have := H w' p (by rw [eff_ws_other E hne]; exact hp')
    rwa [owed_other E hne] at this
  | some p =>
    obtain ⟨q, hq⟩ : ∃ q, st'.ws[w]? = some q := by
      have := (List.getElem?_eq_some_iff.1 hp).1
      rw [← eff_len E] at this
      exact ⟨_, List.getElem?_eq_getElem this⟩
    have hq' := H w q hq
    rcases owed_self I E hp hq with ⟨h1, _⟩ | ⟨d', a', c, rfl, h1⟩ | ⟨d', a', args, rfl, h1⟩
    · left
      intro w' p' hp'
      by_cases hne : w' = w
      · subst hne
        rw [hp] at hp'
        obtain rfl := Option.some.inj hp'
        rwa [h1] at hq'
      · have := H w' p' (by rw [eff_ws_other E hne]; exact hp')
        rwa [owed_other E hne] at this
    · left
      intro w' p' hp'
      by_cases hne : w' = w
      · subst hne
        rw [hp] at hp'
        obtain rfl := Option.some.inj hp'
        rw [h1] at hq'
        simp at hq'
        exact hq'.1
      · have := H w' p' (by rw [eff_ws_other E hne]; exact hp')
        rwa [owed_other E hne] at this
    · by_cases hda : (d, a) = (d', a')
      · right
        simp only [Prod.mk.injEq] at hda
        exact ⟨args, by rw [hda.1]⟩
      · left
        intro w' p' hp'
        by_cases hne : w' = w
        · subst hne
          rw [hp] at hp'
          obtain rfl := Option.some.inj hp'
          rw [h1]
          simp only [List.mem_append, List.mem_singleton, not_or]
          exact ⟨hq', hda⟩
        · have := H w' p' (by rw [eff_ws_other E hne]; exact hp')
          rwa [owed_other E hne] at this

/-- A selection that is settled after the step was not made by it. -/
theorem settled_not_selected (I : Inv env m s0 dp tm st h) (E : Eff env m alg st w e st') {d : Nat} {a : A} (H : Settled st' (e :: h) d a)
    {w' c : Nat} : e ≠ .selected w' d a c := by
  rintro rfl
  have hw' : w' = w := eff_worker E
  subst hw'
  have hws : ∃ p, st.ws[w']? = some p := by
    cases E with
    | selOld hw => exact ⟨_, hw⟩
    | selNew hw => exact ⟨_, hw⟩
  obtain ⟨p, hp⟩ := hws
  obtain ⟨q, hq⟩ : ∃ q, st'.ws[w']? = some q := by
    have := (List.getElem?_eq_some_iff.1 hp).1
    rw [← eff_len E] at this
    exact ⟨_, List.getElem?_eq_getElem this⟩
  rcases owed_self I E hp hq with ⟨_, h2, _⟩ | ⟨d', a', c', he, h1⟩ | ⟨d', a', args, he, _⟩
  · exact h2 _ _ _ rfl
  · simp only [Event.selected.injEq] at he
    obtain ⟨_, rfl, rfl, _⟩ := he
    exact H w' q hq (by rw [h1]; simp)
  · simp at he

/-- A chance node whose selection is settled after the step is not backed up by it. -/
theorem settled_not_backedC (I : Inv env m s0 dp tm st h) (E : Eff env m alg st w e st') {d c : Nat} {a : A} (H : Settled st' (e :: h) d a)
    (hc : childC st d a = some c) {w' : Nat} {args : BArgs R} : e ≠ .backedC w' c args := by
  rintro rfl
  obtain ⟨hw', nodes, d0, r, aft, ret, nc, hw, _, _, hcn, rfl⟩ := Backups.eff_backedC E
  subst hw'
  obtain ⟨e, hv, j, g1, g2, g3, g4, g5, _⟩ := I.ws w' _ hw
  have hmem : (d0, c) ∈ (pairs (stepsOf w' h)).take j := by rw [← g5]; simp
  -- the step of the trial that belongs to the backup
  have hl : nodes.length + 1 = j := by
    have := congrArg List.length g5
    rw [pairs_take_length g1] at this
    simpa using this
  have hmem' : (d0, c) ∈ pairs ((stepsOf w' h).take j) := by
    have : pairs ((stepsOf w' h).take j) = (pairs (stepsOf w' h)).take j := by simp [pairs, List.map_take]
    rw [this]; exact hmem
  obtain ⟨s, hs, hs2⟩ := List.mem_map.1 hmem'
  simp only [Prod.mk.injEq] at hs2
  obtain ⟨rfl, rfl⟩ := hs2
  have hlink := (isPath_mem g3.1 s (List.mem_of_mem_take hs)).1
  obtain ⟨nd1, nc1, k1, k2, k3, _, k4, _⟩ := childC_facts I.tree hlink
  obtain ⟨nd2, nc2, f1, f2, f3, _, f4, _⟩ := childC_facts I.tree hc
  have hd : d = s.d := childC_unique I.tree f1 k1 f3 k3
  rw [k2] at f2
  obtain rfl := Option.some.inj f2
  have ha : a = s.a := by rw [← f4, ← k4]
  subst hd ha
  refine H w' _ (List.getElem?_set_self (List.getElem?_eq_some_iff.1 hw).1) ?_
  simp only [owed, st_bc, hl]
  exact List.mem_map.2 ⟨s, hs, rfl⟩

/-- With a single worker nothing is owed at the node where the worker is about to select. -/
theorem settled_single (I : Inv env m s0 dp tm st h) (hk : st.ws.length = 1) {w cur : Nat} {path : List (Nat × Nat)} {rs : List R} {new : Bool}
    (hw : st.ws[w]? = some (.sel cur path rs new)) (a : A) : Settled st h cur a := by
  intro w' p hp hmem
  have e1 := (List.getElem?_eq_some_iff.1 hw).1
  have e2 := (List.getElem?_eq_some_iff.1 hp).1
  have : w' = w := by omega
  subst this
  rw [hw] at hp
  obtain rfl := Option.some.inj hp
  obtain ⟨B, _⟩ := I.ws w' _ hw
  obtain ⟨s, hs, he⟩ := List.mem_map.1 hmem
  simp only [Prod.mk.injEq] at he
  obtain ⟨j, hj⟩ := List.getElem?_of_mem hs
  obtain ⟨nd, g1, g2⟩ := (base_depth I.tree B).2 j s hj
  rw [he.1] at g1
  have g3 := (base_depth I.tree B).1 nd g1
  have := (List.getElem?_eq_some_iff.1 hj).1
  omega

end

end Verif.Search
