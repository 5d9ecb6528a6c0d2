import Verif.Proofs.Erase
import Verif.Proofs.Live
import Verif.Spec.Random
import Mathlib.Tactic.ByContra

/-! # Concrete runs of algorithms that explore

An algorithm that gives every valid action a positive probability in the first `N` trials can follow every schedule of at most `N` steps
that the algorithm without data can follow. -/

namespace Verif.Search

set_option linter.unusedSectionVars false

open Verif.Random Verif.Eval Verif.Spec

variable {S A R X Y : Type} [DecidableEq S] [DecidableEq A] [AddMonoid R] {env : Env S A R} {m : Manager S R} {alg : Alg S A R X Y}
  {k : Nat} {s0 : S} {dp tm : Int} {tb : List ((Int × S) × Option Nat)} {D : Dice S A R X Y} {N : Nat} {pa po : ℝ}

theorem explores_canSelect (hv : alg.Valid) (hX : Explores env m alg D k s0 dp tm tb N pa po) (hpa : 0 < pa) {st : St S A R X Y}
    {h : List (Event S A R)} (hr : Reachable env m alg k s0 dp tm tb st h) (hN : trialsBegun h ≤ N) {w cur : Nat} {path : List (Nat × Nat)}
    {rs : List R} {new : Bool} {nd : DNode S A R X} (a : A) (hw : st.ws[w]? = some (.sel cur path rs new)) (hd : st.dn[cur]? = some nd)
    (hc : shouldContinue env m nd new = true) :
    alg.canSelect (viewOf env m st { nd with visits := nd.visits + 1, x := alg.visitD false nd.x }) (st.ctxOf w) a =
      decide (a ∈ env.actions nd.state) := by
  obtain ⟨_, h2, h3⟩ := hX.sel hr hN hw hd hc
  by_cases ha : a ∈ env.actions nd.state
  · rw [decide_eq_true ha]
    have h4 := lt_of_lt_of_le hpa (h3 a ha)
    have h5 : ∃ p ∈ D.sel (viewOf env m st { nd with visits := nd.visits + 1, x := alg.visitD false nd.x }) (st.ctxOf w), p.1 = a ∧ p.2 ≠ 0 := by
      by_contra hno
      push Not at hno
      have h6 : weightOf (D.sel (viewOf env m st { nd with visits := nd.visits + 1, x := alg.visitD false nd.x }) (st.ctxOf w)) a = 0 := by
        unfold weightOf
        unfold mass
        refine List.sum_eq_zero ?_
        intro x hx
        obtain ⟨p, hp, rfl⟩ := List.mem_map.1 hx
        obtain ⟨hp1, hp2⟩ := List.mem_filter.1 hp
        exact hno p hp1 (by simpa using hp2)
      rw [h6] at h4
      exact lt_irrefl _ h4
    obtain ⟨p, hp, rfl, hp0⟩ := h5
    exact h2 p hp hp0
  · rw [decide_eq_false ha]
    by_contra hne
    exact ha (hv _ _ _ (by simpa using hne))

theorem exec_explores (hv : alg.Valid) (hX : Explores env m alg D k s0 dp tm tb N pa po) (hpa : 0 < pa) (ls : List (Nat × Choice S A)) :
    ∀ (st : St S A R X Y) h, Reachable env m alg k s0 dp tm tb st h → trialsBegun h + ls.length ≤ N →
      execFrom env m (free S A R alg.initVisits) st.erase h ls = (execFrom env m alg st h ls).map fun p => (p.1.erase, p.2) := by
  induction ls with
  | nil => intro st h _ _; rfl
  | cons l ls ih =>
    obtain ⟨w, ch⟩ := l
    intro st h hr hN
    simp only [List.length_cons] at hN
    simp only [execFrom]
    rw [step_erase_at st w ch fun cur path rs new nd a h1 h2 h3 => explores_canSelect hv hX hpa hr (by omega) a h1 h2 h3]
    cases hs : step env m alg st w ch with
    | none => rfl
    | some p =>
      obtain ⟨st', e⟩ := p
      simp only [Option.map_some]
      refine ih st' _ (reach_snoc hr hs) ?_
      have : trialsBegun (e :: h) ≤ trialsBegun h + 1 := by
        unfold trialsBegun
        rw [List.countP_cons]
        cases e <;> simp
      omega

/-- Evaluate a schedule without data and check a decidable property of the outcome. -/
theorem run_explores (hv : alg.Valid) (hX : Explores env m alg D k s0 dp tm [] N pa po) (hpa : 0 < pa)
    (ls : List (Nat × Choice S A)) (hN : ls.length ≤ N) (P : St S A R Unit Unit → List (Event S A R) → Prop)
    (h : ∃ p, execFrom env m (free S A R alg.initVisits) (init env m (free S A R alg.initVisits) k s0 dp tm []) [] ls = some p ∧ P p.1 p.2) :
    ∃ st h, Reachable env m alg k s0 dp tm [] st h ∧ P st.erase h := by
  obtain ⟨p, h1, h2⟩ := h
  rw [← init_erase, exec_explores hv hX hpa ls _ _ ⟨[], rfl⟩ (by simpa [trialsBegun] using hN)] at h1
  obtain ⟨q, h3, h4⟩ := Option.map_eq_some_iff.1 h1
  exact ⟨q.1, q.2, ⟨ls, h3⟩, by rw [← h4] at h2; exact h2⟩

end Verif.Search
