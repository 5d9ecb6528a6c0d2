import Verif.Spec.Measure
import Verif.Spec.Defaults
import Verif.Proofs.Eval
import Verif.Proofs.RandomEnd
import Mathlib.Tactic.Linarith

/-! # Rollouts that follow the recommendations of a tree with values -/

namespace Verif.Eval

open Verif.Search Verif.Random

variable {S A X Y : Type} [DecidableEq S] [DecidableEq A]

/-- Every recommendation at a node changes its value `V` by the reward up to `δ`; sinks have value 0; all successors are in the tree. -/
structure Guided (c : ECfg S A ℝ X Y) (V : Nat → ℝ) (δ : ℝ) : Prop where
  step : ∀ (e : Nat) nd, c.tree.dn[e]? = some nd → c.env.isSink nd.state = false → ∀ raw, ∃ a o c' e' nd', a ∈ c.env.actions nd.state ∧
    c.advise e raw = some a ∧ c.env.succ nd.state a = [o] ∧ childC c.tree e a = some c' ∧ childD c.tree c' o = some e' ∧
    c.tree.dn[e']? = some nd' ∧ nd'.state = o ∧ |c.env.reward nd.state a o + V e' - V e| ≤ δ
  sink : ∀ (e : Nat) nd, c.tree.dn[e]? = some nd → c.env.isSink nd.state = true → V e = 0

/-- What holds of a running rollout. -/
def OnTrack (c : ECfg S A ℝ X Y) (p : Policy) (V : Nat → ℝ) (δ : ℝ) (th : Thread S ℝ) (r : Roll S ℝ) : Prop :=
  ∃ (play : List (A × S)) (e : Nat) (nd : DNode S A ℝ X), ValidPlay c.env c.init play ∧ endState c.init play = r.state ∧ th.pol.cur = some e ∧
    c.tree.dn[e]? = some nd ∧ nd.state = r.state ∧ r.taken = 0 ∧ |r.ret + V e - V p.root| ≤ play.length * δ

theorem endState_snoc (s : S) (l : List (A × S)) (a : A) (o : S) : endState s (l ++ [(a, o)]) = o := by
  rw [endState_append]; rfl

theorem guided {c : ECfg S A ℝ X Y} {p : Policy} {V : Nat → ℝ} {δ : ℝ} (G : Guided c V δ) (hlen : 1 ≤ c.maxLen) {nr : DNode S A ℝ X}
    (hroot : c.tree.dn[p.root]? = some nr) (hinit : nr.state = c.init) {old : List ℝ} {es : EState S ℝ} {h : List (EEvent S A ℝ)}
    (hr : EReach c p old es h) :
    es.crashed = false ∧ (∀ (t : Nat) th r, es.ts[t]? = some th → th.roll = some r → OnTrack c p V δ th r) ∧
    ∀ t i x, .finished t i x ∈ h → ∃ play, ValidPlay c.env c.init play ∧ |x - V p.root| ≤ play.length * δ := by
  induction hr with
  | start =>
    refine ⟨rfl, fun t th r hth hroll => ?_, by simp⟩
    unfold start at hth
    simp only [List.getElem?_map, Option.map_eq_some_iff] at hth
    obtain ⟨j, _, rfl⟩ := hth
    simp at hroll
  | @step es h t raw s' es' e hr hs ih =>
    obtain ⟨i1, i2, i3⟩ := ih
    obtain ⟨_, E⟩ := eStep_eff hs
    cases E with
    | began th h1 h2 h3 =>
      refine ⟨i1, fun t' th' r' hth hroll => ?_, fun t' i x hx => ?_⟩
      · rcases getElem?_set_cases hth with ⟨rfl, rfl⟩ | ⟨_, g⟩
        · simp only [Option.some.injEq] at hroll
          subst hroll
          refine ⟨[], p.root, nr, trivial, rfl, ?_, hroot, hinit, rfl, by simp⟩
          simp [Policy.reset, (einv hr).polRoot _ _ h1]
        · exact i2 t' th' r' g hroll
      · rcases List.mem_cons.1 hx with hx | hx
        · simp at hx
        · exact i3 t' i x hx
    | died th r raw h1 h2 h3 h4 h5 =>
      exfalso
      obtain ⟨play, e, nd, k1, k2, k3, k4, k5, k6, k7⟩ := i2 t th r h1 h2
      rw [← k5] at h4
      obtain ⟨a, o, c', e', nd', _, q2, _⟩ := G.step e nd k4 h4 raw
      simp [Policy.getAction, k3, q2] at h5
    | acted th r raw a s' h1 h2 h3 h4 h5 h6 =>
      refine ⟨i1, fun t' th' r' hth hroll => ?_, fun t' i x hx => ?_⟩
      · rcases getElem?_set_cases hth with ⟨rfl, rfl⟩ | ⟨_, g⟩
        · simp only [Option.some.injEq] at hroll
          subst hroll
          obtain ⟨play, e, nd, k1, k2, k3, k4, k5, k6, k7⟩ := i2 t' th r h1 h2
          have h4' := h4
          rw [← k5] at h4'
          obtain ⟨a', o, c', e', nd', q1, q2, q3, q4, q5, q6, q7, q8⟩ := G.step e nd k4 h4' raw
          simp only [Policy.getAction, k3, q2, Option.some.injEq] at h5
          subst h5
          rw [k5] at q1 q3 q8
          rw [q3, List.mem_singleton] at h6
          subst h6
          refine ⟨play ++ [(a', s')], e', nd', ?_, endState_snoc _ _ _ _, ?_, q6, q7, k6, ?_⟩
          · rw [← k2] at h4 q1 q3
            exact validPlay_snoc k1 h4 q1 (by rw [q3]; simp)
          · dsimp only
            rw [update_cur k3, q4, Option.bind_some, q5]
          · dsimp only
            rw [List.length_append, List.length_singleton]
            push_cast
            have : r.ret + c.env.reward r.state a' s' + V e' - V p.root = (r.ret + V e - V p.root) + (c.env.reward r.state a' s' + V e' - V e) := by ring
            rw [this]
            refine le_trans (abs_add_le _ _) ?_
            linarith
        · exact i2 t' th' r' g hroll
      · rcases List.mem_cons.1 hx with hx | hx
        · simp at hx
        · exact i3 t' i x hx
    | finished th r h1 h2 h3 =>
      refine ⟨i1, fun t' th' r' hth hroll => ?_, fun t' i x hx => ?_⟩
      · rcases getElem?_set_cases hth with ⟨rfl, rfl⟩ | ⟨_, g⟩
        · simp at hroll
        · exact i2 t' th' r' g hroll
      · rcases List.mem_cons.1 hx with hx | hx
        · simp only [EEvent.finished.injEq] at hx
          obtain ⟨rfl, rfl, rfl⟩ := hx
          obtain ⟨play, e, nd, k1, k2, k3, k4, k5, k6, k7⟩ := i2 _ th r h1 h2
          have hsink : c.env.isSink nd.state = true := by
            rw [k5]
            cases hs : c.env.isSink r.state with
            | true => rfl
            | false => exact absurd ⟨by omega, hs⟩ h3
          rw [G.sink e nd k4 hsink, add_zero] at k7
          exact ⟨play, k1, k7⟩
        · exact i3 t' i x hx

/-- If episodes end within `L` moves the error of a rollout is at most `L δ`. -/
theorem Guided.measures {env : Env S A ℝ} {s0 : S} {st : St S A ℝ X Y} {adv : DNode S A ℝ X → Nat → Option A → Prop} {V : Nat → ℝ} {δ : ℝ}
    {L : Nat} (hδ : 0 ≤ δ) (he : EndsWithin env L s0) {nr : DNode S A ℝ X} (hroot : st.dn[st.root]? = some nr) (hinit : nr.state = s0)
    (G : ∀ c p, Evaluates env s0 st adv c p → Guided c V δ) : Measures env s0 st adv (V st.root) (L * δ) := by
  intro c p E old es h hr
  have hG := G c p E
  obtain ⟨g1, g2, g3⟩ := guided hG E.len (nr := nr) (by rw [E.tree, E.root]; exact hroot) (by rw [E.init]; exact hinit) hr
  refine ⟨g1, fun th hth hroll => ?_, fun t i x hx => ?_⟩
  · obtain ⟨t, ht⟩ := List.mem_iff_getElem?.1 hth
    obtain ⟨r, hr⟩ := Option.ne_none_iff_exists'.1 hroll
    obtain ⟨_, e, _, _, _, k3, _⟩ := g2 t th r ht hr
    rw [k3]
    simp
  · obtain ⟨play, k1, k2⟩ := g3 t i x hx
    rw [E.root] at k2
    rw [E.env, E.init] at k1
    refine le_trans k2 (mul_le_mul_of_nonneg_right ?_ hδ)
    exact_mod_cast he play k1

end Verif.Eval
