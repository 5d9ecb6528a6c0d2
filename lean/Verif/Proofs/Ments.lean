import Verif.Spec.Ments
import Verif.Proofs.Sampling
import Verif.Proofs.Backups
import Mathlib.Tactic.Positivity
import Mathlib.Tactic.FieldSimp
import Mathlib.Tactic.Linarith

/-! # Lemmas about the MENTS policy -/

set_option linter.unusedSectionVars false
set_option linter.unusedSimpArgs false

namespace Verif.Ments

open Verif.Search Verif.Sampling Verif.Spec Verif.Backups

variable {S A X Y : Type} [DecidableEq S] [DecidableEq A]

theorem qList_eq {q : A → Except Bad ℝ} {Q : A → ℝ} {l : List A} (h : ∀ a ∈ l, q a = .ok (Q a)) :
    qList q l = .ok (l.map fun a => (a, Q a)) := by
  induction l with
  | nil => rfl
  | cons a l ih => simp [qList, h a (by simp), ih (fun b hb => h b (by simp [hb]))]

theorem normTerm_ge (temp : ℝ) (l : List (A × ℝ)) : ∀ n, n ≤ normTerm temp l n ∧ ∀ p ∈ l, p.2 / temp ≤ normTerm temp l n := by
  induction l with
  | nil => intro n; simp [normTerm]
  | cons p l ih =>
    intro n
    obtain ⟨a, q⟩ := p
    simp only [normTerm]
    split
    · next h =>
      obtain ⟨h1, h2⟩ := ih (q / temp)
      exact ⟨le_trans h.le h1, fun p hp => by rcases List.mem_cons.1 hp with rfl | hp; exacts [h1, h2 p hp]⟩
    · next h =>
      obtain ⟨h1, h2⟩ := ih n
      exact ⟨h1, fun p hp => by rcases List.mem_cons.1 hp with rfl | hp; exacts [le_trans (not_lt.1 h) h1, h2 p hp]⟩

theorem normTerm_mem (temp : ℝ) (l : List (A × ℝ)) : ∀ n, normTerm temp l n = n ∨ ∃ p ∈ l, normTerm temp l n = p.2 / temp := by
  induction l with
  | nil => intro n; simp [normTerm]
  | cons p l ih =>
    intro n
    obtain ⟨a, q⟩ := p
    simp only [normTerm]
    split
    · rcases ih (q / temp) with h | ⟨p, hp, h⟩
      · exact .inr ⟨(a, q), by simp, h⟩
      · exact .inr ⟨p, by simp [hp], h⟩
    · rcases ih n with h | ⟨p, hp, h⟩
      · exact .inl h
      · exact .inr ⟨p, by simp [hp], h⟩

theorem weights_sum (low temp : ℝ) (qs : List (A × ℝ)) :
    (weights low temp qs).2.1 = (qs.map fun p => Real.exp (p.2 / temp - (weights low temp qs).2.2)).sum := by
  simp only [weights]
  have := sumWeights_eq (qs.map fun p => (p.1, Real.exp (p.2 / temp - normTerm temp qs low)))
  unfold sumWeights at this
  rw [this]
  simp [mass, Function.comp_def]

theorem weights_partition (low temp : ℝ) (Q : A → ℝ) (l : List A) :
    (weights low temp (l.map fun a => (a, Q a))).2.1 * Real.exp (weights low temp (l.map fun a => (a, Q a))).2.2 = partition temp Q l := by
  rw [weights_sum]
  generalize (weights low temp (l.map fun a => (a, Q a))).2.2 = n
  unfold partition
  rw [List.map_map]
  induction l with
  | nil => simp
  | cons a l ih =>
    simp only [List.map_cons, List.sum_cons, add_mul, ih, Function.comp]
    rw [← Real.exp_add]
    simp

theorem partition_pos (temp : ℝ) (Q : A → ℝ) {l : List A} (h : l ≠ []) : 0 < partition temp Q l := by
  unfold partition
  cases l with
  | nil => exact absurd rfl h
  | cons a l =>
    simp only [List.map_cons, List.sum_cons]
    have : 0 ≤ (l.map fun a => Real.exp (Q a / temp)).sum := List.sum_nonneg (by
      intro x hx; obtain ⟨b, _, rfl⟩ := List.mem_map.1 hx; positivity)
    have := Real.exp_pos (Q a / temp)
    linarith

theorem lambda_visited {cfg : Cfg S A} {v : View S A X Y} (hN : 0 < v.visits) : lambda cfg v = .ok (uniformWeight cfg v) := by
  unfold lambda uniformWeight epsilonAt isRoot
  simp only [decide_eq_true_eq, gt_iff_lt]
  rw [if_neg (by omega)]
  congr 1
  generalize (if v.depth = 0 ∧ 0 < cfg.rootEpsilon then cfg.rootEpsilon else cfg.epsilon) = e
  split
  · next h => rw [min_eq_right h.le]
  · next h => rw [min_eq_left (not_lt.1 h)]

theorem interpolate_eq {cfg : Cfg S A} {v : View S A X Y} (hp : PriorCovers cfg v) {a : A} (ha : a ∈ v.actions) (lam sum : ℝ) (n : Nat) (w : ℝ) :
    interpolate cfg v lam sum n a w = .ok (w * ((1 - lam) / sum) * (1 - priorWeightAt cfg v) +
      (1 - lam) * priorWeightAt cfg v * priorAt cfg v a + lam * (1 / (n : ℝ))) := by
  unfold interpolate priorWeightAt priorAt
  by_cases h : 0 < cfg.priorWeight
  · obtain ⟨f, hf, hc⟩ := hp h
    obtain ⟨w', hw'⟩ := Option.isSome_iff_exists.1 (hc a ha)
    simp [h, hf, hw']
  · simp [h]

theorem interpolateAll_eq {cfg : Cfg S A} {v : View S A X Y} (hp : PriorCovers cfg v) (lam sum : ℝ) (n : Nat) (w : A → ℝ) {l : List A}
    (hl : ∀ a ∈ l, a ∈ v.actions) : interpolateAll cfg v lam sum n (l.map fun a => (a, w a)) =
      .ok (l.map fun a => (a, w a * ((1 - lam) / sum) * (1 - priorWeightAt cfg v) +
        (1 - lam) * priorWeightAt cfg v * priorAt cfg v a + lam * (1 / (n : ℝ)))) := by
  induction l with
  | nil => rfl
  | cons a l ih =>
    simp only [List.map_cons, interpolateAll]
    rw [interpolate_eq hp (hl a (by simp)), ih (fun b hb => hl b (by simp [hb]))]

/-- The distribution before dropping small entries is the documented policy. -/
theorem fullDistr_eq {cfg : Cfg S A} {q : A → Except Bad ℝ} {v : View S A X Y} {Q : A → ℝ} (hq : QIs q v Q) (hN : 0 < v.visits)
    (hp : PriorCovers cfg v) : fullDistr cfg q v = .ok (v.actions.map fun a => (a, policy cfg (getTemp cfg v) v Q a)) := by
  unfold fullDistr
  rw [qList_eq hq, lambda_visited hN]
  dsimp only
  have hw : (weights cfg.low (getTemp cfg v) (v.actions.map fun a => (a, Q a))).1 =
      v.actions.map fun a => (a, Real.exp (Q a / getTemp cfg v - (weights cfg.low (getTemp cfg v) (v.actions.map fun a => (a, Q a))).2.2)) := by
    simp [weights, Function.comp_def]
  have hz := weights_partition cfg.low (getTemp cfg v) Q v.actions
  rw [hw, interpolateAll_eq hp _ _ _ _ (fun a ha => ha)]
  congr 1
  apply List.map_congr_left
  intro a ha
  have hne : v.actions ≠ [] := List.ne_nil_of_mem ha
  have hpos := partition_pos (getTemp cfg v) Q hne
  simp only [Prod.mk.injEq, true_and]
  unfold policy boltzmann
  rw [← hz] at hpos ⊢
  generalize (weights cfg.low (getTemp cfg v) (v.actions.map fun a => (a, Q a))).2.2 = n at *
  generalize (weights cfg.low (getTemp cfg v) (v.actions.map fun a => (a, Q a))).2.1 = s at *
  have hs : s ≠ 0 := by
    rintro rfl
    simp at hpos
  have he := (Real.exp_pos n).ne'
  rw [Real.exp_sub]
  field_simp

theorem softValue_eq {cfg : Cfg S A} {q : A → Except Bad ℝ} {v : View S A X Y} {Q : A → ℝ} (hq : QIs q v Q) (hne : v.actions ≠ []) :
    softValue cfg q v = .ok (oppCoeff v.opp * (getTemp cfg v * Real.log (partition (getTemp cfg v) Q v.actions))) := by
  unfold softValue
  rw [qList_eq hq]
  dsimp only
  have hz := weights_partition cfg.low (getTemp cfg v) Q v.actions
  have hpos := partition_pos (getTemp cfg v) Q hne
  rw [← hz] at hpos ⊢
  have he := Real.exp_pos (weights cfg.low (getTemp cfg v) (v.actions.map fun a => (a, Q a))).2.2
  have hs : 0 < (weights cfg.low (getTemp cfg v) (v.actions.map fun a => (a, Q a))).2.1 := by
    by_contra hc
    have := mul_nonpos_of_nonpos_of_nonneg (not_lt.1 hc) he.le
    linarith
  rw [Real.log_mul hs.ne' he.ne', Real.log_exp]
  congr 1
  ring

end Verif.Ments
