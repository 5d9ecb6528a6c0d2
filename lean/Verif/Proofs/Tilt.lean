import Verif.Proofs.RandomHits
import Verif.Proofs.FlowAll

/-! # Products over the selected actions (C113) -/

set_option linter.unusedSectionVars false
set_option linter.unusedSimpArgs false

namespace Verif.Random

open Verif.Search Verif.Eval Verif.Spec

variable {S A R X Y : Type} [DecidableEq S] [DecidableEq A] [AddMonoid R] {env : Env S A R} {m : Manager S R} {alg : Alg S A R X Y}
  {D : Dice S A R X Y} {k : Nat} {s0 : S} {dp tm : Int} {tb : List ((Int × S) × Option Nat)} {N : Nat} {pa po : ℝ} {sched : Scheduler S A R}

/-- The weight of an event: that of the action, if it is a selection. -/
def tilt1 (f : A → ℝ) : Event S A R → ℝ
  | .selected _ _ a _ => f a
  | _ => 1

/-- The product of the weights of all selected actions. -/
def tilt (f : A → ℝ) (h : List (Event S A R)) : ℝ := (h.map (tilt1 f)).prod

theorem tilt_cons (f : A → ℝ) (e : Event S A R) (h : List (Event S A R)) : tilt f (e :: h) = tilt1 f e * tilt f h := by simp [tilt]

theorem tilt_nonneg {f : A → ℝ} (hf : ∀ a, 0 ≤ f a) (h : List (Event S A R)) : 0 ≤ tilt f h := by
  induction h with
  | nil => simp [tilt]
  | cons e h ih =>
    rw [tilt_cons]
    refine mul_nonneg ?_ ih
    cases e <;> simp [tilt1, hf]

/-- If the mean weight of the selected action is never above one, the product does not grow on average. -/
theorem tilt_expect (hv : alg.Valid) (htb : Leftover tb) (ht : TableOk m tb) (hX : Explores env m alg D k s0 dp tm tb N pa po)
    {f : A → ℝ} (hf : ∀ a, 0 ≤ f a)
    (hs : ∀ (st : St S A R X Y) (h : List (Event S A R)) w cur path rs new nd, Reachable env m alg k s0 dp tm tb st h → trialsBegun h ≤ N →
      st.ws[w]? = some (.sel cur path rs new) → st.dn[cur]? = some nd → shouldContinue env m nd new = true →
      mean1 (D.sel (viewOf env m st { nd with visits := nd.visits + 1, x := alg.visitD false nd.x }) (st.ctxOf w)) f ≤ 1) (n : Nat)
    {st : St S A R X Y} {h : List (Event S A R)} (hr : Reachable env m alg k s0 dp tm tb st h) (hN : trialsBegun h ≤ N) :
    expectAfter env m alg D N sched (fun _ h => tilt f h) n st h ≤ tilt f h := by
  refine expect_drift hv htb ht hX (F := fun _ h => tilt f h) ?_ n hr hN
  intro st h w hr hN hm
  have hw := mayRun_lt hr hm
  obtain ⟨hd, hgo⟩ := draws_ok hv htb ht hX hr hN hw
  have h0 := tilt_nonneg hf h
  have key : ∀ g : Choice S A → ℝ, (∀ x ∈ draws env m alg D st w, ∀ st' e, step env m alg st w x.1 = some (st', e) → tilt1 f e ≤ g x.1) →
      mean1 (draws env m alg D st w) g ≤ 1 →
      (mean1 (draws env m alg D st w) fun ch => match step env m alg st w ch with
        | none => tilt f h
        | some (st', e) => tilt f (e :: h)) ≤ tilt f h := by
    intro g hg h1
    refine le_trans (mean1_le hd.nonneg (g := fun ch => tilt f h * g ch) ?_) ?_
    · intro x hx hx0
      obtain ⟨st', e, he⟩ := hgo x hx hx0
      simp only [he]
      rw [tilt_cons, mul_comm]
      exact mul_le_mul_of_nonneg_left (hg x hx st' e he) h0
    · rw [mean1_mul]
      calc tilt f h * _ ≤ tilt f h * 1 := mul_le_mul_of_nonneg_left h1 h0
        _ = tilt f h := mul_one _
  by_cases hc : ∃ cur path rs new nd, st.ws[w]? = some (.sel cur path rs new) ∧ st.dn[cur]? = some nd ∧ shouldContinue env m nd new = true
  · obtain ⟨cur, path, rs, new, nd, g1, g2, g3⟩ := hc
    have hdr : draws env m alg D st w = (D.sel (viewOf env m st { nd with visits := nd.visits + 1, x := alg.visitD false nd.x }) (st.ctxOf w)).map
        fun p => (.act p.1, p.2) := by
      unfold draws
      simp only [g1, g2, g3, if_true]
    refine key (fun ch => match ch with | .act a => f a | _ => 1) ?_ ?_
    · intro x hx st' e he
      obtain ⟨_, E⟩ := step_eff he
      have hch := step_choice he
      rw [hdr] at hx
      obtain ⟨p, _, rfl⟩ := List.mem_map.1 hx
      have := safe_reach hv htb ht (reach_snoc hr he)
      have hl : isLeaf env m nd = false ∧ (m.mctsMode && new) = false := by
        cases q1 : isLeaf env m nd <;> cases q2 : (m.mctsMode && new) <;> simp_all [shouldContinue]
      cases E with
      | selOld => 
        have := hch.1 _ _ _ _ rfl
        simp at this
        simp [tilt1, this]
      | selNew =>
        have := hch.1 _ _ _ _ rfl
        simp at this
        simp [tilt1, this]
      | crash _ => simp at this
      | ended hw' hd' hs' =>
        rw [g1] at hw'; simp at hw'
        obtain ⟨rfl, rfl, rfl, rfl⟩ := hw'
        rw [g2] at hd'; simp at hd'; subst hd'
        rcases hs' with hs' | hs'
        · rw [hl.1] at hs'; simp at hs'
        · rw [hl.2] at hs'; simp at hs'
      | began hw' => rw [g1] at hw'; simp at hw'
      | stepOld hw' => rw [g1] at hw'; simp at hw'
      | stepNew hw' => rw [g1] at hw'; simp at hw'
      | stepHit hw' => rw [g1] at hw'; simp at hw'
      | completed hw' => rw [g1] at hw'; simp at hw'
      | backedC hw' => rw [g1] at hw'; simp at hw'
      | backedD hw' => rw [g1] at hw'; simp at hw'
    · rw [hdr, mean1_map]
      exact hs st h w cur path rs new nd hr hN g1 g2 g3
  · refine key (fun _ => 1) ?_ (le_of_eq (mean1_const hd 1))
    intro x hx st' e he
    obtain ⟨_, E⟩ := step_eff he
    cases E with
    | selOld hw' hd' hl hm ha => exact (hc ⟨_, _, _, _, _, hw', hd', by simp [shouldContinue, hl, hm]⟩).elim
    | selNew hw' hd' hl hm ha => exact (hc ⟨_, _, _, _, _, hw', hd', by simp [shouldContinue, hl, hm]⟩).elim
    | _ => simp [tilt1]

/-- Markov's inequality for the product. -/
theorem tilt_prob (hv : alg.Valid) (htb : Leftover tb) (ht : TableOk m tb) (hX : Explores env m alg D k s0 dp tm tb N pa po)
    {f : A → ℝ} (hf : ∀ a, 0 ≤ f a)
    (hs : ∀ (st : St S A R X Y) (h : List (Event S A R)) w cur path rs new nd, Reachable env m alg k s0 dp tm tb st h → trialsBegun h ≤ N →
      st.ws[w]? = some (.sel cur path rs new) → st.dn[cur]? = some nd → shouldContinue env m nd new = true →
      mean1 (D.sel (viewOf env m st { nd with visits := nd.visits + 1, x := alg.visitD false nd.x }) (st.ctxOf w)) f ≤ 1) (n : Nat)
    {c : ℝ} (hc : 0 < c) {P : St S A R X Y → List (Event S A R) → Prop}
    (hP : ∀ st h, Reachable env m alg k s0 dp tm tb st h → P st h → c ≤ tilt f h) :
    probAfter env m alg D k s0 dp tm tb N sched n P ≤ c⁻¹ := by
  classical
  have h1 := tilt_expect (sched := sched) hv htb ht hX hf hs n (reach_start (alg := alg) (env := env) (m := m) (k := k) (s0 := s0) (dp := dp) (tm := tm) (tb := tb)) (by simp [trialsBegun])
  have h2 : tilt f ([] : List (Event S A R)) = 1 := by simp [tilt]
  rw [h2] at h1
  unfold probAfter
  refine le_trans (expect_le hv htb ht hX (g := fun _ h => c⁻¹ * tilt f h) ?_ n reach_start (by simp [trialsBegun])) ?_
  · intro st h hr _
    have h0 := tilt_nonneg hf h
    by_cases hp : P st h
    · rw [if_pos hp]
      calc (1 : ℝ) = c⁻¹ * c := (inv_mul_cancel₀ hc.ne').symm
        _ ≤ _ := mul_le_mul_of_nonneg_left (hP st h hr hp) (inv_pos.2 hc).le
    · rw [if_neg hp]
      exact mul_nonneg (inv_pos.2 hc).le h0
  · rw [expect_mul (f := fun _ h => tilt f h)]
    calc c⁻¹ * _ ≤ c⁻¹ * 1 := mul_le_mul_of_nonneg_left h1 (inv_pos.2 hc).le
      _ = c⁻¹ := mul_one _

end Verif.Random
