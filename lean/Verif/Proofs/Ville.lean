import Verif.Proofs.StochasticProb

/-! # Random searches: the samples of a chance node are close to their expectation at all times (C102) -/

set_option linter.unusedSectionVars false
set_option linter.unusedSimpArgs false

namespace Verif.Random

open Verif.Search Verif.Eval Verif.Spec

section
variable {S A R X Y : Type} [DecidableEq S] [DecidableEq A] [AddMonoid R] {env : Env S A R} {m : Manager S R} {alg : Alg S A R X Y}
  {k : Nat} {s0 : S} {dp tm : Int} {tb : List ((Int × S) × Option Nat)} {st : St S A R X Y} {h : List (Event S A R)}
  {D : Dice S A R X Y} {N : Nat} {pa po : ℝ} {sched : Scheduler S A R}

/-- At some time of the search the sum of `g` over the `n` observations sampled at chance node `c` was farther than `η n + K` from zero. -/
def EverFar (g : S → A → Int → Int → S → ℝ) (η K : ℝ) (c : Nat) (st : St S A R X Y) (h : List (Event S A R)) : Prop :=
  ∃ nc, st.cn[c]? = some nc ∧ ∃ h', h' <:+ h ∧
    η * h'.countP (Event.stepVia c) + K < |sampleSum (g nc.state nc.action nc.depth nc.time) c h'|

theorem everFar_mono {g : S → A → Int → Int → S → ℝ} {η K : ℝ} {c : Nat} {st' : St S A R X Y} {h' : List (Event S A R)} (L : Le st st')
    (hh : h <:+ h') (H : EverFar g η K c st h) : EverFar g η K c st' h' := by
  obtain ⟨nc, h1, h2, h3, h4⟩ := H
  obtain ⟨nc', g1, g2, g3, g4, g5, _⟩ := L.c c nc h1
  exact ⟨nc', g1, h2, h3.trans hh, by rw [g2, g3, g4, g5]; exact h4⟩

theorem no_steps (hv : alg.Valid) (htb : Leftover tb) (hr : Reachable env m alg k s0 dp tm tb st h) {c : Nat} (hc : st.cn[c]? = none) :
    h.countP (Event.stepVia c) = 0 := by
  obtain ⟨I, C⟩ := reach_both hv htb hr
  rw [List.countP_eq_zero]
  intro e' he' hs'
  cases e' with
  | stepped w1 d1 a1 c1 o1 d1' r1 g1 =>
    have hcc : c1 = c := by simpa [Event.stepVia] using hs'
    subst hcc
    obtain ⟨nc, _, g1, _⟩ := childD_facts I.tree (C.evStep _ _ _ _ _ _ _ _ he').1
    rw [hc] at g1
    cases g1
  | _ => simp [Event.stepVia] at hs'

/-- A maximal inequality: the probability that the samples of a chance node are far from their expectation at some time of the search. -/
theorem ever_far (hv : alg.Valid) (htb : Leftover tb) (ht : TableOk m tb) (hX : Explores env m alg D k s0 dp tm tb N pa po)
    {g : S → A → Int → Int → S → ℝ} {b η K : ℝ} (G : Centred env D dp g b) (hb : 0 < b) (h0 : 0 < η) (h1 : η ≤ 2 * b) (hK : 0 ≤ K) (c n : Nat) :
    probAfter env m alg D k s0 dp tm tb N sched n (EverFar g η K c) ≤ 2 * Real.exp (-(η * K / (2 * b ^ 2))) := by
  classical
  set l := η / (2 * b ^ 2) with hl
  have hl0 : 0 < l := by positivity
  have hlb : |l| * b ≤ 1 := by
    rw [abs_of_pos hl0, hl, div_mul_eq_mul_div, div_le_one (by positivity)]
    nlinarith
  have hlb' : |(-l)| * b ≤ 1 := by rwa [abs_neg]
  have hbg : trialsBegun ([] : List (Event S A R)) ≤ N := by simp [trialsBegun]
  set E := Real.exp (-(η * K / (2 * b ^ 2))) with hE
  have hE0 : 0 ≤ E := (Real.exp_pos _).le
  have hbig : ∀ (x : ℝ) (j : Nat), η * j + K < x → 1 ≤ E * Real.exp (l * x - l ^ 2 * b ^ 2 * j) := by
    intro x j hx
    rw [hE, ← Real.exp_add]
    refine Real.one_le_exp ?_
    have e1 : l * (η * j + K) ≤ l * x := mul_le_mul_of_nonneg_left hx.le hl0.le
    have e2 : l * (η * j + K) - l ^ 2 * b ^ 2 * j = η ^ 2 * j / (4 * b ^ 2) + η * K / (2 * b ^ 2) := by
      rw [hl]
      field_simp
      ring
    have e3 : 0 ≤ η ^ 2 * j / (4 * b ^ 2) := by positivity
    linarith
  let Q : St S A R X Y → List (Event S A R) → ℝ := fun st h => E * (devPot g b l c st h + devPot g b (-l) c st h)
  have hQ0 : ∀ st h, 0 ≤ Q st h := fun st h => mul_nonneg hE0 (add_nonneg (devPot_nonneg ..) (devPot_nonneg ..))
  let F : St S A R X Y → List (Event S A R) → ℝ := fun st h => if EverFar g η K c st h then 1 else Q st h
  have hfar : ∀ (st : St S A R X Y) (h : List (Event S A R)) nc, st.cn[c]? = some nc →
      η * h.countP (Event.stepVia c) + K < |sampleSum (g nc.state nc.action nc.depth nc.time) c h| → 1 ≤ Q st h := by
    intro st h nc f1 f3
    have p1 : 0 ≤ E * devPot g b l c st h := mul_nonneg hE0 (devPot_nonneg ..)
    have p2 : 0 ≤ E * devPot g b (-l) c st h := mul_nonneg hE0 (devPot_nonneg ..)
    show 1 ≤ E * (devPot g b l c st h + devPot g b (-l) c st h)
    rw [mul_add]
    rcases lt_abs.1 f3 with f3 | f3
    · have := hbig _ _ f3
      have e : devPot g b l c st h = Real.exp (l * sampleSum (g nc.state nc.action nc.depth nc.time) c h - l ^ 2 * b ^ 2 * (h.countP (Event.stepVia c) : ℝ)) := by
        simp only [devPot, f1]
      rw [← e] at this
      linarith
    · have := hbig _ _ f3
      have e : devPot g b (-l) c st h = Real.exp (l * -sampleSum (g nc.state nc.action nc.depth nc.time) c h - l ^ 2 * b ^ 2 * (h.countP (Event.stepVia c) : ℝ)) := by
        simp only [devPot, f1, neg_mul, mul_neg, neg_sq]
      rw [← e] at this
      linarith
  have hdrift : ∀ (st : St S A R X Y) (h : List (Event S A R)) (w : Nat), Reachable env m alg k s0 dp tm tb st h → trialsBegun h ≤ N → mayRun N st h w →
      (mean1 (draws env m alg D st w) fun ch => match step env m alg st w ch with
        | none => F st h
        | some (st', e) => F st' (e :: h)) ≤ F st h := by
    intro st h w hr hN hm
    have hw := mayRun_lt hr hm
    obtain ⟨hd, hgo⟩ := draws_ok hv htb ht hX hr hN hw
    by_cases hx : EverFar g η K c st h
    · have hF : F st h = 1 := if_pos hx
      rw [hF]
      refine le_trans (mean1_le hd.nonneg (g := fun _ => (1 : ℝ)) ?_) (le_of_eq (mean1_const hd _))
      intro x hx' hx0
      obtain ⟨st', e, he⟩ := hgo x hx' hx0
      simp only [he]
      exact le_of_eq (if_pos (everFar_mono (le_eff (step_eff he).2) (List.suffix_cons _ _) hx))
    · have hF : F st h = Q st h := if_neg hx
      rw [hF]
      have d1 := devPot_drift hv htb ht hX G hlb c hr hN hm
      have d2 := devPot_drift hv htb ht hX G hlb' c hr hN hm
      refine le_trans (mean1_le hd.nonneg (g := fun ch => E * ((match step env m alg st w ch with
          | none => devPot g b l c st h
          | some (st', e) => devPot g b l c st' (e :: h)) + (match step env m alg st w ch with
          | none => devPot g b (-l) c st h
          | some (st', e) => devPot g b (-l) c st' (e :: h)))) ?_) ?_
      · intro x hx' hx0
        obtain ⟨st', e, he⟩ := hgo x hx' hx0
        simp only [he]
        show F st' (e :: h) ≤ Q st' (e :: h)
        by_cases hy : EverFar g η K c st' (e :: h)
        · have hF' : F st' (e :: h) = 1 := if_pos hy
          rw [hF']
          obtain ⟨nc, f1, h', f2, f3⟩ := hy
          rcases List.suffix_cons_iff.1 f2 with rfl | f2
          · exact hfar st' _ nc f1 f3
          · exfalso
            cases hc : st.cn[c]? with
            | some nc0 =>
              obtain ⟨nc', g1, g2, g3, g4, g5, _⟩ := (le_eff (step_eff he).2).c c nc0 hc
              rw [f1] at g1
              obtain rfl := Option.some.inj g1
              exact hx ⟨nc0, hc, h', f2, by rw [← g2, ← g3, ← g4, ← g5]; exact f3⟩
            | none =>
              have h0 := no_steps hv htb hr hc
              have h0' : h'.countP (Event.stepVia c) = 0 := by
                have := f2.sublist.countP_le (p := Event.stepVia c)
                omega
              rw [sampleSum_none h0', h0'] at f3
              simp at f3
              linarith
        · have hF' : F st' (e :: h) = Q st' (e :: h) := if_neg hy
          exact le_of_eq hF'
      · rw [mean1_mul, mean1_add]
        exact mul_le_mul_of_nonneg_left (add_le_add d1 d2) hE0
  unfold probAfter
  refine le_trans (expect_le hv htb ht hX (g := F) ?_ n reach_start hbg) ?_
  · intro st h _ _
    show (if EverFar g η K c st h then (1 : ℝ) else 0) ≤ if EverFar g η K c st h then 1 else Q st h
    split
    · exact le_refl _
    · exact hQ0 st h
  · refine le_trans (expect_drift hv htb ht hX (sched := sched) (F := F) hdrift n reach_start hbg) ?_
    have hno : ¬ EverFar g η K c (init env m alg k s0 dp tm tb) [] := by
      rintro ⟨nc, f1, _⟩
      simp [init] at f1
    have hF : F (init env m alg k s0 dp tm tb) [] = Q (init env m alg k s0 dp tm tb) [] := if_neg hno
    rw [hF]
    have i1 : ∀ l, devPot g b l c (init env m alg k s0 dp tm tb) [] = 1 := by
      intro l
      simp [devPot, init]
    show E * (devPot g b l c (init env m alg k s0 dp tm tb) [] + devPot g b (-l) c (init env m alg k s0 dp tm tb) []) ≤ 2 * E
    rw [i1, i1]
    linarith

end

end Verif.Random
