import Verif.Props.Random

/-! # Random searches in which a selection may fail (C98)

The failing search is coupled with one in which a failed draw selects some action instead. -/

set_option linter.unusedSectionVars false
set_option linter.unusedSimpArgs false

namespace Verif.Random

open Verif.Search Verif.Eval Verif.Spec Verif.Sampling

variable {S A R X Y : Type} [DecidableEq S] [DecidableEq A]

/-- As `Explores`, but selections fail with probability at most `φ`. -/
structure LossyExplores [Add R] [Zero R] (env : Env S A R) (m : Manager S R) (alg : Alg S A R X Y) (D : Dice S A R X Y) (k : Nat) (s0 : S) (dp tm : Int)
    (tb : List ((Int × S) × Option Nat)) (N : Nat) (pa po φ : ℝ) : Prop where
  sel : ∀ {st : St S A R X Y} {h : List (Event S A R)} {w cur : Nat} {path : List (Nat × Nat)} {rs : List R} {new : Bool} {nd : DNode S A R X},
    Reachable env m alg k s0 dp tm tb st h → trialsBegun h ≤ N → st.ws[w]? = some (.sel cur path rs new) → st.dn[cur]? = some nd →
    shouldContinue env m nd new = true →
    let v := viewOf env m st { nd with visits := nd.visits + 1, x := alg.visitD false nd.x }
    (∀ p ∈ D.sel v (st.ctxOf w), 0 ≤ p.2) ∧ mass (D.sel v (st.ctxOf w)) ≤ 1 ∧ 1 - φ ≤ mass (D.sel v (st.ctxOf w)) ∧
      (∀ p ∈ D.sel v (st.ctxOf w), p.2 ≠ 0 → alg.canSelect v (st.ctxOf w) p.1 = true) ∧
      ∀ a ∈ env.actions nd.state, pa ≤ weightOf (D.sel v (st.ctxOf w)) a
  obs : ∀ s a, env.isSink s = false → a ∈ env.actions s →
    IsDistr (D.obs s a) ∧ (∀ p ∈ D.obs s a, p.2 ≠ 0 → p.1 ∈ env.succ s a) ∧ ∀ o ∈ env.succ s a, po ≤ weightOf (D.obs s a) o

/-- Does the outcome have a positive probability? -/
noncomputable def possible (p : A × ℝ) : Bool := @decide (p.2 ≠ 0) (Classical.propDecidable _)

theorem possible_iff {p : A × ℝ} : possible p = true ↔ p.2 ≠ 0 := @decide_eq_true_iff _ (Classical.propDecidable _)

/-- The missing probability goes to the first outcome that is possible at all. -/
noncomputable def fillUp (l : List (A × ℝ)) : List (A × ℝ) :=
  match l.find? possible with
  | some p => l ++ [(p.1, 1 - mass l)]
  | none => l

/-- The search that does not fail. -/
noncomputable def filled (D : Dice S A R X Y) : Dice S A R X Y where
  sel v ctx := fillUp (D.sel v ctx)
  obs := D.obs

theorem mass_zero {l : List (A × ℝ)} (h : ∀ p ∈ l, p.2 = 0) : mass l = 0 := by
  unfold mass
  induction l with
  | nil => rfl
  | cons p l ih =>
    rw [List.map_cons, List.sum_cons, ih (fun q hq => h q (by simp [hq])), h p (by simp), add_zero]

theorem fillUp_some {l : List (A × ℝ)} (h : mass l ≠ 0) : ∃ a, (∃ p ∈ l, p.2 ≠ 0 ∧ p.1 = a) ∧ fillUp l = l ++ [(a, 1 - mass l)] := by
  unfold fillUp
  cases hf : l.find? possible with
  | none =>
    exfalso
    apply h
    apply mass_zero
    intro p hp
    have := List.find?_eq_none.1 hf p hp
    rw [possible_iff] at this
    by_contra hne
    exact this hne
  | some p => exact ⟨p.1, ⟨p, List.mem_of_find?_eq_some hf, possible_iff.1 (List.find?_some hf), rfl⟩, rfl⟩

variable [AddMonoid R]
variable {env : Env S A R} {m : Manager S R} {alg : Alg S A R X Y} {k : Nat} {s0 : S} {dp tm : Int}
  {tb : List ((Int × S) × Option Nat)} {st : St S A R X Y} {h : List (Event S A R)} {D : Dice S A R X Y} {N : Nat} {pa po φ : ℝ}
  {sched : Scheduler S A R}

theorem filled_explores (hX : LossyExplores env m alg D k s0 dp tm tb N pa po φ) (hφ : φ < 1) : Explores env m alg (filled D) k s0 dp tm tb N pa po where
  obs := hX.obs
  sel := by
    intro st h w cur path rs new nd hr hN hw hd hs v
    obtain ⟨h1, h2, h3, h4, h5⟩ := hX.sel hr hN hw hd hs
    change (∀ p ∈ D.sel v (st.ctxOf w), 0 ≤ p.2) at h1
    change mass (D.sel v (st.ctxOf w)) ≤ 1 at h2
    change 1 - φ ≤ mass (D.sel v (st.ctxOf w)) at h3
    change ∀ p ∈ D.sel v (st.ctxOf w), p.2 ≠ 0 → alg.canSelect v (st.ctxOf w) p.1 = true at h4
    change ∀ a ∈ env.actions nd.state, pa ≤ weightOf (D.sel v (st.ctxOf w)) a at h5
    have e : (filled D).sel v (st.ctxOf w) = fillUp (D.sel v (st.ctxOf w)) := rfl
    rw [e]
    generalize D.sel v (st.ctxOf w) = l at *
    obtain ⟨a0, ⟨p0, hp0, hne, rfl⟩, hf⟩ := fillUp_some (l := l) (by intro h0; rw [h0] at h3; linarith)
    rw [hf]
    refine ⟨⟨?_, ?_⟩, ?_, ?_⟩
    · intro x hx
      rcases List.mem_append.1 hx with hx | hx
      · exact h1 x hx
      · rw [List.mem_singleton] at hx
        subst hx
        dsimp only
        linarith
    · rw [List.map_append, List.sum_append]
      simp [mass]
    · intro p hp hp'
      rcases List.mem_append.1 hp with hx | hx
      · exact h4 p hx hp'
      · rw [List.mem_singleton] at hx
        subst hx
        exact h4 p0 hp0 hne
    · intro a ha
      refine le_trans (h5 a ha) ?_
      unfold weightOf
      rw [List.filter_append]
      have : 0 ≤ mass ([(p0.1, 1 - mass l)].filter fun p => decide (p.1 = a)) := by
        unfold mass
        refine List.sum_nonneg ?_
        intro x hx
        obtain ⟨q, hq, rfl⟩ := List.mem_map.1 hx
        have := List.mem_of_mem_filter hq
        rw [List.mem_singleton] at this
        subst this
        have := h2
        unfold mass at this
        simp only [ge_iff_le]
        linarith
      have h6 : ∀ a b : List (A × ℝ), mass (a ++ b) = mass a + mass b := by
        intro a b
        simp [mass]
      rw [h6]
      linarith

theorem mean1_append {α : Type} (l : List (α × ℝ)) (x : α) (δ : ℝ) (g : α → ℝ) : mean1 (l ++ [(x, δ)]) g = mean1 l g + δ * g x := by
  simp [mean1]

/-- The draws of the two searches. -/
theorem draws_filled (hv : alg.Valid) (htb : Leftover tb) (ht : TableOk m tb) (hX : LossyExplores env m alg D k s0 dp tm tb N pa po φ) (hφ0 : 0 ≤ φ) (hφ : φ < 1)
    (hr : Reachable env m alg k s0 dp tm tb st h) (hN : trialsBegun h ≤ N) {w : Nat} :
    draws env m alg (filled D) st w = draws env m alg D st w ∨
    ∃ x δ, 0 ≤ δ ∧ δ ≤ φ ∧ draws env m alg (filled D) st w = draws env m alg D st w ++ [(x, δ)] := by
  unfold draws
  cases hp : st.ws[w]? with
  | none => exact .inl rfl
  | some p =>
    cases p with
    | sel cur path rs new =>
      cases hd : st.dn[cur]? with
      | none => left; simp only [hd]
      | some nd =>
        simp only [hd]
        cases hsc : shouldContinue env m nd new with
        | false => left; simp
        | true =>
          right
          simp only [if_true]
          obtain ⟨h1, h2, h3, _, _⟩ := hX.sel hr hN hp hd hsc
          have e : (filled D).sel (viewOf env m st { nd with visits := nd.visits + 1, x := alg.visitD false nd.x }) (st.ctxOf w) =
            fillUp (D.sel (viewOf env m st { nd with visits := nd.visits + 1, x := alg.visitD false nd.x }) (st.ctxOf w)) := rfl
          rw [e]
          generalize D.sel (viewOf env m st { nd with visits := nd.visits + 1, x := alg.visitD false nd.x }) (st.ctxOf w) = l at *
          obtain ⟨a0, _, hf⟩ := fillUp_some (l := l) (by intro h0; rw [h0] at h3; linarith)
          rw [hf]
          exact ⟨.act a0, 1 - mass l, by linarith, by linarith, by simp⟩
    | samp a b c d e f => exact .inl rfl
    | _ => exact .inl rfl

/-- Failures cost at most `φ` per step. -/
theorem lossy_expect (hv : alg.Valid) (htb : Leftover tb) (ht : TableOk m tb) (hX : LossyExplores env m alg D k s0 dp tm tb N pa po φ) (hφ0 : 0 ≤ φ) (hφ : φ < 1)
    {f : St S A R X Y → List (Event S A R) → ℝ} (hf : ∀ st h, f st h ≤ 1) (n : Nat) :
    ∀ {st h}, Reachable env m alg k s0 dp tm tb st h → trialsBegun h ≤ N →
      expectAfter env m alg (filled D) N sched f n st h - n * φ ≤ expectAfter env m alg D N sched f n st h := by
  have hY := filled_explores hX hφ
  induction n with
  | zero => intro st h _ _; simp [expectAfter]
  | succ n ih =>
    intro st h hr hN
    have hle1 : ∀ {st h}, Reachable env m alg k s0 dp tm tb st h → trialsBegun h ≤ N → expectAfter env m alg (filled D) N sched f n st h ≤ 1 := by
      intro st h hr hN
      rw [← expect_const hv htb ht hY (sched := sched) (1 : ℝ) n hr hN]
      exact expect_le hv htb ht hY (fun st h _ _ => hf st h) n hr hN
    unfold expectAfter
    split
    · next hm =>
      have hw := mayRun_lt hr hm
      obtain ⟨hd, hgo⟩ := draws_ok hv htb ht hY hr hN hw
      set g' : Choice S A → ℝ := fun ch => match step env m alg st (sched h) ch with
        | none => expectAfter env m alg (filled D) N sched f n st h
        | some (st', e) => expectAfter env m alg (filled D) N sched f n st' (e :: h) with hg'
      set g : Choice S A → ℝ := fun ch => match step env m alg st (sched h) ch with
        | none => expectAfter env m alg D N sched f n st h
        | some (st', e) => expectAfter env m alg D N sched f n st' (e :: h) with hg
      have hgg : ∀ ch, g' ch ≤ g ch + n * φ ∧ g' ch ≤ 1 := by
        intro ch
        simp only [hg', hg]
        cases hs : step env m alg st (sched h) ch with
        | none => exact ⟨by have := ih hr hN; dsimp only; linarith, hle1 hr hN⟩
        | some p =>
          obtain ⟨st', e⟩ := p
          have r := reach_snoc hr hs
          have b := budget_step hm hN hs
          exact ⟨by have := ih r b; dsimp only; linarith, hle1 r b⟩
      have hmean : ∀ l : List (Choice S A × ℝ), (∀ x ∈ l, 0 ≤ x.2) → (l.map Prod.snd).sum ≤ 1 → mean1 l g' ≤ mean1 l g + n * φ := by
        intro l h0 h1
        have h2 := mean1_le h0 (f := g') (g := fun ch => g ch + n * φ) (fun x _ _ => (hgg x.1).1)
        have h3 : mean1 l (fun ch => g ch + n * φ) = mean1 l g + (l.map Prod.snd).sum * (n * φ) := by
          unfold mean1
          rw [← List.sum_map_mul_right, ← List.sum_map_add]
          congr 1
          exact List.map_congr_left fun x _ => by ring
        have h4 : (l.map Prod.snd).sum * (n * φ) ≤ 1 * (n * φ) := mul_le_mul_of_nonneg_right h1 (by positivity)
        linarith
      push_cast
      change mean1 (draws env m alg (filled D) st (sched h)) g' - ((n : ℝ) + 1) * φ ≤ mean1 (draws env m alg D st (sched h)) g
      rcases draws_filled hv htb ht hX hφ0 hφ hr hN (w := sched h) with he | ⟨x, δ, δ0, δ1, he⟩
      · rw [he] at hd
        have := hmean _ hd.nonneg (le_of_eq hd.total)
        rw [he]
        linarith
      · rw [he] at hd
        have htot := hd.total
        rw [List.map_append, List.sum_append] at htot
        simp only [List.map_cons, List.map_nil, List.sum_cons, List.sum_nil, add_zero] at htot
        have h1 := hmean (draws env m alg D st (sched h)) (fun y hy => hd.nonneg y (by simp [hy])) (by linarith)
        rw [he, mean1_append]
        have h2 : δ * g' x ≤ δ * 1 := mul_le_mul_of_nonneg_left (hgg x).2 δ0
        linarith
    · have := ih hr hN
      push_cast
      linarith

/-- Whatever holds with some probability in the search that does not fail holds in the other one with that probability, less `φ` per step. -/
theorem lossy_prob (hv : alg.Valid) (htb : Leftover tb) (ht : TableOk m tb) (hX : LossyExplores env m alg D k s0 dp tm tb N pa po φ) (hφ0 : 0 ≤ φ) (hφ : φ < 1)
    (n : Nat) (P : St S A R X Y → List (Event S A R) → Prop) :
    probAfter env m alg (filled D) k s0 dp tm tb N sched n P - n * φ ≤ probAfter env m alg D k s0 dp tm tb N sched n P := by
  classical
  unfold probAfter
  exact lossy_expect hv htb ht hX hφ0 hφ (fun st h => by split <;> norm_num) n reach_start (by simp [trialsBegun])

end Verif.Random
