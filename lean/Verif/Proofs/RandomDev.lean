import Verif.Proofs.RandomHits
import Mathlib.Analysis.Complex.Exponential

/-! # Random searches: the samples of a chance node are close to their expectation (C90) -/

set_option linter.unusedSectionVars false
set_option linter.unusedSimpArgs false

namespace Verif.Random

open Verif.Search Verif.Eval Verif.Spec

theorem exp_le_quadratic {x : ℝ} (hx : |x| ≤ 1) : Real.exp x ≤ 1 + x + x ^ 2 := by
  have := abs_le.1 (Real.abs_exp_sub_one_sub_id_le hx)
  linarith [this.2]

/-- The moment generating function of a centred bounded variable. -/
theorem mean1_exp {α : Type} {d : List (α × ℝ)} (hd : IsDistr d) {g : α → ℝ} {b l : ℝ} (h0 : mean1 d g = 0)
    (hb : ∀ x ∈ d, x.2 ≠ 0 → |g x.1| ≤ b) (hl : |l| * b ≤ 1) :
    mean1 d (fun x => Real.exp (l * g x - l ^ 2 * b ^ 2)) ≤ 1 := by
  have h1 : mean1 d (fun x => Real.exp (l * g x - l ^ 2 * b ^ 2)) ≤
      mean1 d (fun x => Real.exp (-(l ^ 2 * b ^ 2)) * ((1 + l ^ 2 * b ^ 2) + l * g x)) := by
    refine mean1_le hd.nonneg fun x hx hx0 => ?_
    have hgb := hb x hx hx0
    have hb0 : 0 ≤ b := le_trans (abs_nonneg _) hgb
    have e1 : |l * g x.1| ≤ 1 := by
      rw [abs_mul]
      exact le_trans (mul_le_mul_of_nonneg_left hgb (abs_nonneg _)) hl
    have e2 := exp_le_quadratic e1
    have e3 : (l * g x.1) ^ 2 ≤ l ^ 2 * b ^ 2 := by
      rw [mul_pow]
      refine mul_le_mul_of_nonneg_left ?_ (sq_nonneg _)
      exact sq_le_sq' (abs_le.1 hgb).1 (abs_le.1 hgb).2
    rw [sub_eq_add_neg, Real.exp_add, mul_comm]
    exact mul_le_mul_of_nonneg_left (by linarith) (Real.exp_pos _).le
  refine le_trans h1 ?_
  rw [mean1_mul, mean1_add, mean1_const hd, mean1_mul, h0, mul_zero, add_zero]
  have e4 : 1 + l ^ 2 * b ^ 2 ≤ Real.exp (l ^ 2 * b ^ 2) := by
    have := Real.add_one_le_exp (l ^ 2 * b ^ 2)
    linarith
  calc Real.exp (-(l ^ 2 * b ^ 2)) * (1 + l ^ 2 * b ^ 2) ≤ Real.exp (-(l ^ 2 * b ^ 2)) * Real.exp (l ^ 2 * b ^ 2) :=
        mul_le_mul_of_nonneg_left e4 (Real.exp_pos _).le
    _ = 1 := by rw [← Real.exp_add]; simp

section
variable {S A R X Y : Type} [DecidableEq S] [DecidableEq A]

/-- The sum of `g` over the observations sampled at chance node `c`. -/
def sampleSum (g : S → ℝ) (c : Nat) : List (Event S A R) → ℝ
  | [] => 0
  | .stepped _ _ _ c' o _ _ _ :: h => sampleSum g c h + if c' = c then g o else 0
  | _ :: h => sampleSum g c h

variable [AddMonoid R] {env : Env S A R} {m : Manager S R} {alg : Alg S A R X Y} {k : Nat} {s0 : S} {dp tm : Int}
  {tb : List ((Int × S) × Option Nat)} {st : St S A R X Y} {h : List (Event S A R)}
  {D : Dice S A R X Y} {N : Nat} {pa po : ℝ} {sched : Scheduler S A R}

theorem sampleSum_none {g : S → ℝ} {c : Nat} : ∀ {h : List (Event S A R)}, h.countP (Event.stepVia c) = 0 → sampleSum g c h = 0 := by
  intro h
  induction h with
  | nil => intro _; rfl
  | cons e h ih =>
    intro hc
    rw [List.countP_cons] at hc
    have h0 := ih (by omega)
    cases e with
    | stepped w d a c' o d' r g' =>
      have : ¬ c' = c := by
        intro hx
        simp [Event.stepVia, hx] at hc
      simp [sampleSum, h0, this]
    | _ => simpa [sampleSum] using h0

theorem sampleSum_other {g : S → ℝ} {c : Nat} {e : Event S A R} (he : Event.stepVia c e = false) :
    sampleSum g c (e :: h) = sampleSum g c h ∧ (e :: h).countP (Event.stepVia c) = h.countP (Event.stepVia c) := by
  refine ⟨?_, by rw [List.countP_cons, he]; simp⟩
  cases e with
  | stepped w d a c' o d' r g' =>
    have : ¬ c' = c := by simpa [Event.stepVia] using he
    simp [sampleSum, this]
  | _ => rfl

/-- The exponential of the deviation at chance node `c`, discounted by the number of samples. -/
noncomputable def devPot (g : S → A → Int → Int → S → ℝ) (b l : ℝ) (c : Nat) (st : St S A R X Y) (h : List (Event S A R)) : ℝ :=
  match st.cn[c]? with
  | none => 1
  | some nc => Real.exp (l * sampleSum (g nc.state nc.action nc.depth nc.time) c h - l ^ 2 * b ^ 2 * (h.countP (Event.stepVia c) : ℝ))

theorem devPot_nonneg (g : S → A → Int → Int → S → ℝ) (b l : ℝ) (c : Nat) (st : St S A R X Y) (h : List (Event S A R)) :
    0 ≤ devPot g b l c st h := by
  unfold devPot
  split
  · norm_num
  · positivity

/-- The functions of the observation whose deviations are bounded: their expectation is zero and they are bounded. -/
structure Centred (env : Env S A R) (D : Dice S A R X Y) (dp : Int) (g : S → A → Int → Int → S → ℝ) (b : ℝ) : Prop where
  mean : ∀ s a dep tim, env.isSink s = false → a ∈ env.actions s → dp ≤ dep → mean1 (D.obs s a) (g s a dep tim) = 0
  bound : ∀ s a dep tim o, env.isSink s = false → a ∈ env.actions s → dp ≤ dep → o ∈ env.succ s a → |g s a dep tim o| ≤ b

theorem stepped_phase {st' : St S A R X Y} {w : Nat} {e : Event S A R} {c : Nat} (E : Eff env m alg st w e st')
    (he : Event.stepVia c e = true) : ∃ cur a path rs new o d' r g, st.ws[w]? = some (.samp cur a c path rs new) ∧ e = .stepped w cur a c o d' r g := by
  cases E <;> simp [Event.stepVia] at he
  all_goals subst he; rename_i hw _ _ _ _; exact ⟨_, _, _, _, _, _, _, _, _, by assumption, rfl⟩

/-- On average it does not go up. -/
theorem devPot_drift (hv : alg.Valid) (htb : Leftover tb) (ht : TableOk m tb) (hX : Explores env m alg D k s0 dp tm tb N pa po)
    {g : S → A → Int → Int → S → ℝ} {b l : ℝ} (G : Centred env D dp g b) (hl : |l| * b ≤ 1) (c : Nat)
    (hr : Reachable env m alg k s0 dp tm tb st h) (hN : trialsBegun h ≤ N) {w : Nat} (hm : mayRun N st h w) :
    (mean1 (draws env m alg D st w) fun ch => match step env m alg st w ch with
      | none => devPot g b l c st h
      | some (st', e) => devPot g b l c st' (e :: h)) ≤ devPot g b l c st h := by
  have hw := mayRun_lt hr hm
  obtain ⟨hd, hgo⟩ := draws_ok hv htb ht hX hr hN hw
  obtain ⟨I, C⟩ := reach_both hv htb hr
  have other : ∀ {st' ch e}, step env m alg st w ch = some (st', e) → Event.stepVia c e = false → devPot g b l c st' (e :: h) = devPot g b l c st h := by
    intro st' ch e he hev
    have hle := le_eff (step_eff he).2
    have hs := fun g' : S → ℝ => sampleSum_other (g := g') (h := h) hev
    unfold devPot
    cases hc : st.cn[c]? with
    | some nc =>
      obtain ⟨nc', g1, g2, g3, g4, g5, _⟩ := hle.c c nc hc
      simp only [g1, g2, g3, g4, g5, (hs _).1, (hs (fun _ => 0)).2]
    | none =>
      have h0 : h.countP (Event.stepVia c) = 0 := by
        rw [List.countP_eq_zero]
        intro e' he' hs'
        cases e' with
        | stepped w1 d1 a1 c1 o1 d1' r1 g1 =>
          have hcc : c1 = c := by simpa [Event.stepVia] using hs'
          subst hcc
          obtain ⟨nc, _, g1, _⟩ := childD_facts I.tree (C.evStep _ _ _ _ _ _ _ _ he').1
          rw [hc] at g1
          cases g1
        | _ => simp [Event.stepVia] at hs'
      cases hc' : st'.cn[c]? with
      | none => rfl
      | some nc => simp [(hs _).1, (hs (fun _ => 0)).2, h0, sampleSum_none h0]
  obtain ⟨p, hph⟩ := reach_phase hr hw
  by_cases hx : ∃ cur a path rs new, p = .samp cur a c path rs new
  · obtain ⟨cur, a, path, rs, new, rfl⟩ := hx
    obtain ⟨nd, nc, g1, g2, g3, g4, g5, g6⟩ := samp_facts I hph
    have hdep : dp ≤ nc.depth := by
      obtain ⟨nd2, nc2, f1, f2, _, _, _, f6, _⟩ := childC_facts I.tree (I.ws w _ hph).2.2.2.2.2.2.1
      rw [g2] at f2
      obtain rfl := Option.some.inj f2
      have := (I.tree.heap.dTime cur nd2.skel (by simp [f1])).2
      simp only [DNode.skel] at this
      omega
    rw [← g4] at g6
    rw [← g3] at g5 g6
    obtain ⟨x1, x2, x3⟩ := hX.obs nc.state nc.action g5 g6
    have hdr : draws env m alg D st w = (D.obs nc.state nc.action).map fun p => (.obs p.1, p.2) := by
      unfold draws
      simp only [hph, g2]
    set G' := g nc.state nc.action nc.depth nc.time with hG'
    have key : ∀ o st' e, o ∈ env.succ nc.state nc.action → step env m alg st w (.obs o) = some (st', e) →
        devPot g b l c st' (e :: h) = devPot g b l c st h * Real.exp (l * G' o - l ^ 2 * b ^ 2) := by
      intro o st' e ho he
      have E := (step_eff he).2
      have hle := le_eff E
      obtain ⟨nc', k1, k2, k3, k4, k5, _⟩ := hle.c c nc g2
      obtain ⟨d', r, gr, rfl⟩ : ∃ d' r gr, e = .stepped w cur a c o d' r gr := by
        have hcr := safe_reach hv htb ht (reach_snoc hr he)
        have hch := (step_choice he).2
        cases E with
        | crash hc => simp at hcr
        | began hw' | selOld hw' | selNew hw' | ended hw' | completed hw' | backedC hw' | backedD hw' => rw [hph] at hw'; cases hw'
        | stepOld hw' | stepNew hw' | stepHit hw' =>
          have := hch _ _ _ _ _ _ _ _ rfl
          rw [hph] at hw'
          cases hw'
          cases this
          exact ⟨_, _, _, rfl⟩
      unfold devPot
      simp only [g2, k1, k2, k3, k4, k5, ← hG']
      rw [← Real.exp_add]
      congr 1
      rw [List.countP_cons]
      simp only [sampleSum, if_true, Event.stepVia, beq_self_eq_true]
      push_cast
      ring
    rw [hdr, mean1_map]
    refine le_trans (mean1_le x1.nonneg (g := fun o => devPot g b l c st h * Real.exp (l * G' o - l ^ 2 * b ^ 2)) ?_) ?_
    · intro x hx hx0
      have hin : ((.obs x.1 : Choice S A), x.2) ∈ draws env m alg D st w := by
        rw [hdr]
        exact List.mem_map.2 ⟨x, hx, rfl⟩
      obtain ⟨st', e, he⟩ := hgo _ hin hx0
      simp only [he]
      exact le_of_eq (key x.1 st' e (x2 x hx hx0) he)
    · rw [mean1_mul]
      have := mean1_exp (l := l) x1 (G.mean nc.state nc.action nc.depth nc.time g5 g6 hdep) (b := b)
        (fun x hx hx0 => G.bound nc.state nc.action nc.depth nc.time x.1 g5 g6 hdep (x2 x hx hx0)) hl
      exact mul_le_of_le_one_right (devPot_nonneg ..) this
  · refine le_trans (mean1_le hd.nonneg (g := fun _ => devPot g b l c st h) ?_) (le_of_eq (mean1_const hd _))
    intro x hx' hx0
    obtain ⟨st', e, he⟩ := hgo x hx' hx0
    simp only [he]
    refine le_of_eq (other he ?_)
    rw [Bool.eq_false_iff]
    intro hev
    obtain ⟨cur, a, path, rs, new, o, d', r, g', h1, _⟩ := stepped_phase (step_eff he).2 hev
    rw [hph] at h1
    exact hx ⟨_, _, _, _, _, Option.some.inj h1⟩

/-- The probability that a chance node has at least `M` samples whose sum is far from its expectation. -/
theorem samples_far (hv : alg.Valid) (htb : Leftover tb) (ht : TableOk m tb) (hX : Explores env m alg D k s0 dp tm tb N pa po)
    {g : S → A → Int → Int → S → ℝ} {b η : ℝ} (G : Centred env D dp g b) (hb : 0 < b) (h0 : 0 < η) (h1 : η ≤ 2 * b) (c M n : Nat) :
    probAfter env m alg D k s0 dp tm tb N sched n (fun st h => ∃ nc, st.cn[c]? = some nc ∧ M ≤ h.countP (Event.stepVia c) ∧
      η * h.countP (Event.stepVia c) < |sampleSum (g nc.state nc.action nc.depth nc.time) c h|) ≤ 2 * Real.exp (-(η ^ 2 * M / (4 * b ^ 2))) := by
  classical
  set l := η / (2 * b ^ 2) with hl
  have hl0 : 0 < l := by positivity
  have hlb : |l| * b ≤ 1 := by
    rw [abs_of_pos hl0, hl, div_mul_eq_mul_div, div_le_one (by positivity)]
    nlinarith
  have hlb' : |(-l)| * b ≤ 1 := by rwa [abs_neg]
  have hbg : trialsBegun ([] : List (Event S A R)) ≤ N := by simp [trialsBegun]
  set K := Real.exp (-(η ^ 2 * M / (4 * b ^ 2))) with hK
  have hK0 : 0 ≤ K := (Real.exp_pos _).le
  have hbig : ∀ (x : ℝ) (j : Nat), M ≤ j → η * j < x → 1 ≤ K * Real.exp (l * x - l ^ 2 * b ^ 2 * j) := by
    intro x j hj hx
    rw [hK, ← Real.exp_add]
    refine Real.one_le_exp ?_
    have e1 : l * (η * j) ≤ l * x := mul_le_mul_of_nonneg_left hx.le hl0.le
    have e2 : l * (η * j) - l ^ 2 * b ^ 2 * j = η ^ 2 * j / (4 * b ^ 2) := by
      rw [hl]
      field_simp
      ring
    have e3 : η ^ 2 * M / (4 * b ^ 2) ≤ η ^ 2 * j / (4 * b ^ 2) := by
      have : (M : ℝ) ≤ j := by exact_mod_cast hj
      gcongr
    linarith
  unfold probAfter
  refine le_trans (expect_le hv htb ht hX (g := fun st h => K * devPot g b l c st h + K * devPot g b (-l) c st h) ?_ n reach_start hbg) ?_
  · intro st h _ _
    have p1 : 0 ≤ K * devPot g b l c st h := mul_nonneg hK0 (devPot_nonneg ..)
    have p2 : 0 ≤ K * devPot g b (-l) c st h := mul_nonneg hK0 (devPot_nonneg ..)
    split
    · next hf =>
      obtain ⟨nc, f1, f2, f3⟩ := hf
      rcases lt_abs.1 f3 with f3 | f3
      · have := hbig _ _ f2 f3
        have e : devPot g b l c st h = Real.exp (l * sampleSum (g nc.state nc.action nc.depth nc.time) c h - l ^ 2 * b ^ 2 * (h.countP (Event.stepVia c) : ℝ)) := by
          simp only [devPot, f1]
        rw [← e] at this
        linarith
      · have := hbig _ _ f2 f3
        have e : devPot g b (-l) c st h = Real.exp (l * -sampleSum (g nc.state nc.action nc.depth nc.time) c h - l ^ 2 * b ^ 2 * (h.countP (Event.stepVia c) : ℝ)) := by
          simp only [devPot, f1, neg_mul, mul_neg, neg_sq]
        rw [← e] at this
        linarith
    · linarith
  · rw [expect_add, expect_mul, expect_mul]
    have q1 := expect_drift hv htb ht hX (sched := sched) (F := devPot g b l c) (fun st h w hr hN hm => devPot_drift hv htb ht hX G hlb c hr hN hm) n reach_start hbg
    have q2 := expect_drift hv htb ht hX (sched := sched) (F := devPot g b (-l) c) (fun st h w hr hN hm => devPot_drift hv htb ht hX G hlb' c hr hN hm) n reach_start hbg
    have i1 : ∀ l, devPot g b l c (init env m alg k s0 dp tm tb) [] = 1 := by
      intro l
      simp [devPot, init]
    rw [i1] at q1 q2
    nlinarith

end

end Verif.Random
