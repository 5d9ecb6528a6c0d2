import Verif.Proofs.Random
import Verif.Props.Search

/-! # Random searches: the drift towards an unexplored play (C77) -/

set_option linter.unusedSectionVars false
set_option linter.unusedSimpArgs false

namespace Verif.Random

open Verif.Search Verif.Eval Verif.Spec

section
variable {S A R X Y : Type} [DecidableEq S] [DecidableEq A] [AddMonoid R]
variable {env : Env S A R} {m : Manager S R} {alg : Alg S A R X Y} {k : Nat} {s0 : S} {dp tm : Int}
  {tb : List ((Int × S) × Option Nat)} {st : St S A R X Y} {h : List (Event S A R)} {play : List (A × S)} {D : Dice S A R X Y} {N : Nat} {pa po : ℝ}

/-! ## The next step -/

theorem isDistr_one {α : Type} (a : α) : IsDistr [(a, (1 : ℝ))] := ⟨by simp, by simp⟩

theorem isDistr_map {α β : Type} {d : List (α × ℝ)} (f : α → β) (hd : IsDistr d) : IsDistr (d.map fun p => (f p.1, p.2)) := by
  refine ⟨?_, ?_⟩
  · intro x hx
    obtain ⟨y, hy, rfl⟩ := List.mem_map.1 hx
    exact hd.nonneg y hy
  · have := hd.total
    simpa [Function.comp_def] using this

/-- The action and the observation of an event are the ones that were drawn. -/
theorem step_choice {st' : St S A R X Y} {w : Nat} {ch : Choice S A} {e : Event S A R} (hs : step env m alg st w ch = some (st', e)) :
    (∀ v d a c, e = .selected v d a c → ch = .act a) ∧ (∀ v d a c o d' r g, e = .stepped v d a c o d' r g → ch = .obs o) := by
  unfold step at hs
  split at hs
  · simp at hs
  split at hs
  · simp at hs
  · split at hs
    · simp only [Option.some.injEq, Prod.mk.injEq] at hs
      obtain ⟨_, rfl⟩ := hs
      simp
    · simp at hs
  · split at hs
    · simp only [crash, Option.some.injEq, Prod.mk.injEq] at hs
      obtain ⟨_, rfl⟩ := hs
      simp
    · split at hs
      · split at hs
        · simp only [blockD] at hs
          split at hs
          · split at hs
            · simp only [crash, Option.some.injEq, Prod.mk.injEq] at hs
              obtain ⟨_, rfl⟩ := hs
              simp
            · simp only [Option.some.injEq, Prod.mk.injEq] at hs
              obtain ⟨_, rfl⟩ := hs
              refine ⟨?_, by simp⟩
              rintro v d a c ⟨⟩
              rfl
          · simp at hs
        · simp at hs
      · split at hs
        · simp only [blockEnd] at hs
          split at hs
          · simp only [crash, Option.some.injEq, Prod.mk.injEq] at hs
            obtain ⟨_, rfl⟩ := hs
            simp
          · simp only [Option.some.injEq, Prod.mk.injEq] at hs
            obtain ⟨_, rfl⟩ := hs
            simp
        · simp at hs
  · split at hs
    · unfold blockC at hs
      split at hs
      · split at hs
        · dsimp only at hs
          split at hs
          · simp only [crash, Option.some.injEq, Prod.mk.injEq] at hs
            obtain ⟨_, rfl⟩ := hs
            simp
          · split at hs
            · simp only [crash, Option.some.injEq, Prod.mk.injEq] at hs
              obtain ⟨_, rfl⟩ := hs
              simp
            · split at hs
              · simp only [crash, Option.some.injEq, Prod.mk.injEq] at hs
                obtain ⟨_, rfl⟩ := hs
                simp
              · simp only [Option.some.injEq, Prod.mk.injEq] at hs
                obtain ⟨_, rfl⟩ := hs
                refine ⟨by simp, ?_⟩
                intro v d a c o d' r g he
                injection he with _ _ _ _ h5
                rw [h5]
        · simp at hs
      · simp only [crash, Option.some.injEq, Prod.mk.injEq] at hs
        obtain ⟨_, rfl⟩ := hs
        simp
    · simp at hs
  · split at hs
    · unfold blockBackC at hs
      split at hs
      · simp only [Option.some.injEq, Prod.mk.injEq] at hs
        obtain ⟨_, rfl⟩ := hs
        simp
      · split at hs
        · simp only [crash, Option.some.injEq, Prod.mk.injEq] at hs
          obtain ⟨_, rfl⟩ := hs
          simp
        · dsimp only at hs
          split at hs
          · simp only [crash, Option.some.injEq, Prod.mk.injEq] at hs
            obtain ⟨_, rfl⟩ := hs
            simp
          · simp only [Option.some.injEq, Prod.mk.injEq] at hs
            obtain ⟨_, rfl⟩ := hs
            simp
    · simp at hs
  · split at hs
    · unfold blockBackD at hs
      dsimp only at hs
      split at hs
      · simp only [crash, Option.some.injEq, Prod.mk.injEq] at hs
        obtain ⟨_, rfl⟩ := hs
        simp
      · simp only [Option.some.injEq, Prod.mk.injEq] at hs
        obtain ⟨_, rfl⟩ := hs
        simp
    · simp at hs

theorem samp_facts (I : Search.Inv env m s0 dp tm st h) {w cur c : Nat} {a : A} {path : List (Nat × Nat)} {rs : List R} {new : Bool}
    (hp : st.ws[w]? = some (.samp cur a c path rs new)) :
    ∃ nd nc, st.dn[cur]? = some nd ∧ st.cn[c]? = some nc ∧ nc.state = nd.state ∧ nc.action = a ∧ env.isSink nd.state = false ∧ a ∈ env.actions nd.state := by
  obtain ⟨_, _, _, _, _, _, h1, ⟨nd, h2, h3⟩, _⟩ := I.ws w _ hp
  obtain ⟨nd', nc, g1, g2, g0, g3, g4, _⟩ := childC_facts I.tree h1
  rw [h2] at g1
  obtain rfl := Option.some.inj g1
  have g5 : a ∈ env.actions nd.state := I.tree.heap.dAct cur nd.skel a c (by simp [h2]) g0
  have hsink : env.isSink nd.state = false := by
    simp only [isLeaf, Bool.or_eq_false_iff] at h3
    exact h3.1
  exact ⟨nd, nc, h2, g2, g3, g4, hsink, g5⟩

/-- What is drawn is a distribution, and every outcome can happen. -/
theorem draws_ok (hv : alg.Valid) (htb : Leftover tb) (ht : TableOk m tb) (X : Explores env m alg D k s0 dp tm tb N pa po)
    (hr : Reachable env m alg k s0 dp tm tb st h) (hN : trialsBegun h ≤ N) {w : Nat} (hw : w < k) :
    IsDistr (draws env m alg D st w) ∧ ∀ x ∈ draws env m alg D st w, x.2 ≠ 0 → ∃ st' e, step env m alg st w x.1 = some (st', e) := by
  have hc := safe_reach hv htb ht hr
  obtain ⟨p, hp⟩ := reach_phase hr hw
  have I := reach_inv hv htb hr
  unfold draws
  rw [hp]
  cases p with
  | idle =>
    refine ⟨isDistr_one _, ?_⟩
    intro x hx _
    rw [List.mem_singleton] at hx
    subst hx
    exact ⟨_, _, by unfold step; rw [hc, hp]; rfl⟩
  | sel cur path rs new =>
    cases hd : st.dn[cur]? with
    | none =>
      simp only [hd]
      refine ⟨isDistr_one _, ?_⟩
      intro x hx _
      rw [List.mem_singleton] at hx
      subst hx
      exact ⟨_, _, by unfold step; rw [hc, hp]; simp only [Option.isSome_none, Bool.false_eq_true, if_false, hd]; rfl⟩
    | some nd =>
      cases hsc : shouldContinue env m nd new with
      | true =>
        simp only [hd, hsc, if_true]
        obtain ⟨h1, h2, _⟩ := X.sel hr hN hp hd hsc
        refine ⟨isDistr_map _ h1, ?_⟩
        intro x hx hx0
        obtain ⟨y, hy, rfl⟩ := List.mem_map.1 hx
        have := h2 y hy hx0
        unfold step
        rw [hc, hp]
        simp only [Option.isSome_none, Bool.false_eq_true, if_false, hd, hsc, if_true, blockD, this]
        split
        · exact ⟨_, _, rfl⟩
        · exact ⟨_, _, rfl⟩
      | false =>
        simp only [hd, hsc, Bool.false_eq_true, if_false]
        refine ⟨isDistr_one _, ?_⟩
        intro x hx _
        rw [List.mem_singleton] at hx
        subst hx
        unfold step
        rw [hc, hp]
        simp only [Option.isSome_none, Bool.false_eq_true, if_false, hd, hsc, blockEnd]
        split
        · exact ⟨_, _, rfl⟩
        · exact ⟨_, _, rfl⟩
  | samp cur a c path rs new =>
    obtain ⟨nd, nc, h2, g2, g3, g4, hsink, g5⟩ := samp_facts I hp
    simp only [g2]
    obtain ⟨k1, k2, _⟩ := X.obs nc.state nc.action (by rw [g3]; exact hsink) (by rw [g3, g4]; exact g5)
    refine ⟨isDistr_map _ k1, ?_⟩
    intro x hx hx0
    obtain ⟨y, hy, rfl⟩ := List.mem_map.1 hx
    have ho := k2 y hy hx0
    unfold step
    rw [hc, hp]
    simp only [Option.isSome_none, Bool.false_eq_true, if_false, blockC, g2, h2]
    rw [if_pos ho]
    split
    · exact ⟨_, _, rfl⟩
    · split
      · exact ⟨_, _, rfl⟩
      · split
        · exact ⟨_, _, rfl⟩
        · exact ⟨_, _, rfl⟩
  | back nodes before after ret tot =>
    refine ⟨isDistr_one _, ?_⟩
    intro x hx _
    rw [List.mem_singleton] at hx
    subst hx
    unfold step
    rw [hc, hp]
    simp only [Option.isSome_none, Bool.false_eq_true, if_false, blockBackC]
    split
    · exact ⟨_, _, rfl⟩
    · split
      · exact ⟨_, _, rfl⟩
      · split
        · exact ⟨_, _, rfl⟩
        · exact ⟨_, _, rfl⟩
  | backD d nodes before after ret tot =>
    refine ⟨isDistr_one _, ?_⟩
    intro x hx _
    rw [List.mem_singleton] at hx
    subst hx
    unfold step
    rw [hc, hp]
    simp only [Option.isSome_none, Bool.false_eq_true, if_false, blockBackD]
    split
    · exact ⟨_, _, rfl⟩
    · exact ⟨_, _, rfl⟩

theorem mayRun_lt (hr : Reachable env m alg k s0 dp tm tb st h) {w : Nat} (hm : mayRun N st h w) : w < k := by
  rw [← reach_len hr]
  unfold mayRun at hm
  cases hw : st.ws[w]? with
  | none => rw [hw] at hm; exact hm.elim
  | some p => exact (List.getElem?_eq_some_iff.1 hw).1

/-- The budget is respected. -/
theorem budget_step {st' : St S A R X Y} {w : Nat} {ch : Choice S A} {e : Event S A R} (hm : mayRun N st h w) (hN : trialsBegun h ≤ N)
    (hs : step env m alg st w ch = some (st', e)) : trialsBegun (e :: h) ≤ N := by
  have E := (step_eff hs).2
  cases E with
  | began hw =>
    unfold mayRun at hm
    rw [hw] at hm
    simp only [trialsBegun, List.countP_cons] at hm ⊢
    simp
    omega
  | _ => simpa [trialsBegun, List.countP_cons] using hN

/-! ## The potential -/

/-- One trial that is on the play with chance `r` to follow it to the end. -/
noncomputable def val (θ r : ℝ) : ℝ := θ - r * (θ - 1 / 2)

variable (play pa po) in
noncomputable def theta : ℝ := 1 + (pa * po) ^ play.length / 2

variable (play pa po) in
/-- The contribution of worker `w`. -/
noncomputable def factor (h : List (Event S A R)) (w : Nat) : ℝ :=
  match status play w h with
  | .on i => val (theta play pa po) ((pa * po) ^ (play.length - i))
  | .pend i => val (theta play pa po) (po * (pa * po) ^ (play.length - i - 1))
  | .off => 1

variable (play pa po k) in
/-- The potential: it goes up when a trial leaves the play and down when it finds a new node of the play; on average it does not go up. -/
noncomputable def pot (h : List (Event S A R)) : ℝ :=
  (1 / 2) ^ added play h * theta play pa po ^ left play h * ∏ w ∈ Finset.range k, factor play pa po h w

variable (play pa po k) in
noncomputable def rest (h : List (Event S A R)) (w : Nat) : ℝ :=
  (1 / 2) ^ added play h * theta play pa po ^ left play h * ∏ v ∈ (Finset.range k).erase w, factor play pa po h v

theorem pot_rest {w : Nat} (hw : w < k) : pot k play pa po h = rest k play pa po h w * factor play pa po h w := by
  unfold pot rest
  rw [← Finset.mul_prod_erase _ _ (Finset.mem_range.2 hw)]
  ring

/-- What worker `w`'s event does to the potential. -/
theorem pot_cons {w : Nat} (hw : w < k) {e : Event S A R} (he : e.worker = w) {x y : Nat} (hx : added play (e :: h) = added play h + x)
    (hy : left play (e :: h) = left play h + y) :
    pot k play pa po (e :: h) = rest k play pa po h w * ((1 / 2) ^ x * theta play pa po ^ y * factor play pa po (e :: h) w) := by
  rw [pot_rest hw]
  have : rest k play pa po (e :: h) w = rest k play pa po h w * ((1 / 2) ^ x * theta play pa po ^ y) := by
    unfold rest
    rw [hx, hy, pow_add, pow_add]
    have : ∏ v ∈ (Finset.range k).erase w, factor play pa po (e :: h) v = ∏ v ∈ (Finset.range k).erase w, factor play pa po h v := by
      refine Finset.prod_congr rfl fun v hv => ?_
      unfold factor
      rw [status_other (by rw [he]; exact Ne.symm (Finset.ne_of_mem_erase hv))]
    rw [this]
    ring
  rw [this]
  ring

structure Probs (pa po : ℝ) : Prop where
  pa0 : 0 ≤ pa
  pa1 : pa ≤ 1
  po0 : 0 ≤ po
  po1 : po ≤ 1

theorem Probs.mul0 (P : Probs pa po) : 0 ≤ pa * po := mul_nonneg P.pa0 P.po0
theorem Probs.mul1 (P : Probs pa po) : pa * po ≤ 1 := mul_le_one₀ P.pa1 P.po0 P.po1
theorem Probs.pow0 (P : Probs pa po) (n : Nat) : 0 ≤ (pa * po) ^ n := pow_nonneg P.mul0 n
theorem Probs.pow1 (P : Probs pa po) (n : Nat) : (pa * po) ^ n ≤ 1 := pow_le_one₀ P.mul0 P.mul1
theorem Probs.theta1 (P : Probs pa po) : 1 ≤ theta play pa po := by unfold theta; have := P.pow0 play.length; linarith

theorem half_le_val {θ r : ℝ} (hθ : 1 ≤ θ) (h1 : r ≤ 1) : 1 / 2 ≤ val θ r := by unfold val; nlinarith
theorem val_le {θ r : ℝ} (hθ : 1 ≤ θ) (h0 : 0 ≤ r) : val θ r ≤ θ := by unfold val; nlinarith

theorem factor_nonneg (P : Probs pa po) (h : List (Event S A R)) (w : Nat) : 0 ≤ factor play pa po h w := by
  have ht := P.theta1 (play := play)
  unfold factor
  split
  · exact le_trans (by norm_num) (half_le_val ht (P.pow1 _))
  · exact le_trans (by norm_num) (half_le_val ht (mul_le_one₀ P.po1 (P.pow0 _) (P.pow1 _)))
  · norm_num

theorem rest_nonneg (P : Probs pa po) (h : List (Event S A R)) (w : Nat) : 0 ≤ rest k play pa po h w := by
  have ht := P.theta1 (play := play)
  unfold rest
  exact mul_nonneg (by positivity) (Finset.prod_nonneg fun v _ => factor_nonneg P h v)

theorem pot_nonneg (P : Probs pa po) (h : List (Event S A R)) : 0 ≤ pot k play pa po h := by
  have ht := P.theta1 (play := play)
  unfold pot
  exact mul_nonneg (by positivity) (Finset.prod_nonneg fun v _ => factor_nonneg P h v)

theorem factor_of {w : Nat} {x : Status} (hs : status play w h = x) : factor play pa po h w = match (generalizing := false) x with
  | .on i => val (theta play pa po) ((pa * po) ^ (play.length - i))
  | .pend i => val (theta play pa po) (po * (pa * po) ^ (play.length - i - 1))
  | .off => 1 := by
  unfold factor
  rw [hs]

open Classical in
variable (play pa po k) in
/-- The potential while the play is unexplored, 0 afterwards. -/
noncomputable def gap (st : St S A R X Y) (h : List (Event S A R)) : ℝ := if Explored st play then 0 else pot k play pa po h

theorem gap_le_pot (P : Probs pa po) (st : St S A R X Y) (h : List (Event S A R)) : gap k play pa po st h ≤ pot k play pa po h := by
  unfold gap
  split
  · exact pot_nonneg P h
  · exact le_rfl

theorem gap_nonneg (P : Probs pa po) (st : St S A R X Y) (h : List (Event S A R)) : 0 ≤ gap k play pa po st h := by
  unfold gap
  split
  · exact le_rfl
  · exact pot_nonneg P h

theorem mean1_const' {α : Type} {d : List (α × ℝ)} (hd : IsDistr d) (c : ℝ) : mean1 d (fun _ => c) = c := mean1_const hd c

theorem mean1_mul {α : Type} (d : List (α × ℝ)) (c : ℝ) (f : α → ℝ) : mean1 d (fun x => c * f x) = c * mean1 d f := by
  unfold mean1
  rw [← List.sum_map_mul_left]
  congr 1
  exact List.map_congr_left fun x _ => by ring

/-- On average the potential does not go up. -/
theorem drift (hv : alg.Valid) (htb : Leftover tb) (ht : TableOk m tb) (P : Probs pa po) (X : Explores env m alg D k s0 dp tm tb N pa po)
    (hp : ValidPlay env s0 play) (hl : dp + play.length ≤ m.maxDepth) (hr : Reachable env m alg k s0 dp tm tb st h) (hN : trialsBegun h ≤ N)
    {w : Nat} (hm : mayRun N st h w) :
    (mean1 (draws env m alg D st w) fun ch => match step env m alg st w ch with
      | none => gap k play pa po st h
      | some (st', e) => gap k play pa po st' (e :: h)) ≤ gap k play pa po st h := by
  have hw := mayRun_lt hr hm
  obtain ⟨hd, hgo⟩ := draws_ok hv htb ht X hr hN hw
  have hθ := P.theta1 (play := play)
  have E : ∀ {st' ch e}, step env m alg st w ch = some (st', e) → Eff env m alg st w e st' := fun h => (step_eff h).2
  have hstep : ∀ {st' ch e}, step env m alg st w ch = some (st', e) → st'.crashed = none := fun h =>
    safe_reach hv htb ht (reach_snoc hr h)
  by_cases hx : Explored st play
  · have : gap k play pa po st h = 0 := by simp [gap, hx]
    rw [this]
    refine le_trans (mean1_le hd.nonneg (g := fun _ => (0 : ℝ)) ?_) (by rw [mean1_const hd])
    intro x hx' hx0
    obtain ⟨st', e, he⟩ := hgo x hx' hx0
    simp only [he]
    simp [gap, explored_mono (le_eff (E he)) hx]
  · have hg : gap k play pa po st h = rest k play pa po h w * factor play pa po h w := by
      simp only [gap, hx, if_false]
      exact pot_rest hw
    refine le_trans ?_ (le_of_eq hg.symm)
    have hR := rest_nonneg (k := k) (play := play) P h w
    have key : ∀ (g : Choice S A → ℝ), (∀ x ∈ draws env m alg D st w, x.2 ≠ 0 → ∀ st' e, step env m alg st w x.1 = some (st', e) →
        pot k play pa po (e :: h) ≤ rest k play pa po h w * g x.1) → mean1 (draws env m alg D st w) g ≤ factor play pa po h w →
        (mean1 (draws env m alg D st w) fun ch => match step env m alg st w ch with
          | none => gap k play pa po st h
          | some (st', e) => gap k play pa po st' (e :: h)) ≤ rest k play pa po h w * factor play pa po h w := by
      intro g h1 h2
      refine le_trans (mean1_le hd.nonneg (g := fun ch => rest k play pa po h w * g ch) ?_) ?_
      · intro x hx' hx0
        obtain ⟨st', e, he⟩ := hgo x hx' hx0
        simp only [he]
        exact le_trans (gap_le_pot P _ _) (h1 x hx' hx0 st' e he)
      · rw [mean1_mul]
        exact mul_le_mul_of_nonneg_left h2 hR
    obtain ⟨p, hph⟩ := reach_phase hr hw
    have hsi := reach_status (play := play) hv htb hr w p hph
    cases hs : status play w h with
    | off =>
      refine key (fun _ => 1) ?_ (by rw [mean1_const hd, factor_of hs])
      intro x hx' hx0 st' e he
      have he' := E he
      have hwk := eff_worker he'
      rcases eff_move hv htb ht hr hp hl hx (hstep he) he' with ⟨h1, h2, h3, h4, h5⟩ | ⟨h1, h2, h3, h4, h5⟩ |
        ⟨i, d, c, a, a0, o, _, _, h1, h2, h3, h4, h5⟩ | ⟨i, d, c, d', a, o, o0, r, g, _, _, h1, h2, h3, h4, h5⟩
      · rw [pot_cons hw hwk (x := 0) (y := 0) h5 h4, factor_of h2]
        refine mul_le_mul_of_nonneg_left ?_ hR
        simp only [pow_zero, one_mul, Nat.sub_zero, val, theta]
        have := P.pow0 play.length
        nlinarith
      · rw [pot_cons hw hwk (x := 0) (y := 0) h5 h4, factor_of h2]
        simp
      · rw [hs] at h1; cases h1
      · rw [hs] at h1; cases h1
    | on i =>
      obtain ⟨cur, path, rs, new, rfl⟩ : ∃ cur path rs new, p = .sel cur path rs new := by
        cases p with
        | sel cur path rs new => exact ⟨_, _, _, _, rfl⟩
        | samp =>
          rcases hsi with H | ⟨_, _, _, H, _⟩ <;> rw [hs] at H <;> cases H
        | idle | back | backD => have : status play w h = .off := hsi; rw [hs] at this; cases this
      obtain ⟨a0, o0, nd, g1, g2, g3, g4, g5⟩ := on_continues hv htb hr hp hl hx hph hs
      have hsc : shouldContinue env m nd new = true := by simp [shouldContinue, g4, g5]
      obtain ⟨x1, x2, x3⟩ := X.sel hr hN hph g2 hsc
      have hv3 := hp.at g1
      have hil : i < play.length := (List.getElem?_eq_some_iff.1 g1).1
      have hdr : draws env m alg D st w = (D.sel (viewOf env m st { nd with visits := nd.visits + 1, x := alg.visitD false nd.x }) (st.ctxOf w)).map
          fun p => (.act p.1, p.2) := by
        unfold draws
        simp only [hph, g2, hsc, if_true]
      have hr0 := mul_nonneg P.po0 (P.pow0 (play.length - i - 1))
      refine key (fun ch => match ch with
        | .act a => if a = a0 then val (theta play pa po) (po * (pa * po) ^ (play.length - i - 1)) else theta play pa po
        | _ => 0) ?_ ?_
      · intro x hx' hx0 st' e he
        have he' := E he
        have hwk := eff_worker he'
        have hch := step_choice he
        rcases eff_move hv htb ht hr hp hl hx (hstep he) he' with ⟨h1, h2, h3, h4, h5⟩ | ⟨h1, h2, h3, h4, h5⟩ |
          ⟨j, d, c, a, a1, o, hj, hev, h1, h2, h3, h4, h5⟩ | ⟨j, d, c, d', a, o, o1, r, g, _, _, h1, h2, h3, h4, h5⟩
        · rw [hs] at h1; cases h1
        · rw [hs] at h1; cases h1
        · rw [hs] at h1
          cases h1
          rw [g1] at hj
          cases hj
          rw [hch.1 _ _ _ _ hev]
          refine le_of_eq ?_
          by_cases ha : a = a0
          · subst ha
            simp only [if_true] at h2 h4 ⊢
            rw [pot_cons hw hwk (x := 0) (y := 0) h5 h4, factor_of h2]
            simp
          · simp only [ha, if_false] at h2 h4 ⊢
            rw [pot_cons hw hwk (x := 0) (y := 1) h5 h4, factor_of h2]
            simp
        · rw [hs] at h1; cases h1
      · rw [hdr, mean1_map, factor_of hs]
        refine le_trans (mean1_two_le x1 (x3 a0 (by rw [g3]; exact hv3.2.1)) (val_le hθ hr0)) (le_of_eq ?_)
        have : play.length - i = play.length - i - 1 + 1 := by omega
        simp only [val]
        rw [this, pow_succ]
        simp only [Nat.add_sub_cancel]
        ring
    | pend i =>
      obtain ⟨cur, a, c, path, rs, new, rfl⟩ : ∃ cur a c path rs new, p = .samp cur a c path rs new := by
        cases p with
        | samp cur a c path rs new => exact ⟨_, _, _, _, _, _, rfl⟩
        | sel =>
          rcases hsi with H | ⟨_, _, H, _⟩ <;> rw [hs] at H <;> cases H
        | idle | back | backD => have : status play w h = .off := hsi; rw [hs] at this; cases this
      obtain ⟨o0, nc, g1, g2, g3, g4, g5, g6⟩ := samp_node hv htb hr hph hs
      have hv3 := hp.at g1
      have hil : i < play.length := (List.getElem?_eq_some_iff.1 g1).1
      obtain ⟨x1, x2, x3⟩ := X.obs nc.state nc.action (by rw [g3]; exact hv3.1) (by rw [g3, g4]; exact hv3.2.1)
      have hdr : draws env m alg D st w = (D.obs nc.state nc.action).map fun p => (.obs p.1, p.2) := by
        unfold draws
        simp only [hph, g2]
      refine key (fun ch => match ch with
        | .obs o => if o = o0 then val (theta play pa po) ((pa * po) ^ (play.length - i - 1)) else theta play pa po
        | _ => 0) ?_ ?_
      · intro x hx' hx0 st' e he
        have he' := E he
        have hwk := eff_worker he'
        have hch := step_choice he
        rcases eff_move hv htb ht hr hp hl hx (hstep he) he' with ⟨h1, h2, h3, h4, h5⟩ | ⟨h1, h2, h3, h4, h5⟩ |
          ⟨j, d, c, a, a1, o, hj, hev, h1, h2, h3, h4, h5⟩ | ⟨j, d, c, d', a', o, o1, r, g, hj, hev, h1, h2, h3, h4, h5⟩
        · rw [hs] at h1; cases h1
        · rw [hs] at h1; cases h1
        · rw [hs] at h1; cases h1
        · rw [hs] at h1
          cases h1
          rw [g1] at hj
          cases hj
          rw [hch.2 _ _ _ _ _ _ _ _ hev]
          by_cases ho : o = o0
          · subst ho
            cases g
            · simp only [if_true, true_and, and_true, Bool.false_eq_true, if_false] at h2 h4 h5 ⊢
              rw [pot_cons hw hwk (x := 0) (y := 0) h5 h4, factor_of h2]
              simp [Nat.sub_sub]
            · simp only [if_true, true_and, and_true, Bool.true_eq_false, if_false] at h2 h4 h5 ⊢
              rw [pot_cons hw hwk (x := 1) (y := 0) h5 h4, factor_of h2]
              refine mul_le_mul_of_nonneg_left ?_ hR
              simpa using half_le_val hθ (P.pow1 (play.length - i - 1))
          · simp only [ho, if_false, false_and] at h2 h4 h5 ⊢
            rw [pot_cons hw hwk (x := 0) (y := 1) h5 h4, factor_of h2]
            simp
      · rw [hdr, mean1_map, factor_of hs]
        refine le_trans (mean1_two_le x1 (x3 o0 (by rw [g3, g4]; exact hv3.2.2)) (val_le hθ (P.pow0 _))) (le_of_eq ?_)
        simp only [val]
        ring

end

end Verif.Random
