import Verif.Proofs.RandomWalk
import Verif.Props.Tree

/-!
# Random searches: expectations and the end of the search (C77)
-/

set_option linter.unusedSectionVars false
set_option linter.unusedSimpArgs false

namespace Verif.Random

open Verif.Search Verif.Eval Verif.Spec

section
variable {S A R X Y : Type} [DecidableEq S] [DecidableEq A] [AddMonoid R]
variable {env : Env S A R} {m : Manager S R} {alg : Alg S A R X Y} {k : Nat} {s0 : S} {dp tm : Int}
  {tb : List ((Int × S) × Option Nat)} {st : St S A R X Y} {h : List (Event S A R)} {play : List (A × S)} {D : Dice S A R X Y} {N : Nat} {pa po : ℝ}
  {sched : Scheduler S A R}

/-! ## Expectations -/

theorem expect_le (hv : alg.Valid) (htb : Leftover tb) (ht : TableOk m tb) (hX : Explores env m alg D k s0 dp tm tb N pa po)
    {f g : St S A R X Y → List (Event S A R) → ℝ}
    (hfg : ∀ st h, Reachable env m alg k s0 dp tm tb st h → trialsBegun h ≤ N → f st h ≤ g st h) (n : Nat) :
    ∀ {st h}, Reachable env m alg k s0 dp tm tb st h → trialsBegun h ≤ N →
    expectAfter env m alg D N sched f n st h ≤ expectAfter env m alg D N sched g n st h := by
  induction n with
  | zero => intro st h hr hN; exact hfg st h hr hN
  | succ n ih =>
    intro st h hr hN
    unfold expectAfter
    split
    · next hm =>
      have hw := mayRun_lt hr hm
      obtain ⟨hd, hgo⟩ := draws_ok hv htb ht hX hr hN hw
      refine mean1_le hd.nonneg ?_
      intro x hx hx0
      obtain ⟨st', e, he⟩ := hgo x hx hx0
      simp only [he]
      exact ih (reach_snoc hr he) (budget_step hm hN he)
    · exact ih hr hN

theorem expect_mul (c : ℝ) (f : St S A R X Y → List (Event S A R) → ℝ) (n : Nat) (st : St S A R X Y) (h : List (Event S A R)) :
    expectAfter env m alg D N sched (fun st h => c * f st h) n st h = c * expectAfter env m alg D N sched f n st h := by
  induction n generalizing st h with
  | zero => rfl
  | succ n ih =>
    unfold expectAfter
    split
    · rw [← mean1_mul]
      congr 1
      funext ch
      split
      · exact ih st h
      · exact ih _ _
    · exact ih st h

theorem mean1_add {α : Type} (d : List (α × ℝ)) (f g : α → ℝ) : mean1 d (fun x => f x + g x) = mean1 d f + mean1 d g := by
  unfold mean1
  rw [← List.sum_map_add]
  congr 1
  exact List.map_congr_left fun x _ => by ring

theorem expect_add (f g : St S A R X Y → List (Event S A R) → ℝ) (n : Nat) (st : St S A R X Y) (h : List (Event S A R)) :
    expectAfter env m alg D N sched (fun st h => f st h + g st h) n st h =
      expectAfter env m alg D N sched f n st h + expectAfter env m alg D N sched g n st h := by
  induction n generalizing st h with
  | zero => rfl
  | succ n ih =>
    unfold expectAfter
    split
    · rw [← mean1_add]
      congr 1
      funext ch
      split
      · exact ih st h
      · exact ih _ _
    · exact ih st h

theorem expect_zero (n : Nat) (st : St S A R X Y) (h : List (Event S A R)) : expectAfter env m alg D N sched (fun _ _ => 0) n st h = 0 := by
  have := expect_mul (env := env) (m := m) (alg := alg) (D := D) (N := N) (sched := sched) 0 (fun _ _ => (0 : ℝ)) n st h
  simpa using this

theorem expect_sum {ι : Type} (l : List ι) (f : ι → St S A R X Y → List (Event S A R) → ℝ) (n : Nat) (st : St S A R X Y) (h : List (Event S A R)) :
    expectAfter env m alg D N sched (fun st h => (l.map fun i => f i st h).sum) n st h =
      (l.map fun i => expectAfter env m alg D N sched (f i) n st h).sum := by
  induction l with
  | nil => simpa using expect_zero n st h
  | cons i l ih =>
    simp only [List.map_cons, List.sum_cons]
    rw [expect_add, ih]

/-- Expectations of a constant. -/
theorem expect_const (hv : alg.Valid) (htb : Leftover tb) (ht : TableOk m tb) (hX : Explores env m alg D k s0 dp tm tb N pa po) (c : ℝ) (n : Nat) :
    ∀ {st h}, Reachable env m alg k s0 dp tm tb st h → trialsBegun h ≤ N → expectAfter env m alg D N sched (fun _ _ => c) n st h = c := by
  induction n with
  | zero => intro st h _ _; rfl
  | succ n ih =>
    intro st h hr hN
    unfold expectAfter
    split
    · next hm =>
      have hw := mayRun_lt hr hm
      obtain ⟨hd, hgo⟩ := draws_ok hv htb ht hX hr hN hw
      rw [mean1_congr' (g := fun _ => c), mean1_const hd]
      intro x hx hx0
      obtain ⟨st', e, he⟩ := hgo x hx hx0
      simp only [he]
      exact ih (reach_snoc hr he) (budget_step hm hN he)
    · exact ih hr hN

/-- The expected potential does not go up. -/
theorem expect_gap (hv : alg.Valid) (htb : Leftover tb) (ht : TableOk m tb) (P : Probs pa po) (hX : Explores env m alg D k s0 dp tm tb N pa po)
    (hp : ValidPlay env s0 play) (hl : dp + play.length ≤ m.maxDepth) (n : Nat) :
    ∀ {st h}, Reachable env m alg k s0 dp tm tb st h → trialsBegun h ≤ N →
    expectAfter env m alg D N sched (gap k play pa po) n st h ≤ gap k play pa po st h := by
  induction n with
  | zero => intro st h _ _; exact le_rfl
  | succ n ih =>
    intro st h hr hN
    unfold expectAfter
    split
    · next hm =>
      have hw := mayRun_lt hr hm
      obtain ⟨hd, hgo⟩ := draws_ok hv htb ht hX hr hN hw
      refine le_trans (mean1_le hd.nonneg (g := fun ch => match step env m alg st (sched h) ch with
        | none => gap k play pa po st h
        | some (st', e) => gap k play pa po st' (e :: h)) ?_) (drift hv htb ht P hX hp hl hr hN hm)
      intro x hx hx0
      obtain ⟨st', e, he⟩ := hgo x hx hx0
      simp only [he]
      exact ih (reach_snoc hr he) (budget_step hm hN he)
    · exact ih hr hN

/-! ## The end of the search -/

/-- A finished search that has not explored the play has left it almost every time. -/
theorem gap_finished (hv : alg.Valid) (htb : Leftover tb) (ht : TableOk m tb) (P : Probs pa po)
    (hp : ValidPlay env s0 play) (hl : dp + play.length ≤ m.maxDepth) (hr : Reachable env m alg k s0 dp tm tb st h) (hf : Finished N st h)
    (hx : ¬ Explored st play) : 1 ≤ missBound (pa * po) play.length N * gap k play pa po st h := by
  have hθ := P.theta1 (play := play)
  obtain ⟨hq, hc⟩ := hf
  have hb := (c13_root_visits hv htb hr hq).2
  have hoff : ∀ w ∈ Finset.range k, status play w h = .off := by
    intro w hw
    obtain ⟨p, hph⟩ := reach_phase hr (Finset.mem_range.1 hw)
    have := hq _ _ hph
    subst this
    exact reach_status (play := play) hv htb hr w _ hph
  have hbal := balance hv htb ht hr hp hl hx
  rw [Finset.sum_eq_zero (fun w hw => by rw [act_of (hoff w hw)]; simp)] at hbal
  have hadd := added_le (play := play) hv htb hr
  have hg : gap k play pa po st h = (1 / 2) ^ added play h * theta play pa po ^ left play h := by
    unfold gap pot
    rw [if_neg hx, Finset.prod_eq_one (fun w hw => by rw [factor_of (hoff w hw)])]
    ring
  rw [hg]
  have h1 : (1 / 2 : ℝ) ^ play.length ≤ (1 / 2) ^ added play h := pow_le_pow_of_le_one (by norm_num) (by norm_num) hadd
  have h2 : theta play pa po ^ (N - play.length) ≤ theta play pa po ^ left play h := pow_le_pow_right₀ hθ (by omega)
  have h3 : (1 / 2 : ℝ) ^ play.length * theta play pa po ^ (N - play.length) ≤ (1 / 2) ^ added play h * theta play pa po ^ left play h :=
    mul_le_mul h1 h2 (by positivity) (by positivity)
  have h4 : missBound (pa * po) play.length N * ((1 / 2 : ℝ) ^ play.length * theta play pa po ^ (N - play.length)) = 1 := by
    unfold missBound
    have : (1 + (pa * po) ^ play.length / 2) = theta play pa po := rfl
    rw [this]
    have e1 : theta play pa po ^ (N - play.length) ≠ 0 := by positivity
    have e2 : (2 : ℝ) ^ play.length * (1 / 2) ^ play.length = 1 := by rw [← mul_pow]; norm_num
    rw [div_mul_eq_mul_div, div_eq_one_iff_eq e1, ← mul_assoc, e2, one_mul]
  have h5 : 0 ≤ missBound (pa * po) play.length N := by
    have := P.pow0 play.length
    unfold missBound
    positivity
  calc (1 : ℝ) = _ := h4.symm
    _ ≤ _ := mul_le_mul_of_nonneg_left h3 h5

theorem pot_start : pot k play pa po ([] : List (Event S A R)) = 1 := by
  unfold pot
  rw [Finset.prod_eq_one (fun w _ => by simp [factor, status])]
  simp [added, left]

theorem reach_start : Reachable env m alg k s0 dp tm tb (init env m alg k s0 dp tm tb) [] := ⟨[], rfl⟩

open Classical in
/-- Work of worker `w` on its current trial. -/
noncomputable def work (st : St S A R X Y) (h : List (Event S A R)) (w : Nat) : Nat :=
  if (st.ws[w]?).getD .idle = .idle then 0 else 1 + blocksOf w h

open Classical in
theorem countP_range (l : List (Phase S A R)) (f : Phase S A R → Bool) (hf : f .idle = false) :
    ∑ w ∈ Finset.range l.length, (if f ((l[w]?).getD .idle) then 1 else 0) = l.countP f := by
  induction l with
  | nil => simp
  | cons p l ih =>
    rw [List.length_cons, Finset.sum_range_succ', List.countP_cons]
    simp only [List.getElem?_cons_succ, List.getElem?_cons_zero, Option.getD_some]
    rw [ih]

/-- The number of events in a search is bounded by its number of trials. -/
theorem length_le (hv : alg.Valid) (htb : Leftover tb) (ht : TableOk m tb) (hdp : dp ≤ m.maxDepth) (hr : Reachable env m alg k s0 dp tm tb st h) :
    h.length ≤ (4 * (m.maxDepth - dp).toNat + 4) * trialsBegun h := by
  set B := 4 * (m.maxDepth - dp).toNat + 4 with hB
  have hblk : ∀ {st h}, Reachable env m alg k s0 dp tm tb st h → ∀ w < k, blocksOf w h + 2 ≤ B := by
    intro st h hr w hw
    have := c09_trial_length_bounded hv htb hr hdp hw
    omega
  have h1 : st.crashed = none → h.length ≤ B * trialsCompleted h + ∑ w ∈ Finset.range k, work st h w := by
    refine reach_induct (fun st h => st.crashed = none → h.length ≤ B * trialsCompleted h + ∑ w ∈ Finset.range k, work st h w) (by simp) ?_ hr
    intro st h w e st' hr ih hc E hc'
    have h0 := ih hc
    have hw := eff_lt hr E
    have hlen := reach_len hr
    have hsum := sum_change' hw (f := work st h) (g := work st' (e :: h)) (fun v hvw => by
      obtain ⟨b1, b2⟩ := (blocks_step (w := v) (h := h) E hc').1 (Ne.symm hvw)
      unfold work
      rw [b1, b2])
    have hb := hblk hr w hw
    obtain ⟨p, hp⟩ := reach_phase hr hw
    have hlt : w < st.ws.length := by rw [hlen]; exact hw
    by_cases hcomp : e = .completed w
    · have hcnt : trialsCompleted (e :: h) = trialsCompleted h + 1 := by
        subst hcomp
        simp [trialsCompleted, List.countP_cons]
      have h3 : work st h w ≤ 1 + blocksOf w h := by
        unfold work
        split <;> omega
      rw [hcnt, Nat.mul_add, List.length_cons]
      omega
    · have hcnt : trialsCompleted (e :: h) = trialsCompleted h := by
        have hwk := eff_worker E
        cases e with
        | completed v => simp only [Event.worker] at hwk; subst hwk; simp at hcomp
        | _ => simp [trialsCompleted, List.countP_cons]
      obtain ⟨b1, b2⟩ := (blocks_step (w := w) (h := h) E hc').2 rfl hcomp
      have hws' : ∃ p', st'.ws[w]? = some p' := by
        have : st'.ws.length = st.ws.length := by
          have := eff_len E
          exact this
        exact ⟨_, List.getElem?_eq_getElem (by rw [this]; exact hlt)⟩
      obtain ⟨p', hp'⟩ := hws'
      have hw' : work st' (e :: h) w = 1 + blocksOf w (e :: h) := by
        unfold work
        rw [hp', Option.getD_some, if_neg (fun hh => b1 (by rw [hp', hh]))]
      rw [hcnt, List.length_cons]
      rcases b2 with ⟨g1, g2⟩ | ⟨g1, g2⟩
      · have : work st h w = 0 := by unfold work; rw [g1]; simp
        omega
      · have : work st h w = 1 + blocksOf w h := by
          unfold work
          rw [hp, Option.getD_some, if_neg (fun hh => g1 (by rw [hp, hh]))]
        omega
  have h2 := h1 (safe_reach hv htb ht hr)
  obtain ⟨I, C⟩ := reach_both hv htb hr
  have h5 := C.v5
  have e1 : h.countP Event.isBegan = trialsBegun h := countP_congr' h (fun e => by cases e <;> rfl)
  have e2 : h.countP Event.isCompleted = trialsCompleted h := countP_congr' h (fun e => by cases e <;> rfl)
  rw [e1, e2] at h5
  have h6 : ∑ w ∈ Finset.range k, work st h w ≤ B * st.ws.countP Phase.busy := by
    rw [← countP_range st.ws Phase.busy rfl, reach_len hr, Finset.mul_sum]
    refine Finset.sum_le_sum fun w hw => ?_
    have hb := hblk hr w (Finset.mem_range.1 hw)
    obtain ⟨p, hp⟩ := reach_phase hr (Finset.mem_range.1 hw)
    unfold work
    rw [hp, Option.getD_some]
    cases p <;> simp [Phase.busy] <;> omega
  rw [h5, Nat.mul_add]
  omega

/-- If no worker may run all trials are over. -/
theorem stuck_finished (hv : alg.Valid) (htb : Leftover tb) (hk : 0 < k) (hr : Reachable env m alg k s0 dp tm tb st h) (hN : trialsBegun h ≤ N)
    (hm : ∀ w, ¬ mayRun N st h w) : Finished N st h := by
  have hidle : ∀ (w : Nat) (p : Phase S A R), st.ws[w]? = some p → p = .idle ∧ N ≤ trialsBegun h := by
    intro w p hp
    have := hm w
    unfold mayRun at this
    rw [hp] at this
    cases p with
    | idle => exact ⟨rfl, by simpa using this⟩
    | _ => simp at this
  have hq : Quiescent st := fun w p hp => (hidle w p hp).1
  obtain ⟨p, hp⟩ := reach_phase hr hk
  have := (hidle 0 p hp).2
  have := (c13_root_visits hv htb hr hq).2
  exact ⟨hq, by omega⟩

theorem finished_stuck (hv : alg.Valid) (htb : Leftover tb) (hr : Reachable env m alg k s0 dp tm tb st h) (hf : Finished N st h) (w : Nat) :
    ¬ mayRun N st h w := by
  intro hm
  have := (c13_root_visits hv htb hr hf.1).2
  have h2 := hf.2
  unfold mayRun at hm
  cases hw : st.ws[w]? with
  | none => rw [hw] at hm; exact hm
  | some p =>
    rw [hw] at hm
    obtain rfl := hf.1 w p hw
    simp only at hm
    omega

theorem expect_stuck (f : St S A R X Y → List (Event S A R) → ℝ) (hm : ∀ w, ¬ mayRun N st h w) (n : Nat) :
    expectAfter env m alg D N sched f n st h = f st h := by
  induction n with
  | zero => rfl
  | succ n ih =>
    unfold expectAfter
    rw [if_neg (hm _)]
    exact ih

theorem isDistr_ne {α : Type} {d : List (α × ℝ)} (hd : IsDistr d) : ∃ x ∈ d, x.2 ≠ 0 := by
  by_contra hx
  push Not at hx
  have := hd.total
  rw [List.map_eq_replicate_iff.2 hx] at this
  simp at this

/-- After enough steps of a schedule that is not idle the search is over, so only the values of `f` at the end matter. -/
theorem expect_congr (hv : alg.Valid) (htb : Leftover tb) (ht : TableOk m tb) (hX : Explores env m alg D k s0 dp tm tb N pa po) (hdp : dp ≤ m.maxDepth)
    (hk : 0 < k) (hsch : Productive env m alg k s0 dp tm tb N sched) {f g : St S A R X Y → List (Event S A R) → ℝ}
    (hfg : ∀ st h, Reachable env m alg k s0 dp tm tb st h → Finished N st h → f st h = g st h) (n : Nat) :
    ∀ {st h}, Reachable env m alg k s0 dp tm tb st h → trialsBegun h ≤ N → (4 * (m.maxDepth - dp).toNat + 4) * N ≤ n + h.length →
    expectAfter env m alg D N sched f n st h = expectAfter env m alg D N sched g n st h := by
  induction n with
  | zero =>
    intro st h hr hN hn
    by_cases hm : ∃ w, mayRun N st h w
    · exfalso
      obtain ⟨w, hm⟩ := hm
      obtain ⟨hd, hgo⟩ := draws_ok hv htb ht hX hr hN (mayRun_lt hr hm)
      obtain ⟨x, hx, hx0⟩ := isDistr_ne hd
      obtain ⟨st', e, he⟩ := hgo x hx hx0
      have h1 := length_le hv htb ht hdp (reach_snoc hr he)
      have h2 := Nat.mul_le_mul_left (4 * (m.maxDepth - dp).toNat + 4) (budget_step hm hN he)
      rw [List.length_cons] at h1
      omega
    · exact hfg st h hr (stuck_finished hv htb hk hr hN (not_exists.1 hm))
  | succ n ih =>
    intro st h hr hN hn
    by_cases hm : ∃ w, mayRun N st h w
    · have hm' := hsch st h hr hm
      obtain ⟨hd, hgo⟩ := draws_ok hv htb ht hX hr hN (mayRun_lt hr hm')
      unfold expectAfter
      rw [if_pos hm', if_pos hm']
      refine mean1_congr' ?_
      intro x hx hx0
      obtain ⟨st', e, he⟩ := hgo x hx hx0
      simp only [he]
      exact ih (reach_snoc hr he) (budget_step hm' hN he) (by rw [List.length_cons]; omega)
    · rw [expect_stuck _ (not_exists.1 hm), expect_stuck _ (not_exists.1 hm)]
      exact hfg st h hr (stuck_finished hv htb hk hr hN (not_exists.1 hm))

/-- Is worker `w` between trials?  Told from the history. -/
def idleH (w : Nat) : List (Event S A R) → Bool
  | [] => true
  | e :: h => if e.worker = w then (match e with | .completed _ => true | _ => false) else idleH w h

theorem reach_idleH (hr : Reachable env m alg k s0 dp tm tb st h) :
    st.crashed = none → ∀ (w : Nat) (p : Phase S A R), st.ws[w]? = some p → (p = .idle ↔ idleH w h = true) := by
  refine reach_induct (fun st h => st.crashed = none → ∀ (w : Nat) (p : Phase S A R), st.ws[w]? = some p → (p = .idle ↔ idleH w h = true)) ?_ ?_ hr
  · intro _ w p hp
    simp only [init, List.getElem?_replicate] at hp
    split at hp <;> simp at hp
    simp [← hp, idleH]
  · intro st h v e st' hr ih hc E hc' w p hp
    by_cases hvw : w = v
    · subst hvw
      cases E with
      | crash hx => simp at hc'
      | _ =>
        have hlt : w < st.ws.length := (List.getElem?_eq_some_iff.1 (by assumption)).1
        simp_all [idleH, Event.worker]
        try (subst hp; simp)
    · have := eff_worker E
      rw [eff_ws_other E hvw] at hp
      rw [ih hc w p hp]
      simp [idleH, this, Ne.symm hvw]

open Classical in
/-- There is a scheduler that is not idle. -/
theorem productive_exists (hv : alg.Valid) (htb : Leftover tb) (ht : TableOk m tb) :
    ∃ sched : Scheduler S A R, Productive env m alg k s0 dp tm tb N sched := by
  refine ⟨fun h => if hx : ∃ w, w < k ∧ (idleH w h = true → trialsBegun h < N) then hx.choose else 0, ?_⟩
  intro st h hr ⟨w, hm⟩
  have hI := reach_idleH hr (safe_reach hv htb ht hr)
  have key : ∀ w, mayRun N st h w ↔ w < k ∧ (idleH w h = true → trialsBegun h < N) := by
    intro w
    unfold mayRun
    by_cases hw : w < k
    · obtain ⟨p, hp⟩ := reach_phase hr hw
      have := hI w p hp
      rw [hp]
      cases p <;> simp_all
    · have : st.ws[w]? = none := by rw [List.getElem?_eq_none]; rw [reach_len hr]; omega
      simp [this, hw]
  have hx : ∃ w, w < k ∧ (idleH w h = true → trialsBegun h < N) := ⟨w, (key w).1 hm⟩
  rw [key]
  simp only [dif_pos hx]
  exact hx.choose_spec

/-! ## Every node has a play -/

theorem validPlay_snoc {l : List (A × S)} {a : A} {o : S} : ∀ {s : S}, ValidPlay env s l → env.isSink (endState s l) = false →
    a ∈ env.actions (endState s l) → o ∈ env.succ (endState s l) a → ValidPlay env s (l ++ [(a, o)]) := by
  induction l with
  | nil => intro s _ h1 h2 h3; exact ⟨h1, h2, h3, trivial⟩
  | cons p l ih =>
    intro s hv h1 h2 h3
    exact ⟨hv.1, hv.2.1, hv.2.2.1, ih hv.2.2.2 h1 h2 h3⟩

theorem validPlay_prefix {l l' : List (A × S)} : ∀ {s : S}, ValidPlay env s (l ++ l') → ValidPlay env s l := by
  induction l with
  | nil => intro s _; trivial
  | cons p l ih => intro s hv; exact ⟨hv.1, hv.2.1, hv.2.2.1, ih hv.2.2.2⟩

theorem every_node (hv : alg.Valid) (htb : Leftover tb) (hr : Reachable env m alg k s0 dp tm tb st h) :
    ∀ (n d : Nat) nd, st.dn[d]? = some nd → nd.depth = dp + n → ∃ l, Leads st st.root l d ∧ ValidPlay env s0 l ∧ l.length = n := by
  have T := (reach_inv hv htb hr).tree
  obtain ⟨nr, g1, g2, g3, _⟩ := root_node T
  obtain ⟨P1, P2, _⟩ := c14_parents hv htb hr
  intro n
  induction n with
  | zero =>
    intro d nd hd hdep
    have : d = st.root := by
      by_contra hne
      obtain ⟨c, o, h1⟩ := P1 d nd hd hne
      obtain ⟨nc, nd', f1, f2, f3, f4, f5, f6, f7⟩ := childD_facts T h1
      obtain ⟨d2, h2⟩ := P2 c nc f1
      obtain ⟨nd2, nc', e1, e2, e3, e4, e5, e6, _⟩ := childC_facts T h2
      rw [f1] at e2
      obtain rfl := Option.some.inj e2
      rw [hd] at f2
      obtain rfl := Option.some.inj f2
      have := (T.heap.dTime d2 nd2.skel (by simp [e1])).2
      simp only [DNode.skel] at this
      push_cast at hdep
      omega
    subst this
    exact ⟨[], .nil _, trivial, rfl⟩
  | succ n ih =>
    intro d nd hd hdep
    have hne : d ≠ st.root := by
      rintro rfl
      rw [g1] at hd
      obtain rfl := Option.some.inj hd
      push_cast at hdep
      omega
    obtain ⟨c, o, h1⟩ := P1 d nd hd hne
    obtain ⟨nc, nd', f1, f2, f3, f4, f5, f6, f7⟩ := childD_facts T h1
    obtain ⟨d2, h2⟩ := P2 c nc f1
    obtain ⟨nd2, nc', e1, e2, e3, e4, e5, e6, _, e8⟩ := childC_facts T h2
    rw [f1] at e2
    obtain rfl := Option.some.inj e2
    rw [hd] at f2
    obtain rfl := Option.some.inj f2
    obtain ⟨l, k1, k2, k3⟩ := ih d2 nd2 e1 (by push_cast at hdep; omega)
    obtain ⟨nd2', q1, q2, _⟩ := k1.node T g1
    rw [e1] at q1
    obtain rfl := Option.some.inj q1
    rw [g2] at q2
    refine ⟨l ++ [(nc.action, o)], k1.snoc h2 h1, validPlay_snoc k2 ?_ ?_ ?_, by simp [k3]⟩
    · rw [← q2]
      by_contra hs
      have := T.heap.dLeaf d2 nd2.skel (by simp [e1]) (by simp [leafS, DNode.skel]; left; simpa using hs)
      simp only [DNode.skel] at this
      rw [this] at e3
      simp at e3
    · rw [← q2]; exact e8
    · rw [← q2, ← e4]; exact f7

/-- The plays of at most `n` steps. -/
theorem mem_plays {l : List (A × S)} : ∀ {n : Nat} {s : S}, l ∈ plays env n s ↔ ValidPlay env s l ∧ l.length ≤ n := by
  induction l with
  | nil => intro n s; cases n <;> simp [plays, ValidPlay]
  | cons p l ih =>
    intro n s
    obtain ⟨a, o⟩ := p
    cases n with
    | zero => simp [plays]
    | succ n =>
      simp only [plays, ValidPlay, List.mem_cons, reduceCtorEq, false_or, List.length_cons]
      cases hs : env.isSink s with
      | true => simp
      | false =>
        simp only [Bool.false_eq_true, if_false, List.mem_flatMap, List.mem_map, List.cons.injEq, Prod.mk.injEq, true_and]
        constructor
        · rintro ⟨a', ha, o', ho, l', hl', ⟨rfl, rfl⟩, rfl⟩
          obtain ⟨h1, h2⟩ := ih.1 hl'
          exact ⟨⟨ha, ho, h1⟩, by omega⟩
        · rintro ⟨⟨ha, ho, h1⟩, h2⟩
          exact ⟨a, ha, o, ho, l, ih.2 ⟨h1, by omega⟩, ⟨rfl, rfl⟩, rfl⟩

end

end Verif.Random
