import Verif.Proofs.RandomHits
import Verif.Proofs.Rounds
import Verif.Props.Random
import Verif.Spec.Calls

/-! # Several calls of a random search (C109) -/

set_option linter.unusedSectionVars false
set_option linter.unusedSimpArgs false

namespace Verif.Random

open Verif.Search Verif.Eval Verif.Spec

section
variable {S A R X Y : Type} [DecidableEq S] [DecidableEq A] [AddMonoid R]
variable {env : Env S A R} {m : Manager S R} {alg : Alg S A R X Y} {k : Nat} {s0 : S} {dp tm : Int}
  {tb : List ((Int × S) × Option Nat)} {st : St S A R X Y} {h : List (Event S A R)} {play : List (A × S)} {D : Dice S A R X Y} {N : Nat} {pa po : ℝ}
  {sched : Scheduler S A R}

/-! ## What follows from a state -/

/-- Induction along a run from a reachable state. -/
theorem run_induct (P : St S A R X Y → List (Event S A R) → Prop)
    (hstep : ∀ st h w ch e st', Reachable env m alg k s0 dp tm tb st h → P st h → step env m alg st w ch = some (st', e) → P st' (e :: h))
    {ls : List (Nat × Choice S A)} : ∀ {st h st' h'}, Reachable env m alg k s0 dp tm tb st h → P st h →
      execFrom env m alg st h ls = some (st', h') → P st' h' := by
  induction ls with
  | nil => intro st h st' h' _ hp hx; simp [execFrom] at hx; obtain ⟨rfl, rfl⟩ := hx; exact hp
  | cons l ls ih =>
    intro st h st' h' hr hp hx
    obtain ⟨w, ch⟩ := l
    simp only [execFrom] at hx
    cases hs : step env m alg st w ch with
    | none => rw [hs] at hx; simp at hx
    | some q =>
      rw [hs] at hx
      exact ih (reach_snoc hr hs) (hstep _ _ _ _ _ _ hr hp hs) hx

theorem Explores.mono {N' : Nat} (hX : Explores env m alg D k s0 dp tm tb N pa po) (hN : N' ≤ N) :
    Explores env m alg D k s0 dp tm tb N' pa po where
  sel := fun hr hb => hX.sel hr (le_trans hb hN)
  obs := hX.obs

/-- Expectations can be compared on what follows from the state. -/
theorem expect_le_from (hv : alg.Valid) (htb : Leftover tb) (ht : TableOk m tb) (hX : Explores env m alg D k s0 dp tm tb N pa po)
    {f g : St S A R X Y → List (Event S A R) → ℝ} (n : Nat) :
    ∀ {st h}, Reachable env m alg k s0 dp tm tb st h → trialsBegun h ≤ N →
    (∀ st' h' ls, execFrom env m alg st h ls = some (st', h') → Reachable env m alg k s0 dp tm tb st' h' → trialsBegun h' ≤ N → f st' h' ≤ g st' h') →
    expectAfter env m alg D N sched f n st h ≤ expectAfter env m alg D N sched g n st h := by
  induction n with
  | zero => intro st h hr hN hfg; exact hfg st h [] rfl hr hN
  | succ n ih =>
    intro st h hr hN hfg
    unfold expectAfter
    split
    · next hm =>
      have hw := mayRun_lt hr hm
      obtain ⟨hd, hgo⟩ := draws_ok hv htb ht hX hr hN hw
      refine mean1_le hd.nonneg ?_
      intro x hx hx0
      obtain ⟨st', e, he⟩ := hgo x hx hx0
      simp only [he]
      refine ih (reach_snoc hr he) (budget_step hm hN he) ?_
      intro st2 h2 ls hx2 hr2 hb2
      exact hfg st2 h2 ((sched h, x.1) :: ls) (by simp [execFrom, he, hx2]) hr2 hb2
    · exact ih hr hN hfg

/-- At rest the potential is simple. -/
theorem potH_rested (hv : alg.Valid) (htb : Leftover tb) (ht : TableOk m tb) (hp : ValidPlay env s0 play) (hl : dp + play.length ≤ m.maxDepth)
    (hr : Reachable env m alg k s0 dp tm tb st h) (hq : Quiescent st) :
    potH k play pa po h = (1 / 2) ^ (added play h + hits play h) * theta play pa po ^ strayed play h ∧
    trialsBegun h = strayed play h + added play h + hits play h := by
  have hoff : ∀ w ∈ Finset.range k, status play w h = .off := by
    intro w hw
    obtain ⟨p, hph⟩ := reach_phase hr (Finset.mem_range.1 hw)
    have := hq _ _ hph
    subst this
    exact reach_status (play := play) hv htb hr w _ hph
  have hbal := balance' hv htb ht hr hp hl
  rw [Finset.sum_eq_zero (fun w hw => by rw [act_of (hoff w hw)]; simp)] at hbal
  refine ⟨?_, hbal⟩
  unfold potH
  rw [Finset.prod_eq_one (fun w hw => by rw [factor_of (hoff w hw)])]
  ring

open Classical in
/-- The probability that a call that starts at rest ends without having followed the play. -/
theorem play_window (hv : alg.Valid) (htb : Leftover tb) (ht : TableOk m tb) (hX : Explores env m alg D k s0 dp tm tb N pa po)
    (P : Probs pa po) (hp : ValidPlay env s0 play) (hl : dp + play.length ≤ m.maxDepth)
    (hr : Reachable env m alg k s0 dp tm tb st h) (hq : Quiescent st) (hb : trialsBegun h ≤ N) (n : Nat) :
    expectAfter env m alg D N sched (fun st' h' => if Finished N st' h' ∧ hits play h' ≤ hits play h then 1 else 0) n st h ≤
      missBound (pa * po) play.length (N - trialsBegun h) := by
  have hθ := P.theta1 (play := play)
  obtain ⟨e1, e2⟩ := potH_rested (pa := pa) (po := po) hv htb ht hp hl hr hq
  have hpos : 0 < potH k play pa po h := by rw [e1]; positivity
  set b := missBound (pa * po) play.length (N - trialsBegun h) with hbd
  have hb0 : 0 ≤ b := by
    have := P.pow0 play.length
    rw [hbd]; unfold missBound
    positivity
  have hmul : b * ((1 / 2 : ℝ) ^ play.length * theta play pa po ^ (N - trialsBegun h - play.length)) = 1 := by
    rw [hbd]
    unfold missBound
    have : (1 + (pa * po) ^ play.length / 2) = theta play pa po := rfl
    rw [this]
    have e1 : theta play pa po ^ (N - trialsBegun h - play.length) ≠ 0 := by positivity
    have e2 : (2 : ℝ) ^ play.length * (1 / 2) ^ play.length = 1 := by rw [← mul_pow]; norm_num
    rw [div_mul_eq_mul_div, div_eq_one_iff_eq e1, ← mul_assoc, e2, one_mul]
  rcases Nat.lt_or_ge (N - trialsBegun h) play.length with hsmall | hbig
  · have h1 : (1 : ℝ) ≤ b := by
      rw [hbd]
      unfold missBound
      rw [show N - trialsBegun h - play.length = 0 by omega, pow_zero, div_one]
      exact one_le_pow₀ (by norm_num)
    refine le_trans (expect_le hv htb ht hX (g := fun _ _ => 1) (fun st' h' _ _ => by split <;> norm_num) n hr hb) ?_
    rw [expect_const hv htb ht hX 1 n hr hb]
    exact h1
  refine le_trans (expect_le hv htb ht hX (g := fun _ h' => (b / potH k play pa po h) * potH k play pa po h') ?_ n hr hb) ?_
  · intro st' h' hr' _
    split
    · next hf =>
      obtain ⟨⟨hq', hc⟩, hx⟩ := hf
      obtain ⟨f1, f2⟩ := potH_rested (pa := pa) (po := po) hv htb ht hp hl hr' hq'
      have hbg := (c13_root_visits hv htb hr' hq').2
      have hadd := added_le (play := play) hv htb hr'
      rw [div_mul_eq_mul_div, le_div_iff₀ hpos, one_mul, e1, f1]
      have h1 : (1 / 2 : ℝ) ^ play.length * (1 / 2) ^ (added play h + hits play h) ≤ (1 / 2) ^ (added play h' + hits play h') := by
        rw [← pow_add]
        exact pow_le_pow_of_le_one (by norm_num) (by norm_num) (by omega)
      have h2 : theta play pa po ^ (N - trialsBegun h - play.length) * theta play pa po ^ strayed play h ≤ theta play pa po ^ strayed play h' := by
        rw [← pow_add]
        exact pow_le_pow_right₀ hθ (by omega)
      calc (1 / 2 : ℝ) ^ (added play h + hits play h) * theta play pa po ^ strayed play h
          = b * (((1 / 2 : ℝ) ^ play.length * (1 / 2) ^ (added play h + hits play h)) *
            (theta play pa po ^ (N - trialsBegun h - play.length) * theta play pa po ^ strayed play h)) := by
              rw [show b * (((1 / 2 : ℝ) ^ play.length * (1 / 2) ^ (added play h + hits play h)) *
                (theta play pa po ^ (N - trialsBegun h - play.length) * theta play pa po ^ strayed play h)) =
                b * ((1 / 2 : ℝ) ^ play.length * theta play pa po ^ (N - trialsBegun h - play.length)) *
                ((1 / 2) ^ (added play h + hits play h) * theta play pa po ^ strayed play h) by ring, hmul, one_mul]
        _ ≤ _ := mul_le_mul_of_nonneg_left (mul_le_mul h1 h2 (by positivity) (by positivity)) hb0
    · exact mul_nonneg (div_nonneg hb0 hpos.le) (potH_nonneg P h')
  · rw [expect_mul]
    refine le_trans (mul_le_mul_of_nonneg_left (expect_drift hv htb ht hX (F := fun _ h => potH k play pa po h)
      (fun st h w hr hN hm => driftH hv htb ht P hX hp hl hr hN hm) n hr hb) (div_nonneg hb0 hpos.le)) ?_
    rw [div_mul_cancel₀ _ hpos.ne']

/-! ## A play that is followed -/

/-- In the piece `r` of the history the action of step `j` of the play was selected at the node the play leads to. -/
def SelIn (play : List (A × S)) (st : St S A R X Y) (r : List (Event S A R)) (j : Nat) : Prop :=
  ∃ a o w d c, play[j]? = some (a, o) ∧ Event.selected w d a c ∈ r ∧ Leads st st.root (play.take j) d

theorem SelIn.next {st st' : St S A R X Y} {r : List (Event S A R)} {j : Nat} (H : SelIn play st r j) (hle : Le st st') (e : Event S A R) :
    SelIn play st' (e :: r) j := by
  obtain ⟨a, o, w, d, c, h1, h2, h3⟩ := H
  exact ⟨a, o, w, d, c, h1, List.mem_cons_of_mem _ h2, by rw [hle.root]; exact h3.mono hle⟩

theorem hit_selected (hv : alg.Valid) (htb : Leftover tb) (ht : TableOk m tb) (hp : ValidPlay env s0 play) (hl : dp + play.length ≤ m.maxDepth)
    (hr : Reachable env m alg k s0 dp tm tb st h) (hq : Quiescent st) {ls : List (Nat × Choice S A)} {st' : St S A R X Y} {h' : List (Event S A R)}
    (hx : execFrom env m alg st h ls = some (st', h')) :
    ∃ r, h' = r ++ h ∧ (hits play h < hits play h' → ∀ j < play.length, SelIn play st' r j) := by
  have key := run_induct (env := env) (m := m) (alg := alg) (k := k) (s0 := s0) (dp := dp) (tm := tm) (tb := tb)
    (fun st' h' => ∃ r, h' = r ++ h ∧ (∀ w < k, ∀ i, status play w h' = .on i → ∀ j < i, SelIn play st' r j) ∧
      (∀ w < k, ∀ i, status play w h' = .pend i → ∀ j ≤ i, SelIn play st' r j) ∧
      (hits play h < hits play h' → ∀ j < play.length, SelIn play st' r j)) ?_ hr ?_ hx
  · obtain ⟨r, h1, _, _, h4⟩ := key
    exact ⟨r, h1, h4⟩
  · rintro st1 h1 w ch e st2 hr1 ⟨r, rfl, A1, A2, A3⟩ hs
    have E := (step_eff hs).2
    have hr2 := reach_snoc hr1 hs
    have hnc := safe_reach hv htb ht hr2
    have hle := le_eff E
    have hw := eff_lt hr1 E
    have hwk := eff_worker E
    have fromOn : ∀ {i}, status play w (r ++ h) = .on i → ∀ j < i, SelIn play st2 (e :: r) j := fun hi j hj => (A1 w hw _ hi j hj).next hle e
    have fromPend : ∀ {i}, status play w (r ++ h) = .pend i → ∀ j ≤ i, SelIn play st2 (e :: r) j := fun hi j hj => (A2 w hw _ hi j hj).next hle e
    have build : (∀ i, status play w (e :: (r ++ h)) = .on i → ∀ j < i, SelIn play st2 (e :: r) j) →
        (∀ i, status play w (e :: (r ++ h)) = .pend i → ∀ j ≤ i, SelIn play st2 (e :: r) j) →
        (hits play (e :: (r ++ h)) = hits play (r ++ h) ∨ ∀ j < play.length, SelIn play st2 (e :: r) j) →
        ∃ r', e :: (r ++ h) = r' ++ h ∧ (∀ w < k, ∀ i, status play w (e :: (r ++ h)) = .on i → ∀ j < i, SelIn play st2 r' j) ∧
          (∀ w < k, ∀ i, status play w (e :: (r ++ h)) = .pend i → ∀ j ≤ i, SelIn play st2 r' j) ∧
          (hits play h < hits play (e :: (r ++ h)) → ∀ j < play.length, SelIn play st2 r' j) := by
      intro b1 b2 b3
      refine ⟨e :: r, rfl, ?_, ?_, ?_⟩
      · intro v hvk i hi j hj
        by_cases hvw : v = w
        · subst hvw; exact b1 i hi j hj
        · rw [status_other (by rw [hwk]; exact Ne.symm hvw)] at hi
          exact (A1 v hvk i hi j hj).next hle e
      · intro v hvk i hi j hj
        by_cases hvw : v = w
        · subst hvw; exact b2 i hi j hj
        · rw [status_other (by rw [hwk]; exact Ne.symm hvw)] at hi
          exact (A2 v hvk i hi j hj).next hle e
      · intro hlt j hj
        rcases b3 with b3 | b3
        · rw [b3] at hlt
          exact (A3 hlt j hj).next hle e
        · exact b3 j hj
    rcases eff_move' hv htb hr1 hp hl hnc E with ⟨g1, g2, g3, g4, g5, g6⟩ | ⟨g1, g2, g3, g4, g5, g6⟩ |
      ⟨i, d, c, a, a0, o, g0, he, g1, g2, g3, g4, g5, g6⟩ | ⟨i, d, c, d', a, o, o0, rw', g, g0, he, g1, g2, g3, g4, g5, g6⟩ | ⟨g1, g2, g3, g4, g5, g6⟩
    · refine build ?_ ?_ (.inl g6)
      · intro i hi j hj
        rw [g2] at hi
        cases hi
        omega
      · intro i hi
        rw [g2] at hi
        cases hi
    · refine build ?_ ?_ (.inl g6) <;> · intro i hi; rw [g2] at hi; cases hi
    · refine build ?_ ?_ (.inl g6)
      · intro i' hi
        rw [g2] at hi
        split at hi <;> cases hi
      · intro i' hi j hj
        rw [g2] at hi
        split at hi
        · next ha =>
          subst ha
          cases hi
          rcases Nat.lt_or_ge j i with hlt | hge
          · exact fromOn g1 j hlt
          · obtain rfl : j = i := by omega
            have hcur : ∃ path rs new, st1.ws[w]? = some (.sel d path rs new) := by
              subst he
              cases E with
              | selOld hw => exact ⟨_, _, _, hw⟩
              | selNew hw => exact ⟨_, _, _, hw⟩
            obtain ⟨path, rs, new, hcur⟩ := hcur
            rcases reach_status (play := play) hv htb hr1 w _ hcur with H | ⟨i', q1, q2, q3, q4⟩
            · rw [g1] at H; cases H
            · rw [g1] at q2
              cases q2
              exact ⟨a, o, w, d, c, g0, by rw [he]; exact List.mem_cons_self .., by rw [hle.root]; exact q3.mono hle⟩
        · cases hi
    · refine build ?_ ?_ (.inl g6)
      · intro i' hi j hj
        rw [g2] at hi
        split at hi
        · cases hi
          exact fromPend g1 j (by omega)
        · cases hi
      · intro i' hi
        rw [g2] at hi
        split at hi <;> cases hi
    · refine build ?_ ?_ (.inr fun j hj => fromOn g1 j hj) <;> · intro i hi; rw [g2] at hi; cases hi
  · have hoff : ∀ w < k, status play w h = .off := by
      intro w hw
      obtain ⟨p, hph⟩ := reach_phase hr hw
      have := hq _ _ hph
      subst this
      exact reach_status (play := play) hv htb hr w _ hph
    refine ⟨[], rfl, ?_, ?_, fun hlt => absurd hlt (lt_irrefl _)⟩
    · intro w hw i hi; rw [hoff w hw] at hi; cases hi
    · intro w hw i hi; rw [hoff w hw] at hi; cases hi

/-! ## Several calls -/

variable {n : Nat} {scheds : Nat → Scheduler S A R}

theorem calls_add (f g : St S A R X Y → List (Event S A R) → ℝ) (c : Nat) : ∀ (i : Nat) (st : St S A R X Y) (h : List (Event S A R)),
    expectCalls env m alg D N n scheds (fun st h => f st h + g st h) c i st h =
      expectCalls env m alg D N n scheds f c i st h + expectCalls env m alg D N n scheds g c i st h := by
  induction c with
  | zero => intro i st h; rfl
  | succ c ih =>
    intro i st h
    unfold expectCalls
    rw [← expect_add]
    congr 1
    funext st h
    exact ih _ _ _

theorem calls_le (hv : alg.Valid) (htb : Leftover tb) (ht : TableOk m tb) {C : Nat} (hX : Explores env m alg D k s0 dp tm tb (C * N) pa po)
    {f g : St S A R X Y → List (Event S A R) → ℝ} (hfg : ∀ st h, Reachable env m alg k s0 dp tm tb st h → f st h ≤ g st h) (c : Nat) :
    ∀ {i : Nat} {st h}, i + c ≤ C → Reachable env m alg k s0 dp tm tb st h → trialsBegun h ≤ i * N →
    expectCalls env m alg D N n scheds f c i st h ≤ expectCalls env m alg D N n scheds g c i st h := by
  induction c with
  | zero => intro i st h _ hr _; exact hfg st h hr
  | succ c ih =>
    intro i st h hi hr hb
    unfold expectCalls
    have hX' := hX.mono (Nat.mul_le_mul_right N (show i + 1 ≤ C by omega))
    exact expect_le hv htb ht hX' (fun st h hr' hb' => ih (by omega) hr' hb') n hr (le_trans hb (Nat.mul_le_mul_right N (by omega)))

theorem calls_const (hv : alg.Valid) (htb : Leftover tb) (ht : TableOk m tb) {C : Nat} (hX : Explores env m alg D k s0 dp tm tb (C * N) pa po)
    (x : ℝ) (c : Nat) : ∀ {i : Nat} {st h}, i + c ≤ C → Reachable env m alg k s0 dp tm tb st h → trialsBegun h ≤ i * N →
    expectCalls env m alg D N n scheds (fun _ _ => x) c i st h = x := by
  induction c with
  | zero => intro i st h _ hr _; rfl
  | succ c ih =>
    intro i st h hi hr hb
    unfold expectCalls
    have hX' := hX.mono (Nat.mul_le_mul_right N (show i + 1 ≤ C by omega))
    have hb' := le_trans hb (Nat.mul_le_mul_right N (show i ≤ i + 1 by omega))
    refine le_antisymm ?_ ?_
    · refine le_trans (expect_le hv htb ht hX' (g := fun _ _ => x) (fun st h hr' hb' => le_of_eq (ih (by omega) hr' hb')) n hr hb') ?_
      rw [expect_const hv htb ht hX' x n hr hb']
    · refine le_trans ?_ (expect_le hv htb ht hX' (f := fun _ _ => x) (fun st h hr' hb' => le_of_eq (ih (by omega) hr' hb').symm) n hr hb')
      rw [expect_const hv htb ht hX' x n hr hb']

end

end Verif.Random
