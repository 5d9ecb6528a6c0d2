import Verif.Proofs.RandomEnd
import Verif.Spec.Stochastic

/-! # Random searches: how often a play is followed (C90) -/

set_option linter.unusedSectionVars false
set_option linter.unusedSimpArgs false

namespace Verif.Random

open Verif.Search Verif.Eval Verif.Spec

section
variable {S A R X Y : Type} [DecidableEq S] [DecidableEq A]

/-- Number of trials that followed the whole play along existing nodes. -/
def hits (play : List (A × S)) : List (Event S A R) → Nat
  | [] => 0
  | .selected w _ _ _ :: h => hits play h + match status play w h with
      | .on i => if i < play.length then 0 else 1
      | _ => 0
  | .ended w _ _ :: h => hits play h + match status play w h with
      | .on i => if i < play.length then 0 else 1
      | _ => 0
  | _ :: h => hits play h

/-- Number of trials that left the play before its end by choosing another action or observation. -/
def strayed (play : List (A × S)) : List (Event S A R) → Nat
  | [] => 0
  | .selected w _ a _ :: h => strayed play h + match status play w h with
      | .on i => if i < play.length then (if (play[i]?).map Prod.fst = some a then 0 else 1) else 0
      | _ => 0
  | .stepped w _ _ _ o _ _ _ :: h => strayed play h + match status play w h with
      | .pend i => if (play[i]?).map Prod.snd = some o then 0 else 1
      | _ => 0
  | _ :: h => strayed play h

variable [AddMonoid R] {env : Env S A R} {m : Manager S R} {alg : Alg S A R X Y} {k : Nat} {s0 : S} {dp tm : Int}
  {tb : List ((Int × S) × Option Nat)} {st : St S A R X Y} {h : List (Event S A R)} {play : List (A × S)}
  {D : Dice S A R X Y} {N : Nat} {pa po : ℝ} {sched : Scheduler S A R}

/-- A worker that is on the play and not at its end does not end its trial. -/
theorem on_continues' (hv : alg.Valid) (htb : Leftover tb) (hr : Reachable env m alg k s0 dp tm tb st h) (hp : ValidPlay env s0 play)
    (hl : dp + play.length ≤ m.maxDepth) {w cur i : Nat} {path : List (Nat × Nat)} {rs : List R} {new : Bool}
    (hw : st.ws[w]? = some (.sel cur path rs new)) (hs : status play w h = .on i) (hlt : i < play.length) :
    ∃ a o nd, play[i]? = some (a, o) ∧ st.dn[cur]? = some nd ∧ nd.state = endState s0 (play.take i) ∧ isLeaf env m nd = false ∧ new = false := by
  rcases reach_status (play := play) hv htb hr w _ hw with H | ⟨j, h1, h2, h3, h4⟩
  · rw [hs] at H; cases H
  · rw [hs] at h2
    cases h2
    obtain ⟨⟨a, o⟩, hi⟩ : ∃ x, play[i]? = some x := ⟨_, List.getElem?_eq_getElem hlt⟩
    have T := (reach_inv hv htb hr).tree
    obtain ⟨nr, g1, g2, g3, _⟩ := root_node T
    obtain ⟨nd, k1, k2, k3, _⟩ := h3.node T g1
    have hv := hp.at hi
    refine ⟨a, o, nd, hi, k1, by rw [k2, g2], ?_, h4⟩
    rw [g2] at k2
    rw [g3, List.length_take, Nat.min_eq_left hlt.le] at k3
    simp only [isLeaf, k2, hv.1, Bool.false_or, decide_eq_false_iff_not, not_le, k3]
    omega

/-- What an event of worker `w` does to the counts. -/
inductive Move' (play : List (A × S)) (w : Nat) (h : List (Event S A R)) (e : Event S A R) : Prop where
  | start (h1 : status play w h = .off) (h2 : status play w (e :: h) = .on 0) (h3 : trialsBegun (e :: h) = trialsBegun h + 1)
      (h4 : strayed play (e :: h) = strayed play h) (h5 : added play (e :: h) = added play h) (h6 : hits play (e :: h) = hits play h)
  | idle (h1 : status play w h = .off) (h2 : status play w (e :: h) = .off) (h3 : trialsBegun (e :: h) = trialsBegun h)
      (h4 : strayed play (e :: h) = strayed play h) (h5 : added play (e :: h) = added play h) (h6 : hits play (e :: h) = hits play h)
  | sel (i d c : Nat) (a a0 : A) (o : S) (h0 : play[i]? = some (a0, o)) (he : e = .selected w d a c) (h1 : status play w h = .on i)
      (h2 : status play w (e :: h) = if a = a0 then .pend i else .off) (h3 : trialsBegun (e :: h) = trialsBegun h)
      (h4 : strayed play (e :: h) = strayed play h + if a = a0 then 0 else 1) (h5 : added play (e :: h) = added play h)
      (h6 : hits play (e :: h) = hits play h)
  | stp (i d c d' : Nat) (a : A) (o o0 : S) (r : R) (g : Bool) (h0 : play[i]? = some (a, o0)) (he : e = .stepped w d a c o d' r g)
      (h1 : status play w h = .pend i)
      (h2 : status play w (e :: h) = if o = o0 ∧ g = false then .on (i + 1) else .off) (h3 : trialsBegun (e :: h) = trialsBegun h)
      (h4 : strayed play (e :: h) = strayed play h + if o = o0 then 0 else 1)
      (h5 : added play (e :: h) = added play h + if o = o0 ∧ g = true then 1 else 0) (h6 : hits play (e :: h) = hits play h)
  | fin (h1 : status play w h = .on play.length) (h2 : status play w (e :: h) = .off) (h3 : trialsBegun (e :: h) = trialsBegun h)
      (h4 : strayed play (e :: h) = strayed play h) (h5 : added play (e :: h) = added play h) (h6 : hits play (e :: h) = hits play h + 1)

theorem eff_move' (hv : alg.Valid) (htb : Leftover tb) (hr : Reachable env m alg k s0 dp tm tb st h) (hp : ValidPlay env s0 play)
    (hl : dp + play.length ≤ m.maxDepth) {st' : St S A R X Y} {w : Nat} {e : Event S A R}
    (hnc : st'.crashed = none) (E : Eff env m alg st w e st') : Move' play w h e := by
  have hst := reach_status (play := play) hv htb hr
  have sel : ∀ {cur path rs new a c}, st.ws[w]? = some (.sel cur path rs new) → Move' play w h (.selected w cur a c) := by
    intro cur path rs new a c hw
    rcases hst w _ hw with H | ⟨i, h1, h2, h3, h4⟩
    · exact .idle H (by simp [status, H]) (by simp [trialsBegun]) (by simp [strayed, H]) (by simp [added]) (by simp [hits, H])
    · rcases Nat.lt_or_ge i play.length with hlt | hge
      · obtain ⟨a0, o, nd, g1, _⟩ := on_continues' hv htb hr hp hl hw h2 hlt
        exact .sel i cur c a a0 o g1 rfl h2 (by simp [status, h2, g1, eq_comm]) (by simp [trialsBegun]) (by simp only [strayed, h2, hlt, if_true, g1, Option.map_some, Option.some.injEq, eq_comm])
          (by simp [added]) (by simp [hits, h2, hlt])
      · obtain rfl : i = play.length := by omega
        exact .fin h2 (by simp [status, h2]) (by simp [trialsBegun]) (by simp [strayed, h2]) (by simp [added]) (by simp [hits, h2])
  have stp : ∀ {cur a c path rs new o d' r g}, st.ws[w]? = some (.samp cur a c path rs new) → Move' play w h (.stepped w cur a c o d' r g) := by
    intro cur a c path rs new o d' r g hw
    rcases hst w _ hw with H | ⟨i, o0, h1, h2, h3, h4⟩
    · exact .idle H (by simp [status, H]) (by simp [trialsBegun]) (by simp [strayed, H]) (by simp [added, H]) (by simp [hits])
    · exact .stp i cur c d' a o o0 r g h1 rfl h2 (by simp [status, h2, h1, eq_comm]) (by simp [trialsBegun]) (by simp [strayed, h2, h1, eq_comm])
        (by simp [added, h2, h1, eq_comm]) (by simp [hits])
  have quiet : ∀ {e : Event S A R}, status play w h = .off → status play w (e :: h) = status play w h →
      trialsBegun (e :: h) = trialsBegun h → strayed play (e :: h) = strayed play h → added play (e :: h) = added play h →
      hits play (e :: h) = hits play h → Move' play w h e := fun h1 h2 h3 h4 h5 h6 => .idle h1 (by rw [h2, h1]) h3 h4 h5 h6
  cases E with
  | crash hx => simp at hnc
  | began hw => exact .start (hst w _ hw) (by simp [status]) (by simp [trialsBegun]) (by simp [strayed]) (by simp [added]) (by simp [hits])
  | selOld hw => exact sel hw
  | selNew hw => exact sel hw
  | @ended cur path rs new nd hw hd hs =>
    rcases hst w _ hw with H | ⟨i, h1, h2, h3, h4⟩
    · exact .idle H (by simp [status]) (by simp [trialsBegun]) (by simp [strayed]) (by simp [added]) (by simp [hits, H])
    · rcases Nat.lt_or_ge i play.length with hlt | hge
      · obtain ⟨a0, o, nd', g1, g2, g3, g4, g5⟩ := on_continues' hv htb hr hp hl hw h2 hlt
        rw [hd] at g2
        obtain rfl := Option.some.inj g2
        subst g5
        simp [g4] at hs
      · obtain rfl : i = play.length := by omega
        exact .fin h2 (by simp [status]) (by simp [trialsBegun]) (by simp [strayed]) (by simp [added]) (by simp [hits, h2])
  | stepOld hw => exact stp hw
  | stepNew hw => exact stp hw
  | stepHit hw => exact stp hw
  | completed hw => exact quiet (hst w _ hw) rfl (by simp [trialsBegun]) (by simp [strayed]) (by simp [added]) (by simp [hits])
  | backedC hw => exact quiet (hst w _ hw) rfl (by simp [trialsBegun]) (by simp [strayed]) (by simp [added]) (by simp [hits])
  | backedD hw => exact quiet (hst w _ hw) rfl (by simp [trialsBegun]) (by simp [strayed]) (by simp [added]) (by simp [hits])

/-- Every trial has strayed, or has added a node of the play, or has followed it to its end, or is still on it. -/
theorem balance' (hv : alg.Valid) (htb : Leftover tb) (ht : TableOk m tb) (hr : Reachable env m alg k s0 dp tm tb st h) (hp : ValidPlay env s0 play)
    (hl : dp + play.length ≤ m.maxDepth) :
    trialsBegun h = strayed play h + added play h + hits play h + ∑ w ∈ Finset.range k, act play h w := by
  have := reach_induct (alg := alg) (fun st h => st.crashed = none →
    trialsBegun h = strayed play h + added play h + hits play h + ∑ w ∈ Finset.range k, act play h w)
    (by
      intro _
      have : ∑ w ∈ Finset.range k, act play ([] : List (Event S A R)) w = 0 := Finset.sum_eq_zero fun w _ => by simp [act, status]
      rw [this]; simp [trialsBegun, strayed, added, hits])
    (by
      intro st h w e st' hr ih hc E hc'
      have h0 := ih hc
      have hw := eff_lt hr E
      have hsum := sum_change' hw (f := act play h) (g := act play (e :: h)) (fun v hvw => by
        unfold act
        rw [status_other (by rw [eff_worker E]; exact Ne.symm hvw)])
      rcases eff_move' hv htb hr hp hl hc' E with ⟨h1, h2, h3, h4, h5, h6⟩ | ⟨h1, h2, h3, h4, h5, h6⟩ | ⟨i, d, c, a, a0, o, _, _, h1, h2, h3, h4, h5, h6⟩ |
        ⟨i, d, c, d', a, o, o0, r, g, _, _, h1, h2, h3, h4, h5, h6⟩ | ⟨h1, h2, h3, h4, h5, h6⟩
      · rw [act_of h1, act_of h2] at hsum; simp at hsum; omega
      · rw [act_of h1, act_of h2] at hsum; simp at hsum; omega
      · by_cases ha : a = a0
        · simp only [ha, if_true] at h2 h4
          rw [act_of h1, act_of h2] at hsum; simp at hsum; omega
        · simp only [ha, if_false] at h2 h4
          rw [act_of h1, act_of h2] at hsum; simp at hsum; omega
      · by_cases ho : o = o0
        · cases g
          · simp only [ho, if_true, true_and, Bool.false_eq_true, if_false] at h2 h4 h5
            rw [act_of h1, act_of h2] at hsum; simp at hsum; omega
          · simp only [ho, if_true, true_and, Bool.true_eq_false, if_false] at h2 h4 h5
            rw [act_of h1, act_of h2] at hsum; simp at hsum; omega
        · simp only [ho, if_false, false_and] at h2 h4 h5
          rw [act_of h1, act_of h2] at hsum; simp at hsum; omega
      · rw [act_of h1, act_of h2] at hsum; simp at hsum; omega)
    hr
  exact this (safe_reach hv htb ht hr)

/-! ## The potential -/

variable (play pa po k) in
/-- The potential: it goes up when a trial leaves the play and down when it follows it to its end or finds a new node of the play; on average it
does not go up. -/
noncomputable def potH (h : List (Event S A R)) : ℝ :=
  (1 / 2) ^ (added play h + hits play h) * theta play pa po ^ strayed play h * ∏ w ∈ Finset.range k, factor play pa po h w

variable (play pa po k) in
noncomputable def restH (h : List (Event S A R)) (w : Nat) : ℝ :=
  (1 / 2) ^ (added play h + hits play h) * theta play pa po ^ strayed play h * ∏ v ∈ (Finset.range k).erase w, factor play pa po h v

theorem potH_rest {w : Nat} (hw : w < k) : potH k play pa po h = restH k play pa po h w * factor play pa po h w := by
  unfold potH restH
  rw [← Finset.mul_prod_erase _ _ (Finset.mem_range.2 hw)]
  ring

theorem potH_cons {w : Nat} (hw : w < k) {e : Event S A R} (he : e.worker = w) {x y : Nat}
    (hx : added play (e :: h) + hits play (e :: h) = added play h + hits play h + x)
    (hy : strayed play (e :: h) = strayed play h + y) :
    potH k play pa po (e :: h) = restH k play pa po h w * ((1 / 2) ^ x * theta play pa po ^ y * factor play pa po (e :: h) w) := by
  rw [potH_rest hw]
  have : restH k play pa po (e :: h) w = restH k play pa po h w * ((1 / 2) ^ x * theta play pa po ^ y) := by
    unfold restH
    rw [hx, hy, pow_add _ _ x, pow_add _ _ y]
    have : ∏ v ∈ (Finset.range k).erase w, factor play pa po (e :: h) v = ∏ v ∈ (Finset.range k).erase w, factor play pa po h v := by
      refine Finset.prod_congr rfl fun v hv => ?_
      unfold factor
      rw [status_other (by rw [he]; exact Ne.symm (Finset.ne_of_mem_erase hv))]
    rw [this]
    ring
  rw [this]
  ring

theorem restH_nonneg (P : Probs pa po) (h : List (Event S A R)) (w : Nat) : 0 ≤ restH k play pa po h w := by
  have ht := P.theta1 (play := play)
  unfold restH
  exact mul_nonneg (by positivity) (Finset.prod_nonneg fun v _ => factor_nonneg P h v)

theorem potH_nonneg (P : Probs pa po) (h : List (Event S A R)) : 0 ≤ potH k play pa po h := by
  have ht := P.theta1 (play := play)
  unfold potH
  exact mul_nonneg (by positivity) (Finset.prod_nonneg fun v _ => factor_nonneg P h v)

/-- On average the potential does not go up. -/
theorem driftH (hv : alg.Valid) (htb : Leftover tb) (ht : TableOk m tb) (P : Probs pa po) (X : Explores env m alg D k s0 dp tm tb N pa po)
    (hp : ValidPlay env s0 play) (hl : dp + play.length ≤ m.maxDepth) (hr : Reachable env m alg k s0 dp tm tb st h) (hN : trialsBegun h ≤ N)
    {w : Nat} (hm : mayRun N st h w) :
    (mean1 (draws env m alg D st w) fun ch => match step env m alg st w ch with
      | none => potH k play pa po h
      | some (_, e) => potH k play pa po (e :: h)) ≤ potH k play pa po h := by
  have hw := mayRun_lt hr hm
  obtain ⟨hd, hgo⟩ := draws_ok hv htb ht X hr hN hw
  have hθ := P.theta1 (play := play)
  have E : ∀ {st' ch e}, step env m alg st w ch = some (st', e) → Eff env m alg st w e st' := fun h => (step_eff h).2
  have hstep : ∀ {st' ch e}, step env m alg st w ch = some (st', e) → st'.crashed = none := fun h =>
    safe_reach hv htb ht (reach_snoc hr h)
  have hg : potH k play pa po h = restH k play pa po h w * factor play pa po h w := potH_rest hw
  refine le_trans ?_ (le_of_eq hg.symm)
  have hR := restH_nonneg (k := k) (play := play) P h w
  have key : ∀ (g : Choice S A → ℝ), (∀ x ∈ draws env m alg D st w, x.2 ≠ 0 → ∀ st' e, step env m alg st w x.1 = some (st', e) →
      potH k play pa po (e :: h) ≤ restH k play pa po h w * g x.1) → mean1 (draws env m alg D st w) g ≤ factor play pa po h w →
      (mean1 (draws env m alg D st w) fun ch => match step env m alg st w ch with
        | none => potH k play pa po h
        | some (_, e) => potH k play pa po (e :: h)) ≤ restH k play pa po h w * factor play pa po h w := by
    intro g h1 h2
    refine le_trans (mean1_le hd.nonneg (g := fun ch => restH k play pa po h w * g ch) ?_) ?_
    · intro x hx' hx0
      obtain ⟨st', e, he⟩ := hgo x hx' hx0
      simp only [he]
      exact h1 x hx' hx0 st' e he
    · rw [mean1_mul]
      exact mul_le_mul_of_nonneg_left h2 hR
  obtain ⟨p, hph⟩ := reach_phase hr hw
  have hsi := reach_status (play := play) hv htb hr w p hph
  cases hs : status play w h with
  | off =>
    refine key (fun _ => 1) ?_ (by rw [mean1_const hd, factor_of hs])
    intro x hx' hx0 st' e he
    have he' := E he
    have hwk := eff_worker he'
    rcases eff_move' hv htb hr hp hl (hstep he) he' with ⟨h1, h2, h3, h4, h5, h6⟩ | ⟨h1, h2, h3, h4, h5, h6⟩ |
      ⟨i, d, c, a, a0, o, _, _, h1, h2, h3, h4, h5, h6⟩ | ⟨i, d, c, d', a, o, o0, r, g, _, _, h1, h2, h3, h4, h5, h6⟩ | ⟨h1, h2, h3, h4, h5, h6⟩
    · rw [potH_cons hw hwk (x := 0) (y := 0) (by omega) h4, factor_of h2]
      refine mul_le_mul_of_nonneg_left ?_ hR
      simp only [pow_zero, one_mul, Nat.sub_zero, val, theta]
      have := P.pow0 play.length
      nlinarith
    · rw [potH_cons hw hwk (x := 0) (y := 0) (by omega) h4, factor_of h2]
      simp
    · rw [hs] at h1; cases h1
    · rw [hs] at h1; cases h1
    · rw [hs] at h1; cases h1
  | on i =>
    obtain ⟨cur, path, rs, new, rfl⟩ : ∃ cur path rs new, p = .sel cur path rs new := by
      cases p with
      | sel cur path rs new => exact ⟨_, _, _, _, rfl⟩
      | samp =>
        rcases hsi with H | ⟨_, _, _, H, _⟩ <;> rw [hs] at H <;> cases H
      | idle | back | backD => have : status play w h = .off := hsi; rw [hs] at this; cases this
    rcases Nat.lt_or_ge i play.length with hlt | hge
    · obtain ⟨a0, o0, nd, g1, g2, g3, g4, g5⟩ := on_continues' hv htb hr hp hl hph hs hlt
      have hsc : shouldContinue env m nd new = true := by simp [shouldContinue, g4, g5]
      obtain ⟨x1, x2, x3⟩ := X.sel hr hN hph g2 hsc
      have hv3 := hp.at g1
      have hdr : draws env m alg D st w = (D.sel (viewOf env m st { nd with visits := nd.visits + 1, x := alg.visitD false nd.x }) (st.ctxOf w)).map
          fun p => (.act p.1, p.2) := by
        unfold draws
        simp only [hph, g2, hsc, if_true]
      have hr0 := mul_nonneg P.po0 (P.pow0 (play.length - i - 1))
      refine key (fun ch => match ch with
        | .act a => if a = a0 then val (theta play pa po) (po * (pa * po) ^ (play.length - i - 1)) else theta play pa po
        | _ => 0) ?_ ?_
      · intro x hx' hx0 st' e he
        have he' := E he
        have hwk := eff_worker he'
        have hch := step_choice he
        rcases eff_move' hv htb hr hp hl (hstep he) he' with ⟨h1, h2, h3, h4, h5, h6⟩ | ⟨h1, h2, h3, h4, h5, h6⟩ |
          ⟨j, d, c, a, a1, o, hj, hev, h1, h2, h3, h4, h5, h6⟩ | ⟨j, d, c, d', a, o, o1, r, g, _, _, h1, h2, h3, h4, h5, h6⟩ | ⟨h1, h2, h3, h4, h5, h6⟩
        · rw [hs] at h1; cases h1
        · rw [hs] at h1; cases h1
        · rw [hs] at h1
          cases h1
          rw [g1] at hj
          cases hj
          rw [hch.1 _ _ _ _ hev]
          refine le_of_eq ?_
          by_cases ha : a = a0
          · subst ha
            simp only [if_true] at h2 h4 ⊢
            rw [potH_cons hw hwk (x := 0) (y := 0) (by omega) h4, factor_of h2]
            simp
          · simp only [ha, if_false] at h2 h4 ⊢
            rw [potH_cons hw hwk (x := 0) (y := 1) (by omega) h4, factor_of h2]
            simp
        · rw [hs] at h1; cases h1
        · rw [hs] at h1
          cases h1
          omega
      · rw [hdr, mean1_map, factor_of hs]
        refine le_trans (mean1_two_le x1 (x3 a0 (by rw [g3]; exact hv3.2.1)) (val_le hθ hr0)) (le_of_eq ?_)
        have : play.length - i = play.length - i - 1 + 1 := by omega
        simp only [val]
        rw [this, pow_succ]
        simp only [Nat.add_sub_cancel]
        ring
    · refine key (fun _ => 1 / 2) ?_ ?_
      · intro x hx' hx0 st' e he
        have he' := E he
        have hwk := eff_worker he'
        rcases eff_move' hv htb hr hp hl (hstep he) he' with ⟨h1, h2, h3, h4, h5, h6⟩ | ⟨h1, h2, h3, h4, h5, h6⟩ |
          ⟨j, d, c, a, a1, o, hj, hev, h1, h2, h3, h4, h5, h6⟩ | ⟨j, d, c, d', a, o, o1, r, g, _, _, h1, h2, h3, h4, h5, h6⟩ | ⟨h1, h2, h3, h4, h5, h6⟩
        · rw [hs] at h1; cases h1
        · rw [hs] at h1; cases h1
        · rw [hs] at h1
          cases h1
          have := (List.getElem?_eq_some_iff.1 hj).1
          omega
        · rw [hs] at h1; cases h1
        · rw [potH_cons hw hwk (x := 1) (y := 0) (by omega) h4, factor_of h2]
          simp
      · rw [mean1_const hd, factor_of hs]
        have : play.length - i = 0 := by omega
        simp only [this, pow_zero, val]
        linarith
  | pend i =>
    obtain ⟨cur, a, c, path, rs, new, rfl⟩ : ∃ cur a c path rs new, p = .samp cur a c path rs new := by
      cases p with
      | samp cur a c path rs new => exact ⟨_, _, _, _, _, _, rfl⟩
      | sel =>
        rcases hsi with H | ⟨_, _, H, _⟩ <;> rw [hs] at H <;> cases H
      | idle | back | backD => have : status play w h = .off := hsi; rw [hs] at this; cases this
    obtain ⟨o0, nc, g1, g2, g3, g4, g5, g6⟩ := samp_node hv htb hr hph hs
    have hv3 := hp.at g1
    have hil : i < play.length := (List.getElem?_eq_some_iff.1 g1).1
    obtain ⟨x1, x2, x3⟩ := X.obs nc.state nc.action (by rw [g3]; exact hv3.1) (by rw [g3, g4]; exact hv3.2.1)
    have hdr : draws env m alg D st w = (D.obs nc.state nc.action).map fun p => (.obs p.1, p.2) := by
      unfold draws
      simp only [hph, g2]
    refine key (fun ch => match ch with
      | .obs o => if o = o0 then val (theta play pa po) ((pa * po) ^ (play.length - i - 1)) else theta play pa po
      | _ => 0) ?_ ?_
    · intro x hx' hx0 st' e he
      have he' := E he
      have hwk := eff_worker he'
      have hch := step_choice he
      rcases eff_move' hv htb hr hp hl (hstep he) he' with ⟨h1, h2, h3, h4, h5, h6⟩ | ⟨h1, h2, h3, h4, h5, h6⟩ |
        ⟨j, d, c, a, a1, o, hj, hev, h1, h2, h3, h4, h5, h6⟩ | ⟨j, d, c, d', a', o, o1, r, g, hj, hev, h1, h2, h3, h4, h5, h6⟩ | ⟨h1, h2, h3, h4, h5, h6⟩
      · rw [hs] at h1; cases h1
      · rw [hs] at h1; cases h1
      · rw [hs] at h1; cases h1
      · rw [hs] at h1
        cases h1
        rw [g1] at hj
        cases hj
        rw [hch.2 _ _ _ _ _ _ _ _ hev]
        by_cases ho : o = o0
        · subst ho
          cases g
          · simp only [if_true, true_and, and_true, Bool.false_eq_true, if_false] at h2 h4 h5 ⊢
            rw [potH_cons hw hwk (x := 0) (y := 0) (by omega) h4, factor_of h2]
            simp [Nat.sub_sub]
          · simp only [if_true, true_and, and_true, Bool.true_eq_false, if_false] at h2 h4 h5 ⊢
            rw [potH_cons hw hwk (x := 1) (y := 0) (by omega) h4, factor_of h2]
            refine mul_le_mul_of_nonneg_left ?_ hR
            simpa using half_le_val hθ (P.pow1 (play.length - i - 1))
        · simp only [ho, if_false, false_and] at h2 h4 h5 ⊢
          rw [potH_cons hw hwk (x := 0) (y := 1) (by omega) h4, factor_of h2]
          simp
      · rw [hs] at h1; cases h1
    · rw [hdr, mean1_map, factor_of hs]
      refine le_trans (mean1_two_le x1 (x3 o0 (by rw [g3, g4]; exact hv3.2.2)) (val_le hθ (P.pow0 _))) (le_of_eq ?_)
      simp only [val]
      ring

/-- What does not go up on average in a step does not go up on average in any number of steps. -/
theorem expect_drift (hv : alg.Valid) (htb : Leftover tb) (ht : TableOk m tb) (hX : Explores env m alg D k s0 dp tm tb N pa po)
    {F : St S A R X Y → List (Event S A R) → ℝ}
    (hF : ∀ st h w, Reachable env m alg k s0 dp tm tb st h → trialsBegun h ≤ N → mayRun N st h w →
      (mean1 (draws env m alg D st w) fun ch => match step env m alg st w ch with
        | none => F st h
        | some (st', e) => F st' (e :: h)) ≤ F st h) (n : Nat) :
    ∀ {st h}, Reachable env m alg k s0 dp tm tb st h → trialsBegun h ≤ N → expectAfter env m alg D N sched F n st h ≤ F st h := by
  induction n with
  | zero => intro st h _ _; exact le_rfl
  | succ n ih =>
    intro st h hr hN
    unfold expectAfter
    split
    · next hm =>
      have hw := mayRun_lt hr hm
      obtain ⟨hd, hgo⟩ := draws_ok hv htb ht hX hr hN hw
      refine le_trans (mean1_le hd.nonneg (g := fun ch => match step env m alg st (sched h) ch with
        | none => F st h
        | some (st', e) => F st' (e :: h)) ?_) (hF st h _ hr hN hm)
      intro x hx hx0
      obtain ⟨st', e, he⟩ := hgo x hx hx0
      simp only [he]
      exact ih (reach_snoc hr he) (budget_step hm hN he)
    · exact ih hr hN

theorem potH_finished (hv : alg.Valid) (htb : Leftover tb) (ht : TableOk m tb) (P : Probs pa po)
    (hp : ValidPlay env s0 play) (hl : dp + play.length ≤ m.maxDepth) (hr : Reachable env m alg k s0 dp tm tb st h) (hf : Finished N st h)
    {M : Nat} (hx : hits play h ≤ M) : 1 ≤ rareBound (pa * po) play.length M N * potH k play pa po h := by
  have hθ := P.theta1 (play := play)
  obtain ⟨hq, hc⟩ := hf
  have hb := (c13_root_visits hv htb hr hq).2
  have hoff : ∀ w ∈ Finset.range k, status play w h = .off := by
    intro w hw
    obtain ⟨p, hph⟩ := reach_phase hr (Finset.mem_range.1 hw)
    have := hq _ _ hph
    subst this
    exact reach_status (play := play) hv htb hr w _ hph
  have hbal := balance' hv htb ht hr hp hl
  rw [Finset.sum_eq_zero (fun w hw => by rw [act_of (hoff w hw)]; simp)] at hbal
  have hadd := added_le (play := play) hv htb hr
  have hg : potH k play pa po h = (1 / 2) ^ (added play h + hits play h) * theta play pa po ^ strayed play h := by
    unfold potH
    rw [Finset.prod_eq_one (fun w hw => by rw [factor_of (hoff w hw)])]
    ring
  rw [hg]
  have h1 : (1 / 2 : ℝ) ^ (play.length + M) ≤ (1 / 2) ^ (added play h + hits play h) := pow_le_pow_of_le_one (by norm_num) (by norm_num) (by omega)
  have h2 : theta play pa po ^ (N - (play.length + M)) ≤ theta play pa po ^ strayed play h := pow_le_pow_right₀ hθ (by omega)
  have h3 : (1 / 2 : ℝ) ^ (play.length + M) * theta play pa po ^ (N - (play.length + M)) ≤
      (1 / 2) ^ (added play h + hits play h) * theta play pa po ^ strayed play h :=
    mul_le_mul h1 h2 (by positivity) (by positivity)
  have h4 : rareBound (pa * po) play.length M N * ((1 / 2 : ℝ) ^ (play.length + M) * theta play pa po ^ (N - (play.length + M))) = 1 := by
    unfold rareBound
    have : (1 + (pa * po) ^ play.length / 2) = theta play pa po := rfl
    rw [this]
    have e1 : theta play pa po ^ (N - (play.length + M)) ≠ 0 := by positivity
    have e2 : (2 : ℝ) ^ (play.length + M) * (1 / 2) ^ (play.length + M) = 1 := by rw [← mul_pow]; norm_num
    rw [div_mul_eq_mul_div, div_eq_one_iff_eq e1, ← mul_assoc, e2, one_mul]
  have h5 : 0 ≤ rareBound (pa * po) play.length M N := by
    have := P.pow0 play.length
    unfold rareBound
    positivity
  calc (1 : ℝ) = _ := h4.symm
    _ ≤ _ := mul_le_mul_of_nonneg_left h3 h5

theorem potH_start : potH k play pa po ([] : List (Event S A R)) = 1 := by
  unfold potH
  rw [Finset.prod_eq_one (fun w _ => by simp [factor, status])]
  simp [added, strayed, hits]

/-- The probability that all trials are over and yet the play has been followed at most `M` times. -/
theorem play_rare (hv : alg.Valid) (htb : Leftover tb) (ht : TableOk m tb) (hX : Explores env m alg D k s0 dp tm tb N pa po)
    (hpa : 0 ≤ pa ∧ pa ≤ 1) (hpo : 0 ≤ po ∧ po ≤ 1) (hp : ValidPlay env s0 play) (hl : dp + play.length ≤ m.maxDepth) (M n : Nat) :
    probAfter env m alg D k s0 dp tm tb N sched n (fun st h => Finished N st h ∧ hits play h ≤ M) ≤ rareBound (pa * po) play.length M N := by
  classical
  have P : Probs pa po := ⟨hpa.1, hpa.2, hpo.1, hpo.2⟩
  have hb : trialsBegun ([] : List (Event S A R)) ≤ N := by simp [trialsBegun]
  have hm0 : 0 ≤ rareBound (pa * po) play.length M N := by
    have := P.pow0 play.length
    unfold rareBound
    positivity
  unfold probAfter
  refine le_trans (expect_le hv htb ht hX (g := fun _ h => rareBound (pa * po) play.length M N * potH k play pa po h) ?_ n reach_start hb) ?_
  · intro st h hr _
    split
    · next hf => exact potH_finished hv htb ht P hp hl hr hf.1 hf.2
    · exact mul_nonneg hm0 (potH_nonneg P h)
  · rw [expect_mul]
    refine le_trans (mul_le_mul_of_nonneg_left (expect_drift hv htb ht hX (F := fun _ h => potH k play pa po h)
      (fun st h w hr hN hm => driftH hv htb ht P hX hp hl hr hN hm) n reach_start hb) hm0) ?_
    rw [potH_start, mul_one]

theorem rareBound_mono {p : ℝ} (h0 : 0 ≤ p) (h1 : p ≤ 1) {L L' : Nat} (hL : L ≤ L') (M N : Nat) : rareBound p L M N ≤ rareBound p L' M N := by
  unfold rareBound
  have a0 : (0 : ℝ) ≤ p ^ L' := pow_nonneg h0 _
  have a1 : p ^ L' ≤ p ^ L := pow_le_pow_of_le_one h0 h1 hL
  have e1 : (2 : ℝ) ^ (L + M) ≤ 2 ^ (L' + M) := pow_le_pow_right₀ (by norm_num) (by omega)
  have e2 : (1 + p ^ L' / 2) ^ (N - (L' + M)) ≤ (1 + p ^ L / 2) ^ (N - (L + M)) :=
    le_trans (pow_le_pow_left₀ (by positivity) (by linarith) _) (pow_le_pow_right₀ (by linarith) (by omega))
  exact div_le_div₀ (by positivity) e1 (by positivity) e2

/-! ## Hits and visits -/

/-- A trial that followed the play to its end visited the node there. -/
theorem hits_visits (hv : alg.Valid) (htb : Leftover tb) (hr : Reachable env m alg k s0 dp tm tb st h) :
    hits play h = 0 ∨ ∃ e, Leads st st.root play e ∧ hits play h ≤ h.countP (Event.selAt e) + h.countP (Event.endAt e) := by
  refine reach_induct (fun st h => hits play h = 0 ∨ ∃ e, Leads st st.root play e ∧
    hits play h ≤ h.countP (Event.selAt e) + h.countP (Event.endAt e)) (.inl rfl) ?_ hr
  intro st h w e st' hr ih hc E
  have hle := le_eff E
  have hst := reach_status (play := play) hv htb hr
  have same : hits play (e :: h) = hits play h → hits play (e :: h) = 0 ∨ ∃ x, Leads st' st'.root play x ∧
      hits play (e :: h) ≤ (e :: h).countP (Event.selAt x) + (e :: h).countP (Event.endAt x) := by
    intro he
    rw [he]
    rcases ih with h0 | ⟨x, h1, h2⟩
    · exact .inl h0
    · refine .inr ⟨x, by rw [hle.root]; exact h1.mono hle, ?_⟩
      have a1 : h.countP (Event.selAt x) ≤ (e :: h).countP (Event.selAt x) := by rw [List.countP_cons]; omega
      have a2 : h.countP (Event.endAt x) ≤ (e :: h).countP (Event.endAt x) := by rw [List.countP_cons]; omega
      omega
  have hit : ∀ {cur path rs new}, st.ws[w]? = some (.sel cur path rs new) →
      hits play (e :: h) = (hits play h + match status play w h with
        | .on i => if i < play.length then 0 else 1
        | _ => 0) → (e :: h).countP (Event.selAt cur) + (e :: h).countP (Event.endAt cur) =
          h.countP (Event.selAt cur) + h.countP (Event.endAt cur) + 1 →
      hits play (e :: h) = 0 ∨ ∃ x, Leads st' st'.root play x ∧
        hits play (e :: h) ≤ (e :: h).countP (Event.selAt x) + (e :: h).countP (Event.endAt x) := by
    intro cur path rs new hw he hcnt
    rcases hst w _ hw with H | ⟨i, h1, h2, h3, _⟩
    · exact same (by rw [he, H]; rfl)
    · rcases Nat.lt_or_ge i play.length with hlt | hge
      · exact same (by rw [he, h2]; simp [hlt])
      · rw [List.take_of_length_le hge] at h3
        rw [h2] at he
        simp only [show ¬ i < play.length by omega, if_false] at he
        refine .inr ⟨cur, by rw [hle.root]; exact h3.mono hle, ?_⟩
        rcases ih with h0 | ⟨x, g1, g2⟩
        · omega
        · obtain rfl := h3.unique g1
          omega
  cases E with
  | selOld hw => exact hit hw rfl (by simp [List.countP_cons, Event.selAt, Event.endAt]; omega)
  | selNew hw => exact hit hw rfl (by simp [List.countP_cons, Event.selAt, Event.endAt]; omega)
  | ended hw => exact hit hw rfl (by simp [List.countP_cons, Event.selAt, Event.endAt]; omega)
  | _ => exact same rfl

end

end Verif.Random
