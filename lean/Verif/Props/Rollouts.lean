import Verif.Proofs.Rollouts
import Verif.Proofs.Erase
import Mathlib.Algebra.Order.BigOperators.Group.Finset

/-! # Property C73: Monte-Carlo evaluation is unbiased -/

set_option linter.unusedSectionVars false

namespace Verif.Eval

open Verif.Search Verif.Sampling

variable {S A X Y : Type} [DecidableEq S] [DecidableEq A]
variable {c : ECfg S A ℝ X Y} {p : Policy} {old : List ℝ} {ch : Chances S A} {β : Behaviour S A} {K : Nat}

/-! ## Every schedule that is not idle finishes -/

/-- The work done by thread `t` on its current rollout. -/
def work (es : EState S ℝ) (h : List (EEvent S A ℝ)) (t : Nat) : Nat :=
  match es.ts[t]?.bind (·.roll) with
  | none => 0
  | some _ => 1 + (rollSteps t h).length

/-- Work done so far; `K + 2` for a finished rollout. -/
def progress (T K : Nat) (es : EState S ℝ) (h : List (EEvent S A ℝ)) : Nat :=
  (K + 2) * (finished h).length + ∑ t ∈ Finset.range T, work es h t

theorem finished_le {es : EState S ℝ} {h : List (EEvent S A ℝ)} (hr : EReach c p old es h) : (finished h).length ≤ c.rollouts.toNat := by
  obtain ⟨_, _, _, k4, k5⟩ := c47_each_once hr
  have hn : (((finished h).map Prod.snd).map Int.toNat).Nodup := by
    refine List.Nodup.map_on ?_ k4
    intro x hx y hy hxy
    obtain ⟨⟨t, i⟩, h1, rfl⟩ := List.mem_map.1 hx
    obtain ⟨⟨t', i'⟩, h2, rfl⟩ := List.mem_map.1 hy
    have := k5 _ _ h1
    have := k5 _ _ h2
    simp only at hxy ⊢
    omega
  have hs : ((finished h).map Prod.snd).map Int.toNat ⊆ List.range c.rollouts.toNat := by
    intro x hx
    obtain ⟨i, h1, rfl⟩ := List.mem_map.1 hx
    obtain ⟨⟨t, i'⟩, h2, rfl⟩ := List.mem_map.1 h1
    have := k5 _ _ h2
    rw [List.mem_range]
    simp only
    omega
  simpa using (hn.subperm hs).length_le

theorem progress_le (F : Fair c p old ch β K) {es : EState S ℝ} {h : List (EEvent S A ℝ)} (hr : EReach c p old es h) :
    progress c.threads K es h ≤ (K + 2) * (c.rollouts.toNat + c.threads) := by
  have h1 := finished_le hr
  have h2 : ∑ t ∈ Finset.range c.threads, work es h t ≤ c.threads * (K + 2) := by
    have := Finset.sum_le_card_nsmul (Finset.range c.threads) (work es h) (K + 2) (by
      intro t _
      unfold work
      have := (c48_length_partial hr t).2 K F.ends
      split <;> omega)
    simpa using this
  unfold progress
  nlinarith

theorem work_other {t t' : Nat} (h : t' ≠ t) {e : EEvent S A ℝ} {es es' : EState S ℝ} (E : EEff c es t e es') (hh : List (EEvent S A ℝ)) :
    work es' (e :: hh) t' = work es hh t' := by
  have h1 := congrArg List.length (histOf_other h E hh)
  simp only [histOf, List.length_map] at h1
  unfold work
  rw [h1]
  have h2 : es'.ts[t']? = es.ts[t']? := by
    cases E with
    | died => rfl
    | _ => exact List.getElem?_set_ne (Ne.symm h)
  rw [h2]

theorem progress_step (F : Fair c p old ch β K) {es es' : EState S ℝ} {h : List (EEvent S A ℝ)} {t raw : Nat} {s' : S} {e : EEvent S A ℝ}
    (hr : EReach c p old es h) (hs : eStep c es t raw s' = some (es', e)) :
    progress c.threads K es h < progress c.threads K es' (e :: h) := by
  have hcr := F.safe _ _ (.step hr hs)
  have E := (eStep_eff hs).2
  have I := einv hr
  have hb := (c48_length_partial hr t).2 K F.ends
  have hth : ∃ th, es.ts[t]? = some th := by
    cases E with
    | began th h => exact ⟨th, h⟩
    | died th _ _ h => exact ⟨th, h⟩
    | acted th _ _ _ _ h => exact ⟨th, h⟩
    | finished th _ h => exact ⟨th, h⟩
  obtain ⟨th, hth⟩ := hth
  have ht : t ∈ Finset.range c.threads := by
    have := (List.getElem?_eq_some_iff.1 hth).1
    rw [I.len] at this
    exact Finset.mem_range.2 this
  have hset : ∀ x : Thread S ℝ, (es.ts.set t x)[t]? = some x := fun x => List.getElem?_set_self (List.getElem?_eq_some_iff.1 hth).1
  have hw : (K + 2) * (finished h).length + work es h t < (K + 2) * (finished (e :: h)).length + work es' (e :: h) t := by
    cases E with
    | began th' hth' hr' hi =>
      rw [hth] at hth'
      obtain rfl := Option.some.inj hth'
      simp [work, hth, hset, hr', finished]
    | died => simp at hcr
    | acted th' r raw a s' hth' hr' =>
      rw [hth] at hth'
      obtain rfl := Option.some.inj hth'
      simp [work, hth, hset, hr', finished, rollSteps]
    | finished th' r hth' hr' =>
      rw [hth] at hth'
      obtain rfl := Option.some.inj hth'
      simp only [work, hth, hset, hr', finished, Option.bind_some, List.length_append, List.length_singleton]
      rw [Nat.mul_add]
      omega
  unfold progress
  rw [← Finset.add_sum_erase _ _ ht, ← Finset.add_sum_erase _ (work es' (e :: h)) ht]
  have : ∑ i ∈ (Finset.range c.threads).erase t, work es' (e :: h) i = ∑ i ∈ (Finset.range c.threads).erase t, work es h i :=
    Finset.sum_congr rfl fun i hi => work_other (Finset.ne_of_mem_erase hi) E h
  rw [this]
  omega

/-- A thread that can go on can do so for every draw that occurs. -/
theorem eStep_always (F : Fair c p old ch β K) {es : EState S ℝ} {t : Nat}
    (hgo : ∃ raw s' x, eStep c es t raw s' = some x) (raw : Nat) {x : S × ℝ} (hx : x ∈ nextDistr c ch es t raw) :
    ∃ y, eStep c es t raw x.1 = some y := by
  obtain ⟨raw0, s0, ⟨es', e⟩, hy⟩ := hgo
  obtain ⟨hnc, E⟩ := eStep_eff hy
  have fin : ∀ o : Option (EState S ℝ × EEvent S A ℝ), o.isSome → ∃ y, o = some y := fun o => Option.isSome_iff_exists.1
  have act : ∀ (th : Thread S ℝ) (r : Roll S ℝ), es.ts[t]? = some th → th.roll = some r → r.taken < c.maxLen → c.env.isSink r.state = false →
      ∃ y, eStep c es t raw x.1 = some y := by
    intro th r h1 h2 h3 h4
    refine fin _ ?_
    cases ha : th.pol.getAction c.env c.advise r.state raw with
    | none => simp [eStep, hnc, h1, h2, h3, h4, ha]
    | some a =>
      have hd : nextDistr c ch es t raw = ch.trans r.state a := by simp [nextDistr, h1, h2, ha]
      rw [hd] at hx
      simp [eStep, hnc, h1, h2, h3, h4, ha, F.ok.succ _ _ x hx]
  cases E with
  | began th h1 h2 h3 => exact fin _ (by simp [eStep, hnc, h1, h2, h3])
  | died th r raw h1 h2 h3 h4 h5 => exact act th r h1 h2 h3 h4
  | acted th r raw a s' h1 h2 h3 h4 => exact act th r h1 h2 h3 h4
  | finished th r h1 h2 h3 =>
    refine fin _ ?_
    simp only [eStep, hnc, h1, h2, h3, if_false]
    rfl

theorem done_stuck {es : EState S ℝ} (hd : allDone c es) (t raw : Nat) (s' : S) : eStep c es t raw s' = none := by
  unfold eStep
  rw [hd.1]
  simp only [Bool.false_eq_true, if_false]
  cases hth : es.ts[t]? with
  | none => rfl
  | some th =>
    obtain ⟨h1, h2⟩ := hd.2 th (List.mem_of_getElem? hth)
    simp only [h1]
    rw [if_neg (by omega)]

theorem expect_done (ok : ch.Ok c.env) (sched : Scheduler S A ℝ) (f : EState S ℝ → List (EEvent S A ℝ) → ℝ) (n : Nat) {es : EState S ℝ}
    {h : List (EEvent S A ℝ)} (hd : allDone c es) : expectAfter c ch sched f n es h = f es h := by
  induction n with
  | zero => rfl
  | succ n ih =>
    unfold expectAfter
    rw [mean1_congr (g := fun _ => f es h), mean1_const ok.raws]
    intro x _
    rw [mean1_congr (g := fun _ => f es h), mean1_const (nextDistr_ok ok es _ _)]
    intro y _
    rw [done_stuck hd]
    exact ih

theorem succ_ne (ok : ch.Ok c.env) (s : S) (a : A) : c.env.succ s a ≠ [] := by
  intro h
  have h1 := (ok.trans s a).total
  cases hd : ch.trans s a with
  | nil => rw [hd] at h1; simp at h1
  | cons x l =>
    have := ok.succ s a x (by rw [hd]; simp)
    rw [h] at this
    simp at this

/-- After that many steps of a schedule that is not idle the evaluation is over, so only the values of `f` at the end matter. -/
theorem expect_congr (F : Fair c p old ch β K) {sched : Scheduler S A ℝ} (hp : Productive c p old sched)
    {f g : EState S ℝ → List (EEvent S A ℝ) → ℝ} (hfg : ∀ es h, EReach c p old es h → allDone c es → f es h = g es h) (n : Nat) :
    ∀ {es : EState S ℝ} {h : List (EEvent S A ℝ)}, EReach c p old es h →
    (K + 2) * (c.rollouts.toNat + c.threads) ≤ n + progress c.threads K es h →
    expectAfter c ch sched f n es h = expectAfter c ch sched g n es h := by
  induction n with
  | zero =>
    intro es h hr hn
    by_cases hd : allDone c es
    · exact hfg es h hr hd
    · exfalso
      obtain ⟨t, raw, s', es', e, hs⟩ := c47_can_continue (succ_ne F.ok) hr (F.safe _ _ hr) hd
      have h1 := progress_step F hr hs
      have h2 := progress_le F (.step hr hs)
      omega
  | succ n ih =>
    intro es h hr hn
    by_cases hd : allDone c es
    · rw [expect_done F.ok sched f _ hd, expect_done F.ok sched g _ hd]
      exact hfg es h hr hd
    · obtain ⟨t, raw, s', es', e, hs⟩ := c47_can_continue (succ_ne F.ok) hr (F.safe _ _ hr) hd
      have hgo := hp es h hr ⟨t, raw, s', _, hs⟩
      unfold expectAfter
      refine mean1_congr fun x _ => mean1_congr fun y hy => ?_
      obtain ⟨z, hz⟩ := eStep_always F hgo x.1 hy
      rw [hz]
      have := progress_step F hr hz
      exact ih (.step hr hz) (by omega)

/-! ## C73 -/

/-- C73.  Whatever the scheduler does (it may look at everything that has happened so far, but not idle), after
`(K + 2) (rollouts + threads)` steps the evaluation is over and the expected sum of the returns it has added is `rollouts` times the
value of the tree's policy from the initial state.  `K` bounds the length of walks to a sink state. -/
theorem c73_expected_sum (F : Fair c p old ch β K) (hT : 1 ≤ c.threads) {sched : Scheduler S A ℝ} (hp : Productive c p old sched) {n : Nat}
    (hn : (K + 2) * (c.rollouts.toNat + c.threads) ≤ n) :
    expectAfter c ch sched (fun es _ => es.returns.sum) n (start c p old) [] =
      old.sum + c.rollouts.toNat * value c.env ch β K [] c.init := by
  have h1 := expect_congr F hp (f := fun es _ => es.returns.sum)
    (g := fun es h => c.rollouts.toNat * value c.env ch β K [] c.init + phi c ch β K es h) (by
      intro es h hr hd
      have hl := (c47_exact_count hT hr hd).1.length_eq
      rw [List.length_map, List.length_range] at hl
      have hz : ∑ t ∈ Finset.range c.threads, pend c ch β K es h t = 0 := by
        refine Finset.sum_eq_zero fun t _ => ?_
        unfold pend
        cases hth : es.ts[t]? with
        | none => rfl
        | some th =>
          have := (hd.2 th (List.mem_of_getElem? hth)).1
          simp [this]
      unfold phi
      rw [hz, hl]
      ring) n .start (by omega)
  rw [h1]
  have h2 : ∀ (m : Nat) (es : EState S ℝ) (h : List (EEvent S A ℝ)),
      expectAfter c ch sched (fun es h => c.rollouts.toNat * value c.env ch β K [] c.init + phi c ch β K es h) m es h =
      c.rollouts.toNat * value c.env ch β K [] c.init + expectAfter c ch sched (phi c ch β K) m es h := by
    intro m
    induction m with
    | zero => intro es h; rfl
    | succ m ih =>
      intro es h
      unfold expectAfter
      rw [← mean1_add F.ok.raws]
      refine mean1_congr fun x _ => ?_
      rw [← mean1_add (nextDistr_ok F.ok _ _ _)]
      refine mean1_congr fun y _ => ?_
      cases eStep c es (sched h) x.1 y.1 with
      | none => exact ih _ _
      | some z => exact ih _ _
  rw [h2, phi_expect F sched n .start]
  have hz : ∑ t ∈ Finset.range c.threads, pend c ch β K (start c p old) [] t = 0 := by
    refine Finset.sum_eq_zero fun t _ => ?_
    unfold pend
    cases hth : (start c p old).ts[t]? with
    | none => rfl
    | some th =>
      have : th.roll = none := by
        have := List.mem_of_getElem? hth
        simp only [start, List.mem_map] at this
        obtain ⟨j, _, rfl⟩ := this
        rfl
      simp [this]
  unfold phi
  rw [hz]
  simp [start, finished]
  ring

/-- C73: the expectation of `get_mean_return` after a first call of `run_rollouts` is the value of the policy. -/
theorem c73_mean_unbiased (F : Fair c p [] ch β K) (hT : 1 ≤ c.threads) (hR : 1 ≤ c.rollouts) {sched : Scheduler S A ℝ}
    (hp : Productive c p [] sched) {n : Nat} (hn : (K + 2) * (c.rollouts.toNat + c.threads) ≤ n) :
    expectAfter c ch sched (fun es _ => meanReturn es.returns) n (start c p []) [] = value c.env ch β K [] c.init := by
  have hpos : (0 : ℝ) < c.rollouts.toNat := by
    have : 0 < c.rollouts.toNat := by omega
    exact_mod_cast this
  rw [expect_congr F hp (g := fun es _ => (c.rollouts.toNat : ℝ)⁻¹ * es.returns.sum) (by
    intro es h hr hd
    have hl := (c47_exact_count hT hr hd).2
    rw [List.length_nil, zero_add] at hl
    have hne : es.returns ≠ [] := by
      intro h0
      rw [h0] at hl
      simp at hl
      omega
    rw [c49_mean hne, mean, hl]
    field_simp) n .start (by omega)]
  have h2 : ∀ (m : Nat) (es : EState S ℝ) (h : List (EEvent S A ℝ)),
      expectAfter c ch sched (fun es _ => (c.rollouts.toNat : ℝ)⁻¹ * es.returns.sum) m es h =
      (c.rollouts.toNat : ℝ)⁻¹ * expectAfter c ch sched (fun es _ => es.returns.sum) m es h := by
    intro m
    induction m with
    | zero => intro es h; rfl
    | succ m ih =>
      intro es h
      unfold expectAfter
      rw [← mean1_mul]
      refine mean1_congr fun x _ => ?_
      rw [← mean1_mul]
      refine mean1_congr fun y _ => ?_
      cases eStep c es (sched h) x.1 y.1 with
      | none => exact ih _ _
      | some z => exact ih _ _
  rw [h2, c73_expected_sum F hT hp hn]
  simp only [List.sum_nil, zero_add]
  field_simp

/-- The events determine the state. -/
theorem ereach_unique {h : List (EEvent S A ℝ)} : ∀ {es es' : EState S ℝ}, EReach c p old es h → EReach c p old es' h → es = es' := by
  induction h with
  | nil =>
    intro es es' h1 h2
    cases h1
    cases h2
    rfl
  | cons e h ih =>
    intro es es' h1 h2
    cases h1 with
    | step g1 s1 =>
      cases h2 with
      | step g2 s2 =>
        obtain rfl := ih g1 g2
        have key : ∀ {e1 e2 : EEvent S A ℝ} {es es1 es2 : EState S ℝ} {t1 t2 : Nat}, EEff c es t1 e1 es1 → EEff c es t2 e2 es2 → e1 = e2 →
            es1 = es2 := by
          intro e1 e2 es es1 es2 t1 t2 E1 E2 he
          cases E1 <;> cases E2 <;> simp only [EEvent.began.injEq, EEvent.died.injEq, EEvent.acted.injEq, EEvent.finished.injEq, reduceCtorEq] at he
          case began.began th1 a1 a2 a3 th2 b1 b2 b3 =>
            obtain ⟨rfl, _⟩ := he
            rw [a1] at b1
            obtain rfl := Option.some.inj b1
            rfl
          case died.died => rfl
          case acted.acted th1 r1 _ _ _ a1 a2 _ _ _ _ th2 r2 _ _ _ b1 b2 _ _ _ _ =>
            obtain ⟨rfl, _, rfl, rfl, _⟩ := he
            rw [a1] at b1
            obtain rfl := Option.some.inj b1
            rw [a2] at b2
            obtain rfl := Option.some.inj b2
            rfl
          case finished.finished th1 r1 a1 a2 _ th2 r2 b1 b2 _ =>
            obtain ⟨rfl, _, _⟩ := he
            rw [a1] at b1
            obtain rfl := Option.some.inj b1
            rw [a2] at b2
            obtain rfl := Option.some.inj b2
            rfl
        exact key (eStep_eff s1).2 (eStep_eff s2).2 rfl

/-- There always is a scheduler that is not idle. -/
theorem productive_exists (c : ECfg S A ℝ X Y) (p : Policy) (old : List ℝ) : ∃ sched, Productive c p old sched := by
  classical
  let P : List (EEvent S A ℝ) → Nat → Prop := fun h t => ∃ es, EReach c p old es h ∧ ∃ raw s' x, eStep c es t raw s' = some x
  refine ⟨fun h => if hx : ∃ t, P h t then hx.choose else 0, ?_⟩
  rintro es h hr ⟨t, raw, s', x, hs⟩
  have hx : ∃ t, P h t := ⟨t, es, hr, raw, s', x, hs⟩
  simp only [hx, dif_pos]
  obtain ⟨es', hr', g⟩ := hx.choose_spec
  obtain rfl := ereach_unique hr hr'
  exact g

/-! ## Example -/

/-- States are numbers, sink states are those from 2 on; a step leads one or two states further; reward: action plus new state. -/
noncomputable def rEnv : Env Nat Nat ℝ where
  isSink s := decide (2 ≤ s)
  actions _ := [0, 1]
  succ s _ := [s + 1, s + 2]
  reward _ a s' := a + s'

def rMgr : Manager Nat ℝ := { maxDepth := 10, mctsMode := true, twoPlayer := false, useTable := false, numMutexes := 1, heuristic := none }

/-- A tree that consists of the root only, evaluated with three rollouts by two threads. -/
noncomputable def rEval : ECfg Nat Nat ℝ Unit Unit where
  tree := init rEnv rMgr (free Nat Nat ℝ 0) 1 0 0 0 []
  env := rEnv
  init := 0
  advise _ _ := some 1
  maxLen := 10
  rollouts := 3
  threads := 2
  keepsCtx := true

/-- A fair coin for the integers and for the transitions. -/
noncomputable def rChances : Chances Nat Nat where
  raws := [(0, 1 / 2), (1, 1 / 2)]
  trans s _ := [(s + 1, 1 / 2), (s + 2, 1 / 2)]

/-- First action 1 (the root's recommendation), then uniform actions. -/
def rPol : Behaviour Nat Nat := fun hist _ raw => if hist = [] then some 1 else [0, 1][raw % 2]?

theorem r_fair : Fair rEval (newPolicy 0) [] rChances rPol 2 := by
  have hgood : GoodEval rEval (newPolicy 0) := by
    refine ⟨⟨rMgr, free Nat Nat ℝ 0, 1, 0, 0, [], [], by intro v ctx a h; simpa [free] using h, by intro p hp; simp at hp, [], rfl⟩, rfl, by simp [rEval, rEnv], ?_⟩
    intro d nd hd _ raw
    exact ⟨1, by simp [rEval, rEnv], rfl⟩
  refine ⟨⟨⟨by simp [rChances], by simp [rChances]; norm_num⟩, fun s a => ⟨by simp [rChances], by simp [rChances]; norm_num⟩,
    by simp [rChances, rEval, rEnv]⟩, ?_, by decide, by simp [rEval, rEnv], fun es h hr => (c59_actions_valid hgood hr).1, ?_⟩
  · intro hist s raw
    have hl : ∀ e, Leads rEval.tree 0 hist e → hist = [] := by
      intro e he
      cases he with
      | nil => rfl
      | cons h1 => simp [childC, rEval, init, newD, find?] at h1
    constructor
    · intro e he
      rw [hl e he]
      rfl
    · intro hne _
      have : hist ≠ [] := by
        rintro rfl
        exact hne ⟨_, .nil _⟩
      simp [rPol, this, rEval, rEnv]
  · have key : ∀ s steps s', Walk rEnv s steps s' → s + steps.length ≤ s' := by
      intro s steps s' W
      induction W with
      | nil s => simp
      | @cons s s1 s' a rest h1 _ ih =>
        have : s1 = s + 1 ∨ s1 = s + 2 := by simpa [rEnv] using h1
        simp only [List.length_cons]
        omega
    intro steps s' W hl
    have h1 : 0 + steps.length ≤ s' := key _ _ _ W
    show decide (2 ≤ s') = true
    simp only [decide_eq_true_eq]
    omega

/-- The expected mean return is 4, the value of the policy: the first step brings 1 plus 1.5 on average, and with probability 1/2 another
step brings 0.5 plus 2.5. -/
example : ∃ sched, ∀ n ≥ 20, expectAfter rEval rChances sched (fun es _ => meanReturn es.returns) n (start rEval (newPolicy 0) []) [] = 4 := by
  obtain ⟨sched, hs⟩ := productive_exists rEval (newPolicy 0) []
  refine ⟨sched, fun n hn => ?_⟩
  rw [c73_mean_unbiased r_fair (by decide) (by decide) hs (by simpa [rEval] using hn)]
  simp [value, mean1, rEval, rEnv, rChances, rPol]
  norm_num

end Verif.Eval
