import Verif.Spec.Rollouts
import Verif.Props.Eval

/-! # Unbiasedness of Monte-Carlo evaluation: the martingale -/

set_option linter.unusedSectionVars false

namespace Verif.Eval

open Verif.Search Verif.Sampling

variable {S A X Y : Type} [DecidableEq S] [DecidableEq A]

theorem mean1_congr {α : Type} {d : List (α × ℝ)} {f g : α → ℝ} (h : ∀ x ∈ d, f x.1 = g x.1) : mean1 d f = mean1 d g := by
  unfold mean1
  congr 1
  exact List.map_congr_left fun x hx => by rw [h x hx]

theorem mean1_const {α : Type} {d : List (α × ℝ)} (h : IsDistr d) (v : ℝ) : mean1 d (fun _ => v) = v := by
  unfold mean1
  rw [List.sum_map_mul_right, h.total, one_mul]

theorem mean1_add {α : Type} {d : List (α × ℝ)} (h : IsDistr d) (v : ℝ) (f : α → ℝ) : mean1 d (fun x => v + f x) = v + mean1 d f := by
  have : mean1 d (fun x => v + f x) = mean1 d (fun _ => v) + mean1 d f := by
    unfold mean1
    rw [← List.sum_map_add]
    congr 1
    exact List.map_congr_left fun x _ => by ring
  rw [this, mean1_const h]

theorem mean1_mul {α : Type} (d : List (α × ℝ)) (v : ℝ) (f : α → ℝ) : mean1 d (fun x => v * f x) = v * mean1 d f := by
  unfold mean1
  rw [← List.sum_map_mul_left]
  congr 1
  exact List.map_congr_left fun x _ => by ring

theorem nextDistr_ok {R : Type} {c : ECfg S A R X Y} {ch : Chances S A} (ok : ch.Ok c.env) (es : EState S R) (t raw : Nat) :
    IsDistr (nextDistr c ch es t raw) := by
  have h1 : IsDistr [(c.init, (1 : ℝ))] := ⟨by simp, by simp⟩
  unfold nextDistr
  split
  · exact h1
  · split
    · exact h1
    · split
      · exact h1
      · exact ok.trans _ _

variable {c : ECfg S A ℝ X Y} {p : Policy} {old : List ℝ} {ch : Chances S A} {β : Behaviour S A} {K : Nat}

/-- The steps of a thread's rollout as the policy sees them. -/
def histOf (t : Nat) (h : List (EEvent S A ℝ)) : List (A × S) := (rollSteps t h).map fun x => (x.2.1, x.2.2)

/-- What a running rollout is expected to bring more than an average rollout. -/
noncomputable def pend (c : ECfg S A ℝ X Y) (ch : Chances S A) (β : Behaviour S A) (K : Nat) (es : EState S ℝ) (h : List (EEvent S A ℝ))
    (t : Nat) : ℝ :=
  match es.ts[t]?.bind (·.roll) with
  | none => 0
  | some r => r.ret + value c.env ch β (K - (histOf t h).length) (histOf t h) r.state - value c.env ch β K [] c.init

/-- The martingale. -/
noncomputable def phi (c : ECfg S A ℝ X Y) (ch : Chances S A) (β : Behaviour S A) (K : Nat) (es : EState S ℝ) (h : List (EEvent S A ℝ)) : ℝ :=
  es.returns.sum - (finished h).length * value c.env ch β K [] c.init + ∑ t ∈ Finset.range c.threads, pend c ch β K es h t

theorem sum_change {T t : Nat} (ht : t < T) {f g : Nat → ℝ} (h : ∀ t' ≠ t, g t' = f t') :
    ∑ i ∈ Finset.range T, g i = ∑ i ∈ Finset.range T, f i + (g t - f t) := by
  have hm : t ∈ Finset.range T := Finset.mem_range.2 ht
  rw [← Finset.add_sum_erase _ g hm, ← Finset.add_sum_erase _ f hm]
  have : ∑ i ∈ (Finset.range T).erase t, g i = ∑ i ∈ (Finset.range T).erase t, f i :=
    Finset.sum_congr rfl fun i hi => h i (Finset.ne_of_mem_erase hi)
  rw [this]
  ring

theorem histOf_other {t t' : Nat} (h : t' ≠ t) {e : EEvent S A ℝ} {es es' : EState S ℝ} (E : EEff c es t e es') (hh : List (EEvent S A ℝ)) :
    histOf t' (e :: hh) = histOf t' hh := by
  unfold histOf
  cases E <;> simp [rollSteps, Ne.symm h]

theorem pend_other {t t' : Nat} (h : t' ≠ t) {e : EEvent S A ℝ} {es es' : EState S ℝ} (E : EEff c es t e es') (hh : List (EEvent S A ℝ)) :
    pend c ch β K es' (e :: hh) t' = pend c ch β K es hh t' := by
  have h1 := histOf_other h E hh
  unfold pend
  rw [h1]
  have h2 : es'.ts[t']? = es.ts[t']? := by
    cases E with
    | died => rfl
    | _ => exact List.getElem?_set_ne (Ne.symm h)
  rw [h2]

/-- What the evaluation's action is. -/
theorem action_eq (hβ : IsTreePolicy c p.root β) {hist : List (A × S)} {s : S} {raw : Nat} (hact : c.env.actions s ≠ []) :
    (drive c.tree p.reset hist).getAction c.env c.advise s raw = β hist s raw := by
  by_cases hex : ∃ e, Leads c.tree p.root hist e
  · obtain ⟨e, he⟩ := hex
    rw [c46_takes_recommendation c.tree p he]
    exact ((hβ hist s raw).1 e he).symm
  · have := (c46_uniform_after_missing c.tree p hex [] c.env c.advise s hact raw).1
    rw [List.append_nil] at this
    rw [this]
    exact ((hβ hist s raw).2 hex hact).symm

theorem value_sink (env : Env S A ℝ) (ch : Chances S A) (β : Behaviour S A) (n : Nat) (hist : List (A × S)) {s : S} (h : env.isSink s = true) :
    value env ch β n hist s = 0 := by
  cases n with
  | zero => rfl
  | succ n => simp [value, h]

theorem phi_diff {es es' : EState S ℝ} {h : List (EEvent S A ℝ)} {t : Nat} {e : EEvent S A ℝ} (ht : t < c.threads) (E : EEff c es t e es') :
    phi c ch β K es' (e :: h) = phi c ch β K es h + (es'.returns.sum - es.returns.sum) -
      ((finished (e :: h)).length - (finished h).length : ℝ) * value c.env ch β K [] c.init +
      (pend c ch β K es' (e :: h) t - pend c ch β K es h t) := by
  unfold phi
  rw [sum_change ht fun t' h' => pend_other h' E h]
  ring

theorem phi_step (F : Fair c p old ch β K) {es : EState S ℝ} {h : List (EEvent S A ℝ)} (hr : EReach c p old es h) (t : Nat) :
    mean1 ch.raws (fun raw => mean1 (nextDistr c ch es t raw) fun s' =>
      match eStep c es t raw s' with
      | none => phi c ch β K es h
      | some (es', e) => phi c ch β K es' (e :: h)) = phi c ch β K es h := by
  have I := einv hr
  have hnc := F.safe es h hr
  have const : (∀ raw s', (match eStep c es t raw s' with
      | none => phi c ch β K es h
      | some (es', e) => phi c ch β K es' (e :: h)) = phi c ch β K es h) → mean1 ch.raws (fun raw => mean1 (nextDistr c ch es t raw) fun s' =>
      match eStep c es t raw s' with
      | none => phi c ch β K es h
      | some (es', e) => phi c ch β K es' (e :: h)) = phi c ch β K es h := by
    intro hc
    rw [mean1_congr (g := fun _ => phi c ch β K es h), mean1_const F.ok.raws]
    intro x _
    rw [mean1_congr (g := fun _ => phi c ch β K es h), mean1_const (nextDistr_ok F.ok es t x.1)]
    intro y _
    exact hc _ _
  cases hth : es.ts[t]? with
  | none => exact const fun raw s' => by simp [eStep, hnc, hth]
  | some th =>
    have ht : t < c.threads := by
      have := (List.getElem?_eq_some_iff.1 hth).1
      rwa [I.len] at this
    have hset : ∀ x : Thread S ℝ, (es.ts.set t x)[t]? = some x := fun x =>
      List.getElem?_set_self (List.getElem?_eq_some_iff.1 hth).1
    cases hroll : th.roll with
    | none =>
      refine const fun raw s' => ?_
      cases hst : eStep c es t raw s' with
      | none => rfl
      | some x =>
        obtain ⟨es', e⟩ := x
        have E := (eStep_eff hst).2
        show phi c ch β K es' (e :: h) = _
        rw [phi_diff ht E]
        cases E with
        | began th' hth' hr' hi =>
          have h1 : histOf t (EEvent.began t th'.i :: h) = [] := by simp [histOf, rollSteps]
          simp [pend, hth, hroll, hset, finished, h1]
        | died th' r raw hth' hr' => rw [hth] at hth'; obtain rfl := Option.some.inj hth'; rw [hroll] at hr'; simp at hr'
        | acted th' r raw a s' hth' hr' => rw [hth] at hth'; obtain rfl := Option.some.inj hth'; rw [hroll] at hr'; simp at hr'
        | finished th' r hth' hr' => rw [hth] at hth'; obtain rfl := Option.some.inj hth'; rw [hroll] at hr'; simp at hr'
    | some r =>
      obtain ⟨W, hret, htaken, _, hpol⟩ := I.roll t th r hth hroll
      by_cases hsink : c.env.isSink r.state = true
      · refine const fun raw s' => ?_
        have hst : eStep c es t raw s' = some ({ es with returns := es.returns ++ [r.ret], ts := es.ts.set t { th with i := th.i + c.threads, roll := none } },
            .finished t th.i r.ret) := by simp [eStep, hnc, hth, hroll, hsink]
        have E := (eStep_eff hst).2
        rw [hst]
        show phi c ch β K _ (_ :: h) = _
        rw [phi_diff ht E]
        simp [pend, hth, hroll, hset, finished, value_sink _ _ _ _ _ hsink]
      · have hsink : c.env.isSink r.state = false := by simpa using hsink
        have hact := F.acts _ hsink
        have hgo : r.taken < c.maxLen ∧ c.env.isSink r.state = false := ⟨by have := F.len; omega, hsink⟩
        have hlen : (rollSteps t h).length < K := by
          by_contra hl
          have := F.ends _ _ W (by omega)
          rw [hsink] at this
          simp at this
        have hga : ∀ raw, th.pol.getAction c.env c.advise r.state raw = β (histOf t h) r.state raw := by
          intro raw
          rw [hpol]
          exact action_eq F.pol hact
        have hdef : ∀ raw, ∃ a, β (histOf t h) r.state raw = some a := by
          intro raw
          cases hb : β (histOf t h) r.state raw with
          | some a => exact ⟨a, rfl⟩
          | none =>
            exfalso
            have hst : eStep c es t raw c.init = some ({ es with crashed := true }, .died t) := by
              simp [eStep, hnc, hth, hroll, hgo.1, hsink, hga, hb]
            have := F.safe _ _ (.step hr hst)
            simp at this
        have hval : value c.env ch β (K - (histOf t h).length) (histOf t h) r.state =
            mean1 ch.raws fun raw =>
              match β (histOf t h) r.state raw with
              | none => 0
              | some a => mean1 (ch.trans r.state a) fun s' => c.env.reward r.state a s' +
                  value c.env ch β (K - (histOf t h).length - 1) (histOf t h ++ [(a, s')]) s' := by
          have hl : (histOf t h).length < K := by simpa [histOf] using hlen
          obtain ⟨n, hn⟩ : ∃ n, K - (histOf t h).length = n + 1 := ⟨K - (histOf t h).length - 1, by omega⟩
          rw [hn]
          simp only [value, hsink, Nat.add_sub_cancel, Bool.false_eq_true, if_false]
          refine mean1_congr fun x _ => ?_
          cases β (histOf t h) r.state x.1 <;> rfl
        have step : ∀ raw a, β (histOf t h) r.state raw = some a → mean1 (nextDistr c ch es t raw) (fun s' =>
            match eStep c es t raw s' with
            | none => phi c ch β K es h
            | some (es', e) => phi c ch β K es' (e :: h)) =
            phi c ch β K es h - value c.env ch β (K - (histOf t h).length) (histOf t h) r.state +
              mean1 (ch.trans r.state a) fun s' => c.env.reward r.state a s' +
                  value c.env ch β (K - (histOf t h).length - 1) (histOf t h ++ [(a, s')]) s' := by
          intro raw a ha
          have hnd : nextDistr c ch es t raw = ch.trans r.state a := by simp [nextDistr, hth, hroll, hga, ha]
          rw [hnd, ← mean1_add (F.ok.trans _ _)]
          refine mean1_congr fun x hx => ?_
          have hsucc := F.ok.succ _ _ x hx
          have hst : eStep c es t raw x.1 = some ({ es with ts := es.ts.set t { th with
              pol := th.pol.update c.tree a x.1,
              roll := some { r with state := x.1, ret := r.ret + c.env.reward r.state a x.1 } } }, .acted t r.state a x.1 r.ctxAlive) := by
            simp [eStep, hnc, hth, hroll, hgo.1, hsink, hga, ha, hsucc]
          have E := (eStep_eff hst).2
          rw [hst]
          show phi c ch β K _ (_ :: h) = _
          rw [phi_diff ht E]
          have hh : histOf t (EEvent.acted t r.state a x.1 r.ctxAlive :: h) = histOf t h ++ [(a, x.1)] := by simp [histOf, rollSteps]
          simp only [pend, hth, hroll, hset, finished, hh, Option.bind_some, List.length_append, List.length_singleton]
          rw [Nat.sub_add_eq]
          ring
        have : ∀ x ∈ ch.raws, mean1 (nextDistr c ch es t x.1) (fun s' =>
            match eStep c es t x.1 s' with
            | none => phi c ch β K es h
            | some (es', e) => phi c ch β K es' (e :: h)) =
            (phi c ch β K es h - value c.env ch β (K - (histOf t h).length) (histOf t h) r.state) +
              match β (histOf t h) r.state x.1 with
              | none => 0
              | some a => mean1 (ch.trans r.state a) fun s' => c.env.reward r.state a s' +
                  value c.env ch β (K - (histOf t h).length - 1) (histOf t h ++ [(a, s')]) s' := by
          intro x _
          obtain ⟨a, ha⟩ := hdef x.1
          rw [step x.1 a ha, ha]
        rw [mean1_congr (g := fun raw => (phi c ch β K es h - value c.env ch β (K - (histOf t h).length) (histOf t h) r.state) +
              match β (histOf t h) r.state raw with
              | none => 0
              | some a => mean1 (ch.trans r.state a) fun s' => c.env.reward r.state a s' +
                  value c.env ch β (K - (histOf t h).length - 1) (histOf t h ++ [(a, s')]) s') this,
          mean1_add F.ok.raws, ← hval]
        ring

/-- The expectation of the martingale never changes. -/
theorem phi_expect (F : Fair c p old ch β K) (sched : Scheduler S A ℝ) (n : Nat) : ∀ {es : EState S ℝ} {h : List (EEvent S A ℝ)},
    EReach c p old es h → expectAfter c ch sched (phi c ch β K) n es h = phi c ch β K es h := by
  induction n with
  | zero => intro es h _; rfl
  | succ n ih =>
    intro es h hr
    rw [← phi_step F hr (sched h)]
    unfold expectAfter
    refine mean1_congr fun x _ => mean1_congr fun y _ => ?_
    cases hst : eStep c es (sched h) x.1 y.1 with
    | none => exact ih hr
    | some z => exact ih (.step hr hst)

end Verif.Eval
