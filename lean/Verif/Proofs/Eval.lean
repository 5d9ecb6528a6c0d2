import Verif.Spec.Eval
import Verif.Proofs.SearchMore
import Verif.Proofs.Uct

/-! # Invariants of an evaluation -/

set_option linter.unusedSectionVars false

namespace Verif.Eval

open Verif.Search Verif.Sampling

variable {S A R X Y : Type} [DecidableEq S] [DecidableEq A]

/-! ## The policy -/

theorem update_none {st : St S A R X Y} {p : Policy} (h : p.cur = none) (a : A) (o : S) : p.update st a o = p := by
  unfold Policy.update
  rw [h]

theorem update_root (st : St S A R X Y) (p : Policy) (a : A) (o : S) : (p.update st a o).root = p.root := by
  unfold Policy.update
  split
  · rfl
  · split
    · rfl
    · split
      · rfl
      · split
        · rfl
        · split <;> rfl

theorem update_cur {st : St S A R X Y} {p : Policy} {d : Nat} (h : p.cur = some d) (a : A) (o : S) :
    (p.update st a o).cur = (childC st d a).bind fun c => childD st c o := by
  unfold Policy.update childC childD
  split
  · next h' => rw [h] at h'; simp at h'
  · next d' h' =>
    rw [h] at h'
    obtain rfl := Option.some.inj h'
    cases h1 : st.dn[d]? with
    | none => simp
    | some nd =>
      simp only [Option.bind_some]
      cases h2 : find? a nd.kids with
      | none => simp
      | some c =>
        simp only [Option.bind_some]
        cases h3 : st.cn[c]? with
        | none => simp
        | some nc =>
          simp only [Option.bind_some]
          cases h4 : find? o nc.kids <;> rfl

theorem drive_none (st : St S A R X Y) (steps : List (A × S)) : ∀ {p : Policy}, p.cur = none → drive st p steps = p := by
  induction steps with
  | nil => intro p _; rfl
  | cons x l ih =>
    intro p h
    unfold drive
    rw [List.foldl_cons, update_none h]
    exact ih h

theorem drive_root (st : St S A R X Y) (steps : List (A × S)) : ∀ p : Policy, (drive st p steps).root = p.root := by
  induction steps with
  | nil => intro p; rfl
  | cons x l ih =>
    intro p
    unfold drive
    rw [List.foldl_cons]
    exact (ih _).trans (update_root st p _ _)

theorem drive_cur (st : St S A R X Y) (steps : List (A × S)) : ∀ {p : Policy} {d : Nat}, p.cur = some d → ∀ e,
    (drive st p steps).cur = some e ↔ Leads st d steps e := by
  induction steps with
  | nil =>
    intro p d h e
    unfold drive
    simp only [List.foldl_nil, h, Option.some.injEq]
    constructor
    · rintro rfl; exact .nil _
    · intro h; cases h; rfl
  | cons x l ih =>
    intro p d h e
    obtain ⟨a, o⟩ := x
    unfold drive
    rw [List.foldl_cons]
    have hu := update_cur (st := st) h a o
    cases h1 : childC st d a with
    | none =>
      rw [h1] at hu
      have := drive_none st l hu
      unfold drive at this
      rw [this]
      rw [hu]
      constructor
      · intro h; simp at h
      · intro h
        cases h with
        | cons g1 g2 g3 => rw [h1] at g1; simp at g1
    | some c =>
      rw [h1, Option.bind_some] at hu
      cases h2 : childD st c o with
      | none =>
        rw [h2] at hu
        have := drive_none st l hu
        unfold drive at this
        rw [this, hu]
        constructor
        · intro h; simp at h
        · intro h
          cases h with
          | cons g1 g2 g3 =>
            rw [h1] at g1
            obtain rfl := Option.some.inj g1
            rw [h2] at g2; simp at g2
      | some d' =>
        rw [h2] at hu
        have := ih hu e
        unfold drive at this
        rw [this]
        constructor
        · exact .cons h1 h2
        · intro h
          cases h with
          | cons g1 g2 g3 =>
            rw [h1] at g1
            obtain rfl := Option.some.inj g1
            rw [h2] at g2
            obtain rfl := Option.some.inj g2
            exact g3

theorem drive_snoc (st : St S A R X Y) (p : Policy) (steps : List (A × S)) (a : A) (o : S) :
    drive st p (steps ++ [(a, o)]) = (drive st p steps).update st a o := by
  unfold drive
  rw [List.foldl_append]
  rfl

/-! ## The threads -/

variable [Add R] [Zero R]

theorem Walk.snoc {env : Env S A R} {s s' s2 : S} {a : A} {l : List (RStep S A)} (W : Walk env s l s') (h : s2 ∈ env.succ s' a) :
    Walk env s (l ++ [(s', a, s2)]) s2 := by
  induction W with
  | nil s => exact .cons h (.nil _)
  | cons h1 _ ih => exact .cons h1 (ih h)

theorem returnOf_snoc (env : Env S A R) (l : List (RStep S A)) (s s' : S) (a : A) :
    returnOf env (l ++ [(s, a, s')]) = returnOf env l + env.reward s a s' := by
  simp [returnOf, List.foldl_append]

/-- The effect of a step. -/
inductive EEff (c : ECfg S A R X Y) (es : EState S R) (t : Nat) : EEvent S A R → EState S R → Prop
  | began (th : Thread S R) : es.ts[t]? = some th → th.roll = none → th.i < c.rollouts →
    EEff c es t (.began t th.i) { es with ts := es.ts.set t { th with pol := th.pol.reset, roll := some { state := c.init, taken := 0, ret := 0, ctxAlive := c.keepsCtx } } }
  | died (th : Thread S R) (r : Roll S R) (raw : Nat) : es.ts[t]? = some th → th.roll = some r → r.taken < c.maxLen → c.env.isSink r.state = false →
    th.pol.getAction c.env c.advise r.state raw = none → EEff c es t (.died t) { es with crashed := true }
  | acted (th : Thread S R) (r : Roll S R) (raw : Nat) (a : A) (s' : S) : es.ts[t]? = some th → th.roll = some r → r.taken < c.maxLen →
    c.env.isSink r.state = false → th.pol.getAction c.env c.advise r.state raw = some a → s' ∈ c.env.succ r.state a →
    EEff c es t (.acted t r.state a s' r.ctxAlive) { es with ts := es.ts.set t { th with
              pol := th.pol.update c.tree a s',
              roll := some { r with state := s', ret := r.ret + c.env.reward r.state a s' } } }
  | finished (th : Thread S R) (r : Roll S R) : es.ts[t]? = some th → th.roll = some r → ¬ (r.taken < c.maxLen ∧ c.env.isSink r.state = false) →
    EEff c es t (.finished t th.i r.ret)
      { es with returns := es.returns ++ [r.ret], ts := es.ts.set t { th with i := th.i + c.threads, roll := none } }

theorem eStep_eff {c : ECfg S A R X Y} {es es' : EState S R} {t raw : Nat} {s' : S} {e : EEvent S A R}
    (h : eStep c es t raw s' = some (es', e)) : es.crashed = false ∧ EEff c es t e es' := by
  unfold eStep at h
  split at h
  · simp at h
  · next hc =>
    refine ⟨by simpa using hc, ?_⟩
    split at h
    · simp at h
    · next th hth =>
      split at h
      · next hr =>
        split at h
        · next hi =>
          simp only [Option.some.injEq, Prod.mk.injEq] at h
          obtain ⟨rfl, rfl⟩ := h
          exact .began th hth hr hi
        · simp at h
      · next r hr =>
        split at h
        · next hg =>
          split at h
          · next ha =>
            simp only [Option.some.injEq, Prod.mk.injEq] at h
            obtain ⟨rfl, rfl⟩ := h
            exact .died th r raw hth hr hg.1 hg.2 ha
          · next a ha =>
            split at h
            · next hs =>
              simp only [Option.some.injEq, Prod.mk.injEq] at h
              obtain ⟨rfl, rfl⟩ := h
              exact .acted th r raw a s' hth hr hg.1 hg.2 ha hs
            · simp at h
        · next hg =>
          simp only [Option.some.injEq, Prod.mk.injEq] at h
          obtain ⟨rfl, rfl⟩ := h
          exact .finished th r hth hr hg

structure EInv (c : ECfg S A R X Y) (p : Policy) (old : List R) (es : EState S R) (h : List (EEvent S A R)) : Prop where
  len : es.ts.length = c.threads
  ret : es.returns = old ++ results h
  pos : ∀ (t : Nat) th, es.ts[t]? = some th → ∃ m : Nat, th.i = t + c.threads * m
  busy : ∀ (t : Nat) th, es.ts[t]? = some th → th.roll.isSome → th.i < c.rollouts
  nodup : (finished h).Nodup
  mem : ∀ (t : Nat) (i : Int), (t, i) ∈ finished h ↔ ∃ th, es.ts[t]? = some th ∧ (∃ m : Nat, i = t + c.threads * m) ∧ i < th.i
  lt : ∀ x ∈ finished h, x.2 < c.rollouts
  roll : ∀ (t : Nat) th r, es.ts[t]? = some th → th.roll = some r →
    Walk c.env c.init (rollSteps t h) r.state ∧ r.ret = returnOf c.env (rollSteps t h) ∧ r.taken = 0 ∧ r.ctxAlive = c.keepsCtx ∧
      th.pol = drive c.tree p.reset ((rollSteps t h).map fun x => (x.2.1, x.2.2))
  polRoot : ∀ (t : Nat) th, es.ts[t]? = some th → th.pol.root = p.root

variable {c : ECfg S A R X Y} {p : Policy} {old : List R}

theorem einv_start (c : ECfg S A R X Y) (p : Policy) (old : List R) : EInv c p old (start c p old) [] := by
  have hts : ∀ (t : Nat) th, (start c p old).ts[t]? = some th → t < c.threads ∧ th = { i := (t : Int), pol := p.copy, roll := none } := by
    intro t th h
    unfold start at h
    simp only [List.getElem?_map, Option.map_eq_some_iff] at h
    obtain ⟨j, h1, rfl⟩ := h
    obtain ⟨hlt, h1⟩ := List.getElem?_eq_some_iff.1 h1
    simp only [List.length_range] at hlt
    simp only [List.getElem_range] at h1
    subst h1
    exact ⟨hlt, rfl⟩
  refine ⟨by simp [start], by simp [start, results], ?_, ?_, by simp [finished], ?_, by simp [finished], ?_, ?_⟩
  · intro t th h
    obtain ⟨_, rfl⟩ := hts t th h
    exact ⟨0, by simp⟩
  · intro t th h hr
    obtain ⟨_, rfl⟩ := hts t th h
    simp at hr
  · intro t i
    constructor
    · intro h; simp [finished] at h
    · rintro ⟨th, h, ⟨m, rfl⟩, hlt⟩
      obtain ⟨_, rfl⟩ := hts t th h
      simp only at hlt
      have : (0 : Int) ≤ (c.threads : Int) * m := by positivity
      omega
  · intro t th r h hr
    obtain ⟨_, rfl⟩ := hts t th h
    simp at hr
  · intro t th h
    obtain ⟨_, rfl⟩ := hts t th h
    rfl

theorem getElem?_set_cases {α : Type} {l : List α} {t t' : Nat} {x y : α} (h : (l.set t x)[t']? = some y) :
    (t' = t ∧ y = x) ∨ (t' ≠ t ∧ l[t']? = some y) := by
  by_cases ht : t' = t
  · subst ht
    left
    refine ⟨rfl, ?_⟩
    have := (List.getElem?_eq_some_iff.1 h).1
    rw [List.getElem?_set_self (by simpa using this)] at h
    exact (Option.some.inj h).symm
  · right
    rw [List.getElem?_set_ne (Ne.symm ht)] at h
    exact ⟨ht, h⟩

theorem einv_eff {es es' : EState S R} {h : List (EEvent S A R)} {t : Nat} {e : EEvent S A R} (I : EInv c p old es h)
    (E : EEff c es t e es') : EInv c p old es' (e :: h) := by
  have hset : ∀ {th : Thread S R} (x : Thread S R), es.ts[t]? = some th → (es.ts.set t x)[t]? = some x := by
    intro th x hth
    rw [List.getElem?_set_self (List.getElem?_eq_some_iff.1 hth).1]
  cases E with
  | began th hth hr hi =>
    refine ⟨by simp [I.len], I.ret, ?_, ?_, I.nodup, ?_, I.lt, ?_, ?_⟩
    · intro t' th' h'
      rcases getElem?_set_cases h' with ⟨rfl, rfl⟩ | ⟨_, h'⟩
      · exact I.pos _ th hth
      · exact I.pos _ _ h'
    · intro t' th' h' hb
      rcases getElem?_set_cases h' with ⟨rfl, rfl⟩ | ⟨_, h'⟩
      · exact hi
      · exact I.busy _ _ h' hb
    · intro t' i
      show (t', i) ∈ finished h ↔ _
      rw [I.mem]
      by_cases ht : t' = t
      · subst ht
        rw [hset _ hth, hth]
        simp
      · rw [List.getElem?_set_ne (Ne.symm ht)]
    · intro t' th' r' h' hb
      rcases getElem?_set_cases h' with ⟨rfl, rfl⟩ | ⟨hne, h'⟩
      · simp only [Option.some.injEq] at hb
        subst hb
        have hs : rollSteps t' (EEvent.began t' th.i :: h) = [] := by simp [rollSteps]
        rw [hs]
        refine ⟨.nil _, rfl, rfl, rfl, ?_⟩
        show th.pol.reset = p.reset
        unfold Policy.reset
        have := I.polRoot _ th hth
        rw [this]
      · have hs : rollSteps t' (EEvent.began t th.i :: h) = rollSteps t' h := by simp [rollSteps, Ne.symm hne]
        rw [hs]
        exact I.roll _ _ _ h' hb
    · intro t' th' h'
      rcases getElem?_set_cases h' with ⟨rfl, rfl⟩ | ⟨_, h'⟩
      · exact I.polRoot _ th hth
      · exact I.polRoot _ _ h'
  | died th r raw hth hr hlt hs ha =>
    exact ⟨I.len, I.ret, I.pos, I.busy, I.nodup, I.mem, I.lt, I.roll, I.polRoot⟩
  | acted th r raw a s' hth hr hlt hs ha hsucc =>
    refine ⟨by simp [I.len], I.ret, ?_, ?_, I.nodup, ?_, I.lt, ?_, ?_⟩
    · intro t' th' h'
      rcases getElem?_set_cases h' with ⟨rfl, rfl⟩ | ⟨_, h'⟩
      · exact I.pos _ th hth
      · exact I.pos _ _ h'
    · intro t' th' h' hb
      rcases getElem?_set_cases h' with ⟨rfl, rfl⟩ | ⟨_, h'⟩
      · exact I.busy _ th hth (by rw [hr]; rfl)
      · exact I.busy _ _ h' hb
    · intro t' i
      show (t', i) ∈ finished h ↔ _
      rw [I.mem]
      by_cases ht : t' = t
      · subst ht
        rw [hset _ hth, hth]
        simp
      · rw [List.getElem?_set_ne (Ne.symm ht)]
    · intro t' th' r' h' hb
      rcases getElem?_set_cases h' with ⟨rfl, rfl⟩ | ⟨hne, h'⟩
      · simp only [Option.some.injEq] at hb
        subst hb
        obtain ⟨g1, g2, g3, g4, g5⟩ := I.roll _ th r hth hr
        have hs : rollSteps t' (EEvent.acted t' r.state a s' r.ctxAlive :: h) = rollSteps t' h ++ [(r.state, a, s')] := by simp [rollSteps]
        rw [hs]
        refine ⟨g1.snoc hsucc, by rw [returnOf_snoc, ← g2], g3, g4, ?_⟩
        rw [List.map_append]
        show th.pol.update c.tree a s' = drive c.tree p.reset (_ ++ [(a, s')])
        rw [drive_snoc, ← g5]
      · have hs : rollSteps t' (EEvent.acted t r.state a s' r.ctxAlive :: h) = rollSteps t' h := by simp [rollSteps, Ne.symm hne]
        rw [hs]
        exact I.roll _ _ _ h' hb
    · intro t' th' h'
      rcases getElem?_set_cases h' with ⟨rfl, rfl⟩ | ⟨_, h'⟩
      · exact (update_root _ _ _ _).trans (I.polRoot _ th hth)
      · exact I.polRoot _ _ h'
  | finished th r hth hr hg =>
    have hlt := I.busy _ th hth (by rw [hr]; rfl)
    have hfresh : (t, th.i) ∉ finished h := by
      rw [I.mem]
      rintro ⟨th', h1, _, h2⟩
      rw [hth] at h1
      obtain rfl := Option.some.inj h1
      omega
    have hT : 0 < (c.threads : Int) := by
      have := (List.getElem?_eq_some_iff.1 hth).1
      rw [I.len] at this
      omega
    refine ⟨by simp [I.len], ?_, ?_, ?_, ?_, ?_, ?_, ?_, ?_⟩
    · show es.returns ++ [r.ret] = old ++ (results h ++ [r.ret])
      rw [I.ret, List.append_assoc]
    · intro t' th' h'
      rcases getElem?_set_cases h' with ⟨rfl, rfl⟩ | ⟨_, h'⟩
      · obtain ⟨m, hm⟩ := I.pos _ th hth
        refine ⟨m + 1, ?_⟩
        show th.i + c.threads = _
        rw [hm]
        push_cast
        ring
      · exact I.pos _ _ h'
    · intro t' th' h' hb
      rcases getElem?_set_cases h' with ⟨rfl, rfl⟩ | ⟨_, h'⟩
      · simp at hb
      · exact I.busy _ _ h' hb
    · show (finished h ++ [(t, th.i)]).Nodup
      rw [List.nodup_append]
      refine ⟨I.nodup, by simp, ?_⟩
      rintro x hx y hy rfl
      simp at hy
      subst hy
      exact hfresh hx
    · intro t' i
      show (t', i) ∈ finished h ++ [(t, th.i)] ↔ _
      rw [List.mem_append, I.mem]
      by_cases ht : t' = t
      · subst ht
        rw [hset _ hth, hth]
        simp only [Option.some.injEq, exists_eq_left', List.mem_singleton, Prod.mk.injEq, true_and]
        obtain ⟨m, hm⟩ := I.pos _ th hth
        constructor
        · rintro (⟨h1, h2⟩ | rfl)
          · exact ⟨h1, by omega⟩
          · exact ⟨⟨m, hm⟩, by omega⟩
        · rintro ⟨⟨m', hm'⟩, h2⟩
          by_cases hi : i < th.i
          · exact .inl ⟨⟨m', hm'⟩, hi⟩
          · right
            rw [hm] at h2 hi ⊢
            rw [hm'] at h2 hi ⊢
            have h3 : (c.threads : Int) * m' < c.threads * (m + 1) := by
              have : (c.threads : Int) * (m + 1) = c.threads * m + c.threads := by ring
              omega
            have h4 : (m' : Int) < m + 1 := lt_of_mul_lt_mul_left h3 hT.le
            have h5 : (c.threads : Int) * m ≤ c.threads * m' := by omega
            have h6 : (m : Int) ≤ m' := le_of_mul_le_mul_left h5 hT
            have : m' = m := by omega
            rw [this]
      · rw [List.getElem?_set_ne (Ne.symm ht)]
        simp [ht]
    · intro x hx
      have hx : x ∈ finished h ++ [(t, th.i)] := hx
      rcases List.mem_append.1 hx with hx | hx
      · exact I.lt x hx
      · simp at hx
        subst hx
        exact hlt
    · intro t' th' r' h' hb
      rcases getElem?_set_cases h' with ⟨rfl, rfl⟩ | ⟨hne, h'⟩
      · simp at hb
      · exact I.roll _ _ _ h' hb
    · intro t' th' h'
      rcases getElem?_set_cases h' with ⟨rfl, rfl⟩ | ⟨_, h'⟩
      · exact I.polRoot _ th hth
      · exact I.polRoot _ _ h'

theorem einv {es : EState S R} {h : List (EEvent S A R)} (hr : EReach c p old es h) : EInv c p old es h := by
  induction hr with
  | start => exact einv_start c p old
  | step _ hs ih => exact einv_eff ih (eStep_eff hs).2

/-- The state at an earlier moment. -/
theorem ereach_prefix {es : EState S R} {h1 h0 : List (EEvent S A R)} {e : EEvent S A R} (hr : EReach c p old es (h1 ++ e :: h0)) :
    ∃ es0 es1 t, EReach c p old es0 h0 ∧ es0.crashed = false ∧ EEff c es0 t e es1 := by
  generalize hh : h1 ++ e :: h0 = h at hr
  induction hr generalizing h1 with
  | start => simp at hh
  | @step es2 h t raw s' es' e' hr hs ih =>
    cases h1 with
    | nil =>
      simp only [List.nil_append, List.cons.injEq] at hh
      obtain ⟨rfl, rfl⟩ := hh
      obtain ⟨g1, g2⟩ := eStep_eff hs
      exact ⟨es2, es', t, hr, g1, g2⟩
    | cons e2 l =>
      simp only [List.cons_append, List.cons.injEq] at hh
      exact ih hh.2

end Verif.Eval
