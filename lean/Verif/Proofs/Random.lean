import Verif.Spec.Random
import Verif.Proofs.Rollouts
import Verif.Proofs.Live
import Verif.Proofs.CtxInv

/-! # Random searches: exploration (C77) -/

set_option linter.unusedSectionVars false
set_option linter.unusedSimpArgs false

namespace Verif.Random

open Verif.Search Verif.Eval Verif.Spec

/-! ## Finite distributions -/

section
variable {α : Type}

theorem mean1_le {d : List (α × ℝ)} (h0 : ∀ x ∈ d, 0 ≤ x.2) {f g : α → ℝ} (h : ∀ x ∈ d, x.2 ≠ 0 → f x.1 ≤ g x.1) : mean1 d f ≤ mean1 d g := by
  unfold mean1
  refine List.sum_le_sum fun x hx => ?_
  by_cases hz : x.2 = 0
  · simp [hz]
  · exact mul_le_mul_of_nonneg_left (h x hx hz) (h0 x hx)

theorem mean1_congr' {d : List (α × ℝ)} {f g : α → ℝ} (h : ∀ x ∈ d, x.2 ≠ 0 → f x.1 = g x.1) : mean1 d f = mean1 d g := by
  unfold mean1
  congr 1
  refine List.map_congr_left fun x hx => ?_
  by_cases hz : x.2 = 0
  · simp [hz]
  · rw [h x hx hz]

theorem mean1_map {β : Type} (φ : α → β) (d : List (α × ℝ)) (f : β → ℝ) : mean1 (d.map fun p => (φ p.1, p.2)) f = mean1 d fun a => f (φ a) := by
  simp [mean1, Function.comp_def]

theorem weightOf_le [DecidableEq α] {d : List (α × ℝ)} (h : IsDistr d) (a : α) : weightOf d a ≤ 1 := by
  rw [← h.total]
  unfold weightOf mass
  have : ∀ l : List (α × ℝ), (∀ x ∈ l, 0 ≤ x.2) → ((l.filter fun p => p.1 = a).map Prod.snd).sum ≤ (l.map Prod.snd).sum := by
    intro l hl
    induction l with
    | nil => simp
    | cons x l ih =>
      have h1 := ih fun y hy => hl y (List.mem_cons_of_mem _ hy)
      have h2 := hl x (List.mem_cons_self ..)
      by_cases hx : x.1 = a
      · simp [List.filter_cons, hx]; exact h1
      · simp [List.filter_cons, hx]; linarith
  exact this d h.nonneg

/-- The expectation of a function that only depends on whether `a` was drawn. -/
theorem mean1_two [DecidableEq α] {d : List (α × ℝ)} (h : IsDistr d) (a : α) (x y : ℝ) :
    mean1 d (fun b => if b = a then x else y) = weightOf d a * x + (1 - weightOf d a) * y := by
  have : ∀ l : List (α × ℝ), mean1 l (fun b => if b = a then x else y) = weightOf l a * x + ((l.map Prod.snd).sum - weightOf l a) * y := by
    intro l
    induction l with
    | nil => simp [mean1, weightOf, mass]
    | cons p l ih =>
      have e1 : mean1 (p :: l) (fun b => if b = a then x else y) = p.2 * (if p.1 = a then x else y) + mean1 l (fun b => if b = a then x else y) := by
        simp [mean1]
      rw [e1, ih]
      by_cases hp : p.1 = a
      · have : weightOf (p :: l) a = p.2 + weightOf l a := by simp [weightOf, mass, List.filter_cons, hp]
        rw [this]
        simp [hp]
        ring
      · have : weightOf (p :: l) a = weightOf l a := by simp [weightOf, mass, List.filter_cons, hp]
        rw [this]
        simp [hp]
        ring
  rw [this, h.total]

/-- It is at most what it would be if `a` had the smaller probability `p`. -/
theorem mean1_two_le [DecidableEq α] {d : List (α × ℝ)} (h : IsDistr d) {a : α} {p x y : ℝ} (hp : p ≤ weightOf d a) (hxy : x ≤ y) :
    mean1 d (fun b => if b = a then x else y) ≤ p * x + (1 - p) * y := by
  rw [mean1_two h]
  nlinarith

end

/-! ## Plays in the tree -/

section
variable {S A R X Y : Type} [DecidableEq S] [DecidableEq A]

theorem _root_.Verif.Eval.Leads.mono [Add R] [Zero R] {st st' : St S A R X Y} (hle : Le st st') {d e : Nat} {l : List (A × S)} (h : Leads st d l e) : Leads st' d l e := by
  induction h with
  | nil d => exact .nil d
  | cons h1 h2 _ ih => exact .cons (hle.childC h1) (hle.childD h2) ih

theorem _root_.Verif.Eval.Leads.snoc {st : St S A R X Y} {d e : Nat} {l : List (A × S)} (h : Leads st d l e) {a : A} {o : S} {c e' : Nat} (h1 : childC st e a = some c)
    (h2 : childD st c o = some e') : Leads st d (l ++ [(a, o)]) e' := by
  induction h with
  | nil d => exact .cons h1 h2 (.nil _)
  | cons g1 g2 _ ih => exact .cons g1 g2 (ih h1)

theorem _root_.Verif.Eval.Leads.unique {st : St S A R X Y} {d e : Nat} {l : List (A × S)} (h : Leads st d l e) : ∀ {e'}, Leads st d l e' → e' = e := by
  induction h with
  | nil d => intro e' h'; cases h'; rfl
  | cons g1 g2 _ ih =>
    intro e' h'
    cases h' with
    | cons k1 k2 k3 =>
      rw [g1] at k1
      obtain rfl := Option.some.inj k1
      rw [g2] at k2
      obtain rfl := Option.some.inj k2
      exact ih k3

theorem _root_.Verif.Eval.Leads.unsnoc {st : St S A R X Y} {d e' : Nat} {l : List (A × S)} {a : A} {o : S} (h : Leads st d (l ++ [(a, o)]) e') :
    ∃ e c, Leads st d l e ∧ childC st e a = some c ∧ childD st c o = some e' := by
  induction l generalizing d with
  | nil =>
    cases h with
    | cons h1 h2 h3 => cases h3; exact ⟨d, _, .nil d, h1, h2⟩
  | cons p l ih =>
    cases h with
    | cons h1 h2 h3 =>
      obtain ⟨e, c, k1, k2, k3⟩ := ih h3
      exact ⟨e, c, .cons h1 h2 k1, k2, k3⟩

theorem _root_.Verif.Eval.Leads.split {st : St S A R X Y} {d e : Nat} {l l' : List (A × S)} (h : Leads st d (l ++ l') e) : ∃ e', Leads st d l e' ∧ Leads st e' l' e := by
  induction l generalizing d with
  | nil => exact ⟨d, .nil d, h⟩
  | cons p l ih =>
    cases h with
    | cons h1 h2 h3 =>
      obtain ⟨e', k1, k2⟩ := ih h3
      exact ⟨e', .cons h1 h2 k1, k2⟩

/-- The state after a play. -/
def endState (s : S) : List (A × S) → S
  | [] => s
  | (_, o) :: rest => endState o rest

theorem endState_append (s : S) (l l' : List (A × S)) : endState s (l ++ l') = endState (endState s l) l' := by
  induction l generalizing s with
  | nil => rfl
  | cons p l ih => exact ih _

theorem _root_.Verif.Eval.Leads.node [AddMonoid R] {env : Env S A R} {m : Manager S R} {s0 : S} {dp tm : Int} {st : St S A R X Y} (T : Tree env m s0 dp tm st) {d e : Nat}
    {l : List (A × S)} (h : Leads st d l e) : ∀ {nd : DNode S A R X}, st.dn[d]? = some nd →
    ∃ ne, st.dn[e]? = some ne ∧ ne.state = endState nd.state l ∧ ne.depth = nd.depth + l.length ∧ ne.time = nd.time + l.length := by
  induction h with
  | nil d => intro nd hd; exact ⟨nd, hd, rfl, by simp, by simp⟩
  | @cons d c d' e a o rest h1 h2 _ ih =>
    intro nd hd
    obtain ⟨nd2, nc, f1, f2, _, _, _, f6, f7, _⟩ := childC_facts T h1
    rw [hd] at f1
    obtain rfl := Option.some.inj f1
    obtain ⟨nc2, nd', g1, g2, _, g4, g5, g6, _⟩ := childD_facts T h2
    rw [f2] at g1
    obtain rfl := Option.some.inj g1
    obtain ⟨ne, k1, k2, k3, k4⟩ := ih g2
    refine ⟨ne, k1, ?_, ?_, ?_⟩
    · rw [k2, g4]; rfl
    · rw [k3, g5, f6]; simp; omega
    · rw [k4, g6, f7]; simp; omega

theorem ValidPlay.at [Add R] [Zero R] {env : Env S A R} {s : S} {l : List (A × S)} (h : ValidPlay env s l) : ∀ {i : Nat} {a : A} {o : S}, l[i]? = some (a, o) →
    env.isSink (endState s (l.take i)) = false ∧ a ∈ env.actions (endState s (l.take i)) ∧ o ∈ env.succ (endState s (l.take i)) a := by
  induction l generalizing s with
  | nil => intro i a o hi; simp at hi
  | cons p l ih =>
    intro i a o hi
    obtain ⟨b, o'⟩ := p
    obtain ⟨h1, h2, h3, h4⟩ := h
    cases i with
    | zero =>
      simp at hi
      obtain ⟨rfl, rfl⟩ := hi
      exact ⟨h1, h2, h3⟩
    | succ i => exact ih h4 (by simpa using hi)

/-! ## Following a play -/

/-- How far the current trial of a worker has followed the play. -/
inductive Status where
  /-- it has taken the first `i` steps of the play, along existing nodes -/
  | on (i : Nat)
  /-- moreover it has selected the next action -/
  | pend (i : Nat)
  /-- it has left the play, or added a node to the tree, or it is over -/
  | off
  deriving DecidableEq

/-- The status of worker `w`, read off the history. -/
def status (play : List (A × S)) (w : Nat) : List (Event S A R) → Status
  | [] => .off
  | .began w' :: h => if w' = w then .on 0 else status play w h
  | .selected w' _ a _ :: h => if w' = w then
      match status play w h with
      | .on i => if (play[i]?).map Prod.fst = some a then .pend i else .off
      | _ => .off
    else status play w h
  | .stepped w' _ _ _ o _ _ grew :: h => if w' = w then
      match status play w h with
      | .pend i => if (play[i]?).map Prod.snd = some o ∧ grew = false then .on (i + 1) else .off
      | _ => .off
    else status play w h
  | .ended w' _ _ :: h => if w' = w then .off else status play w h
  | .backedC _ _ _ :: h => status play w h
  | .backedD _ _ _ :: h => status play w h
  | .completed _ :: h => status play w h
  | .crash _ _ :: h => status play w h

/-- Number of trials that left the play by choosing another action or observation. -/
def left (play : List (A × S)) : List (Event S A R) → Nat
  | [] => 0
  | .selected w _ a _ :: h => left play h + match status play w h with
      | .on i => if (play[i]?).map Prod.fst = some a then 0 else 1
      | _ => 0
  | .stepped w _ _ _ o _ _ _ :: h => left play h + match status play w h with
      | .pend i => if (play[i]?).map Prod.snd = some o then 0 else 1
      | _ => 0
  | _ :: h => left play h

/-- Number of trials that followed the play until they added a node for it. -/
def added (play : List (A × S)) : List (Event S A R) → Nat
  | [] => 0
  | .stepped w _ _ _ o _ _ grew :: h => added play h + match status play w h with
      | .pend i => if (play[i]?).map Prod.snd = some o ∧ grew = true then 1 else 0
      | _ => 0
  | _ :: h => added play h

theorem status_other {play : List (A × S)} {w : Nat} {e : Event S A R} {h : List (Event S A R)} (hw : e.worker ≠ w) :
    status play w (e :: h) = status play w h := by
  cases e <;> simp only [Event.worker] at hw <;> simp [status, hw]

variable [AddMonoid R] {env : Env S A R} {m : Manager S R} {alg : Alg S A R X Y} {k : Nat} {s0 : S} {dp tm : Int}
  {tb : List ((Int × S) × Option Nat)} {st : St S A R X Y} {h : List (Event S A R)} {play : List (A × S)}

/-- What the phase of a worker says about its status. -/
def StInv (play : List (A × S)) (st : St S A R X Y) (h : List (Event S A R)) (w : Nat) : Phase S A R → Prop
  | .sel cur _ _ new => status play w h = .off ∨ ∃ i, i ≤ play.length ∧ status play w h = .on i ∧ Leads st st.root (play.take i) cur ∧ new = false
  | .samp cur a c _ _ new => status play w h = .off ∨ ∃ i o, play[i]? = some (a, o) ∧ status play w h = .pend i ∧ Leads st st.root (play.take i) cur ∧
      childC st cur a = some c ∧ new = false
  | _ => status play w h = .off

theorem StInv.mono {st' : St S A R X Y} (hle : Le st st') {w : Nat} {e : Event S A R} (hw : e.worker ≠ w) {p : Phase S A R} (H : StInv play st h w p) :
    StInv play st' (e :: h) w p := by
  cases p with
  | sel cur path rs new =>
    rcases H with H | ⟨i, h1, h2, h3, h4⟩
    · exact .inl (by rw [status_other hw]; exact H)
    · exact .inr ⟨i, h1, by rw [status_other hw]; exact h2, by rw [hle.root]; exact h3.mono hle, h4⟩
  | samp cur a c path rs new =>
    rcases H with H | ⟨i, o, h1, h2, h3, h4, h5⟩
    · exact .inl (by rw [status_other hw]; exact H)
    · exact .inr ⟨i, o, h1, by rw [status_other hw]; exact h2, by rw [hle.root]; exact h3.mono hle, hle.childC h4, h5⟩
  | idle => show status _ _ _ = _; rw [status_other hw]; exact H
  | back => show status _ _ _ = _; rw [status_other hw]; exact H
  | backD => show status _ _ _ = _; rw [status_other hw]; exact H

theorem take_snoc {l : List (A × S)} {i : Nat} {p : A × S} (h : l[i]? = some p) : l.take (i + 1) = l.take i ++ [p] := by
  rw [List.take_add_one, h]; rfl

theorem crash_status {w v : Nat} {x : Err} {p : Phase S A R} (H : StInv play st h w p) : StInv play { st with crashed := some x } (.crash v x :: h) w p := by
  have hle : Le st { st with crashed := some x } := ⟨rfl, (Le.refl st).d, (Le.refl st).c⟩
  cases p with
  | sel cur path rs new =>
    rcases H with H | ⟨i, h1, h2, h3, h4⟩
    · exact .inl H
    · exact .inr ⟨i, h1, h2, h3.mono hle, h4⟩
  | samp cur a c path rs new =>
    rcases H with H | ⟨i, o, h1, h2, h3, h4, h5⟩
    · exact .inl H
    · exact .inr ⟨i, o, h1, h2, h3.mono hle, h4, h5⟩
  | _ => exact H

theorem sel_status {st' : St S A R X Y} {w cur c : Nat} {path : List (Nat × Nat)} {rs : List R} {new : Bool} {a : A}
    (H : StInv play st h w (.sel cur path rs new)) (hle : Le st st') (hc : childC st' cur a = some c) :
    StInv play st' (.selected w cur a c :: h) w (.samp cur a c path rs new) := by
  rcases H with H | ⟨i, h1, h2, h3, h4⟩
  · exact .inl (by simp [status, H])
  · cases hi : play[i]? with
    | none => exact .inl (by simp [status, h2, hi])
    | some p =>
      by_cases ha : p.1 = a
      · exact .inr ⟨i, p.2, by rw [hi, ← ha], by simp [status, h2, hi, ha], by rw [hle.root]; exact h3.mono hle, hc, h4⟩
      · exact .inl (by simp [status, h2, hi, ha])

theorem step_status {st' : St S A R X Y} {w cur c d' : Nat} {path path' : List (Nat × Nat)} {rs rs' : List R} {new : Bool} {a : A} {o : S} {r : R}
    (H : StInv play st h w (.samp cur a c path rs new)) (hle : Le st st') (hc : childD st' c o = some d') :
    StInv play st' (.stepped w cur a c o d' r false :: h) w (.sel d' path' rs' new) := by
  rcases H with H | ⟨i, o', h1, h2, h3, h4, h5⟩
  · exact .inl (by simp [status, H])
  · by_cases ho : o' = o
    · subst ho
      have hlt := (List.getElem?_eq_some_iff.1 h1).1
      refine .inr ⟨i + 1, hlt, by simp [status, h2, h1], ?_, h5⟩
      rw [take_snoc h1, hle.root]
      exact (h3.mono hle).snoc (hle.childC h4) hc
    · exact .inl (by simp [status, h2, h1, ho])

theorem step_status_new {st' : St S A R X Y} {w cur c d' : Nat} {path path' : List (Nat × Nat)} {rs rs' : List R} {new new' : Bool} {a : A} {o : S} {r : R}
    (H : StInv play st h w (.samp cur a c path rs new)) :
    StInv play st' (.stepped w cur a c o d' r true :: h) w (.sel d' path' rs' new') := by
  rcases H with H | ⟨i, o', h1, h2, h3, h4, h5⟩
  · exact .inl (by simp [status, H])
  · exact .inl (by simp [status, h2])

theorem reach_status (hv : alg.Valid) (htb : Leftover tb) (hr : Reachable env m alg k s0 dp tm tb st h) : ∀ w p, st.ws[w]? = some p → StInv play st h w p := by
  refine reach_induct (fun st h => ∀ w p, st.ws[w]? = some p → StInv play st h w p) ?_ ?_ hr
  · intro w p hp
    simp only [init, List.getElem?_replicate] at hp
    split at hp
    · simp at hp; subst hp; rfl
    · simp at hp
  · intro st h w e st' hr ih hc E v p hp
    have hle := le_eff E
    by_cases hvw : v = w
    · subst hvw
      obtain ⟨I, C⟩ := reach_both hv htb hr
      have C' := cnt_eff I C E
      have hset : ∀ {q : Phase S A R} {x : Phase S A R}, st.ws[v]? = some q → (st.ws.set v x)[v]? = some x := fun h =>
        List.getElem?_set_self (List.getElem?_eq_some_iff.1 h).1
      cases E with
      | crash hx => exact crash_status (ih v p hp)
      | began hw =>
        simp only [hset hw, Option.some.injEq] at hp
        subst hp
        exact .inr ⟨0, Nat.zero_le _, by simp [status], .nil _, rfl⟩
      | @selOld cur path rs new nd a c hw hd hl hm ha hf =>
        simp only [hset hw, Option.some.injEq] at hp
        subst hp
        exact sel_status (ih v _ hw) hle (C'.evSel v cur a c (List.mem_cons_self ..))
      | @selNew cur path rs new nd a hw hd hl hm ha hf =>
        simp only [hset hw, Option.some.injEq] at hp
        subst hp
        exact sel_status (ih v _ hw) hle (C'.evSel v cur a _ (List.mem_cons_self ..))
      | ended hw hd hs =>
        simp only [hset hw, Option.some.injEq] at hp
        subst hp
        show status _ _ _ = _
        simp [status]
      | @stepOld cur a c path rs new nc nd o d' hw hc hd ho hf =>
        simp only [hset hw, Option.some.injEq] at hp
        subst hp
        exact step_status (ih v _ hw) hle (C'.evStep v cur a c o d' _ _ (List.mem_cons_self ..)).1
      | @stepNew cur a c path rs new nc nd o tb hw hc hd ho hf ht =>
        simp only [hset hw, Option.some.injEq] at hp
        subst hp
        exact step_status_new (ih v _ hw)
      | @stepHit cur a c path rs new nc nd o d' hw hc hd ho hf hu ht =>
        simp only [hset hw, Option.some.injEq] at hp
        subst hp
        exact step_status_new (ih v _ hw)
      | completed hw =>
        simp only [hset hw, Option.some.injEq] at hp
        subst hp
        exact ih v _ hw
      | backedC hw hc =>
        simp only [hset hw, Option.some.injEq] at hp
        subst hp
        exact ih v _ hw
      | backedD hw hd =>
        simp only [hset hw, Option.some.injEq] at hp
        subst hp
        exact ih v _ hw
    · rw [eff_ws_other E hvw] at hp
      exact (ih v p hp).mono hle (by rw [eff_worker E]; exact Ne.symm hvw)

/-! ## Counting -/

theorem explored_mono {st' : St S A R X Y} (hle : Le st st') (hx : Explored st play) : Explored st' play := by
  obtain ⟨e, he⟩ := hx
  exact ⟨e, by rw [hle.root]; exact he.mono hle⟩

/-- A worker that is still on the play does not end its trial. -/
theorem on_continues (hv : alg.Valid) (htb : Leftover tb) (hr : Reachable env m alg k s0 dp tm tb st h) (hp : ValidPlay env s0 play)
    (hl : dp + play.length ≤ m.maxDepth) (hx : ¬ Explored st play) {w cur i : Nat} {path : List (Nat × Nat)} {rs : List R} {new : Bool}
    (hw : st.ws[w]? = some (.sel cur path rs new)) (hs : status play w h = .on i) :
    ∃ a o nd, play[i]? = some (a, o) ∧ st.dn[cur]? = some nd ∧ nd.state = endState s0 (play.take i) ∧ isLeaf env m nd = false ∧ new = false := by
  rcases reach_status (play := play) hv htb hr w _ hw with H | ⟨j, h1, h2, h3, h4⟩
  · rw [hs] at H; cases H
  · rw [hs] at h2
    cases h2
    have hlt : i < play.length := by
      rcases Nat.lt_or_ge i play.length with h | h
      · exact h
      · rw [List.take_of_length_le h] at h3
        exact absurd ⟨_, h3⟩ hx
    obtain ⟨⟨a, o⟩, hi⟩ : ∃ x, play[i]? = some x := ⟨_, List.getElem?_eq_getElem hlt⟩
    have T := (reach_inv hv htb hr).tree
    obtain ⟨nr, g1, g2, g3, _⟩ := root_node T
    obtain ⟨nd, k1, k2, k3, _⟩ := h3.node T g1
    have hv := hp.at hi
    refine ⟨a, o, nd, hi, k1, by rw [k2, g2], ?_, h4⟩
    rw [g2] at k2
    rw [g3, List.length_take, Nat.min_eq_left hlt.le] at k3
    simp only [isLeaf, k2, hv.1, Bool.false_or, decide_eq_false_iff_not, not_le, k3]
    omega

theorem samp_node (hv : alg.Valid) (htb : Leftover tb) (hr : Reachable env m alg k s0 dp tm tb st h) {w cur c i : Nat} {a : A}
    {path : List (Nat × Nat)} {rs : List R} {new : Bool} (hw : st.ws[w]? = some (.samp cur a c path rs new)) (hs : status play w h = .pend i) :
    ∃ o nc, play[i]? = some (a, o) ∧ st.cn[c]? = some nc ∧ nc.state = endState s0 (play.take i) ∧ nc.action = a ∧ childC st cur a = some c ∧
      Leads st st.root (play.take i) cur := by
  rcases reach_status (play := play) hv htb hr w _ hw with H | ⟨j, o, h1, h2, h3, h4, h5⟩
  · rw [hs] at H; cases H
  · rw [hs] at h2
    cases h2
    have T := (reach_inv hv htb hr).tree
    obtain ⟨nr, g1, g2, g3, _⟩ := root_node T
    obtain ⟨nd, k1, k2, k3, _⟩ := h3.node T g1
    obtain ⟨nd2, nc, f1, f2, _, f4, f5, _⟩ := childC_facts T h4
    rw [k1] at f1
    obtain rfl := Option.some.inj f1
    exact ⟨o, nc, h1, f2, by rw [f4, k2, g2], f5, h4, h3⟩

/-- Is the worker's trial still on the play? -/
def act (play : List (A × S)) (h : List (Event S A R)) (w : Nat) : Nat := if status play w h = .off then 0 else 1

theorem act_of {w : Nat} {x : Status} (hs : status play w h = x) : act play h w = if x = .off then 0 else 1 := by rw [act, hs]

theorem sum_change' {T w : Nat} (hw : w < T) {f g : Nat → Nat} (h : ∀ v ≠ w, g v = f v) :
    ∑ i ∈ Finset.range T, g i + f w = ∑ i ∈ Finset.range T, f i + g w := by
  have hm : w ∈ Finset.range T := Finset.mem_range.2 hw
  rw [← Finset.add_sum_erase _ g hm, ← Finset.add_sum_erase _ f hm]
  have : ∑ i ∈ (Finset.range T).erase w, g i = ∑ i ∈ (Finset.range T).erase w, f i :=
    Finset.sum_congr rfl fun i hi => h i (Finset.ne_of_mem_erase hi)
  rw [this]
  omega

theorem eff_lt {st' : St S A R X Y} {w : Nat} {e : Event S A R} (hr : Reachable env m alg k s0 dp tm tb st h) (E : Eff env m alg st w e st') :
    w < k := by
  rw [← reach_len hr]
  cases E with
  | crash hx => cases hx with
    | sel hw _ => exact (List.getElem?_eq_some_iff.1 hw).1
    | samp hw _ => exact (List.getElem?_eq_some_iff.1 hw).1
    | noMutex hw _ _ _ _ => exact (List.getElem?_eq_some_iff.1 hw).1
    | weak hw _ _ _ _ => exact (List.getElem?_eq_some_iff.1 hw).1
    | backV hw _ _ => exact (List.getElem?_eq_some_iff.1 hw).1
    | backC hw _ _ => exact (List.getElem?_eq_some_iff.1 hw).1
    | backD hw _ => exact (List.getElem?_eq_some_iff.1 hw).1
  | began hw => exact (List.getElem?_eq_some_iff.1 hw).1
  | selOld hw => exact (List.getElem?_eq_some_iff.1 hw).1
  | selNew hw => exact (List.getElem?_eq_some_iff.1 hw).1
  | ended hw => exact (List.getElem?_eq_some_iff.1 hw).1
  | stepOld hw => exact (List.getElem?_eq_some_iff.1 hw).1
  | stepNew hw => exact (List.getElem?_eq_some_iff.1 hw).1
  | stepHit hw => exact (List.getElem?_eq_some_iff.1 hw).1
  | completed hw => exact (List.getElem?_eq_some_iff.1 hw).1
  | backedC hw => exact (List.getElem?_eq_some_iff.1 hw).1
  | backedD hw => exact (List.getElem?_eq_some_iff.1 hw).1

/-- What an event of worker `w` does to the counts, given that the play is not explored. -/
inductive Move (play : List (A × S)) (w : Nat) (h : List (Event S A R)) (e : Event S A R) : Prop where
  | start (h1 : status play w h = .off) (h2 : status play w (e :: h) = .on 0) (h3 : trialsBegun (e :: h) = trialsBegun h + 1)
      (h4 : left play (e :: h) = left play h) (h5 : added play (e :: h) = added play h)
  | idle (h1 : status play w h = .off) (h2 : status play w (e :: h) = .off) (h3 : trialsBegun (e :: h) = trialsBegun h)
      (h4 : left play (e :: h) = left play h) (h5 : added play (e :: h) = added play h)
  | sel (i d c : Nat) (a a0 : A) (o : S) (h0 : play[i]? = some (a0, o)) (he : e = .selected w d a c) (h1 : status play w h = .on i)
      (h2 : status play w (e :: h) = if a = a0 then .pend i else .off) (h3 : trialsBegun (e :: h) = trialsBegun h)
      (h4 : left play (e :: h) = left play h + if a = a0 then 0 else 1) (h5 : added play (e :: h) = added play h)
  | stp (i d c d' : Nat) (a : A) (o o0 : S) (r : R) (g : Bool) (h0 : play[i]? = some (a, o0)) (he : e = .stepped w d a c o d' r g)
      (h1 : status play w h = .pend i)
      (h2 : status play w (e :: h) = if o = o0 ∧ g = false then .on (i + 1) else .off) (h3 : trialsBegun (e :: h) = trialsBegun h)
      (h4 : left play (e :: h) = left play h + if o = o0 then 0 else 1)
      (h5 : added play (e :: h) = added play h + if o = o0 ∧ g = true then 1 else 0)

theorem eff_move (hv : alg.Valid) (htb : Leftover tb) (ht : TableOk m tb) (hr : Reachable env m alg k s0 dp tm tb st h) (hp : ValidPlay env s0 play)
    (hl : dp + play.length ≤ m.maxDepth) (hx : ¬ Explored st play) {st' : St S A R X Y} {w : Nat} {e : Event S A R}
    (hnc : st'.crashed = none) (E : Eff env m alg st w e st') : Move play w h e := by
  have hst := reach_status (play := play) hv htb hr
  have sel : ∀ {cur path rs new a c}, st.ws[w]? = some (.sel cur path rs new) → Move play w h (.selected w cur a c) := by
    intro cur path rs new a c hw
    rcases hst w _ hw with H | ⟨i, h1, h2, h3, h4⟩
    · exact .idle H (by simp [status, H]) (by simp [trialsBegun]) (by simp [left, H]) (by simp [added])
    · obtain ⟨a0, o, nd, g1, _⟩ := on_continues hv htb hr hp hl hx hw h2
      exact .sel i cur c a a0 o g1 rfl h2 (by simp [status, h2, g1, eq_comm]) (by simp [trialsBegun]) (by simp [left, h2, g1, eq_comm]) (by simp [added])
  have stp : ∀ {cur a c path rs new o d' r g}, st.ws[w]? = some (.samp cur a c path rs new) → Move play w h (.stepped w cur a c o d' r g) := by
    intro cur a c path rs new o d' r g hw
    rcases hst w _ hw with H | ⟨i, o0, h1, h2, h3, h4⟩
    · exact .idle H (by simp [status, H]) (by simp [trialsBegun]) (by simp [left, H]) (by simp [added, H])
    · exact .stp i cur c d' a o o0 r g h1 rfl h2 (by simp [status, h2, h1, eq_comm]) (by simp [trialsBegun]) (by simp [left, h2, h1, eq_comm])
        (by simp [added, h2, h1, eq_comm])
  cases E with
  | crash hx => simp at hnc
  | began hw => exact .start (hst w _ hw) (by simp [status]) (by simp [trialsBegun]) (by simp [left]) (by simp [added])
  | selOld hw => exact sel hw
  | selNew hw => exact sel hw
  | @ended cur path rs new nd hw hd hs =>
    rcases hst w _ hw with H | ⟨i, h1, h2, h3, h4⟩
    · exact .idle H (by simp [status]) (by simp [trialsBegun]) (by simp [left]) (by simp [added])
    · obtain ⟨a0, o, nd', g1, g2, g3, g4, g5⟩ := on_continues hv htb hr hp hl hx hw h2
      rw [hd] at g2
      obtain rfl := Option.some.inj g2
      subst g5
      simp [g4] at hs
  | stepOld hw => exact stp hw
  | stepNew hw => exact stp hw
  | stepHit hw => exact stp hw
  | completed hw => exact .idle (hst w _ hw) (by have : status play w h = .off := hst w _ hw; simpa [status] using this) (by simp [trialsBegun]) (by simp [left]) (by simp [added])
  | backedC hw => exact .idle (hst w _ hw) (by have : status play w h = .off := hst w _ hw; simpa [status] using this) (by simp [trialsBegun]) (by simp [left]) (by simp [added])
  | backedD hw => exact .idle (hst w _ hw) (by have : status play w h = .off := hst w _ hw; simpa [status] using this) (by simp [trialsBegun]) (by simp [left]) (by simp [added])

/-- As long as the play is not explored every trial has left it, or has added a node of it, or is still on it. -/
theorem balance (hv : alg.Valid) (htb : Leftover tb) (ht : TableOk m tb) (hr : Reachable env m alg k s0 dp tm tb st h) (hp : ValidPlay env s0 play)
    (hl : dp + play.length ≤ m.maxDepth) (hx : ¬ Explored st play) :
    trialsBegun h = left play h + added play h + ∑ w ∈ Finset.range k, act play h w := by
  have := reach_induct (alg := alg) (fun st h => st.crashed = none → ¬ Explored st play →
    trialsBegun h = left play h + added play h + ∑ w ∈ Finset.range k, act play h w)
    (by
      intro _ _
      have : ∑ w ∈ Finset.range k, act play ([] : List (Event S A R)) w = 0 := Finset.sum_eq_zero fun w _ => by simp [act, status]
      rw [this]; simp [trialsBegun, left, added])
    (by
      intro st h w e st' hr ih hc E hc' hx'
      have hx := mt (explored_mono (le_eff E)) hx'
      have h0 := ih hc hx
      have hw := eff_lt hr E
      have hsum := sum_change' hw (f := act play h) (g := act play (e :: h)) (fun v hvw => by
        unfold act
        rw [status_other (by rw [eff_worker E]; exact Ne.symm hvw)])
      rcases eff_move hv htb ht hr hp hl hx hc' E with ⟨h1, h2, h3, h4, h5⟩ | ⟨h1, h2, h3, h4, h5⟩ | ⟨i, d, c, a, a0, o, _, _, h1, h2, h3, h4, h5⟩ |
        ⟨i, d, c, d', a, o, o0, r, g, _, _, h1, h2, h3, h4, h5⟩
      · rw [act_of h1, act_of h2] at hsum; simp at hsum; omega
      · rw [act_of h1, act_of h2] at hsum; simp at hsum; omega
      · by_cases ha : a = a0
        · simp only [ha, if_true] at h2 h4
          rw [act_of h1, act_of h2] at hsum; simp at hsum; omega
        · simp only [ha, if_false] at h2 h4
          rw [act_of h1, act_of h2] at hsum; simp at hsum; omega
      · by_cases ho : o = o0
        · cases g
          · simp only [ho, if_true, true_and, Bool.false_eq_true, if_false] at h2 h4 h5
            rw [act_of h1, act_of h2] at hsum; simp at hsum; omega
          · simp only [ho, if_true, true_and, Bool.true_eq_false, if_false] at h2 h4 h5
            rw [act_of h1, act_of h2] at hsum; simp at hsum; omega
        · simp only [ho, if_false, false_and] at h2 h4 h5
          rw [act_of h1, act_of h2] at hsum; simp at hsum; omega)
    hr
  exact this (safe_reach hv htb ht hr) hx

open Classical in
/-- The steps of the play for which the tree has a node. -/
noncomputable def levels (play : List (A × S)) (st : St S A R X Y) : Finset Nat :=
  (Finset.range play.length).filter fun i => ∃ e, Leads st st.root (play.take (i + 1)) e

theorem levels_mono {st' : St S A R X Y} (hle : Le st st') : levels play st ⊆ levels play st' := by
  intro i hi
  simp only [levels, Finset.mem_filter] at hi ⊢
  exact ⟨hi.1, explored_mono (play := play.take (i + 1)) hle hi.2⟩

theorem added_le (hv : alg.Valid) (htb : Leftover tb) (hr : Reachable env m alg k s0 dp tm tb st h) : added play h ≤ play.length := by
  have : added play h ≤ (levels play st).card := by
    refine reach_induct (fun st h => added play h ≤ (levels play st).card) (by simp [added]) ?_ hr
    intro st h w e st' hr ih hc E
    have hle := le_eff E
    have hm := Finset.card_le_card (levels_mono (play := play) hle)
    obtain ⟨I, C⟩ := reach_both hv htb hr
    have C' := cnt_eff I C E
    have grow : ∀ {cur a c path rs new nc o d' r}, st.ws[w]? = some (.samp cur a c path rs new) → st.cn[c]? = some nc →
        find? o nc.kids = none → e = .stepped w cur a c o d' r true → added play (e :: h) ≤ (levels play st').card := by
      intro cur a c path rs new nc o d' r hw hnc hf he
      subst he
      cases hs : status play w h with
      | on i => simp only [added, hs]; omega
      | off => simp only [added, hs]; omega
      | pend i =>
        obtain ⟨o0, nc', g1, g2, _, _, g5, g6⟩ := samp_node hv htb hr hw hs
        simp only [added, hs, g1, Option.map_some, Option.some.injEq]
        by_cases ho : o0 = o
        · subst ho
          rw [if_pos ⟨rfl, trivial⟩]
          have hin : i ∈ levels play st' := by
            simp only [levels, Finset.mem_filter, Finset.mem_range]
            refine ⟨(List.getElem?_eq_some_iff.1 g1).1, d', ?_⟩
            rw [take_snoc g1, hle.root]
            exact (g6.mono hle).snoc (hle.childC g5) (C'.evStep w cur a c o0 d' r true (List.mem_cons_self ..)).1
          have hni : i ∉ levels play st := by
            simp only [levels, Finset.mem_filter, not_and]
            rintro _ ⟨e, he⟩
            rw [take_snoc g1] at he
            obtain ⟨e1, c1, k1, k2, k3⟩ := he.unsnoc
            obtain rfl := k1.unique g6
            rw [g5] at k2
            obtain rfl := Option.some.inj k2
            simp [childD, hnc, hf] at k3
          have : (levels play st).card < (levels play st').card :=
            Finset.card_lt_card ⟨levels_mono hle, fun hsub => hni (hsub hin)⟩
          omega
        · rw [if_neg (fun hh => ho hh.1)]; omega
    cases E with
    | stepNew hw hc hd ho hf ht => exact grow hw hc hf rfl
    | stepHit hw hc hd ho hf hu ht => exact grow hw hc hf rfl
    | stepOld hw =>
      refine le_trans (le_of_eq ?_) (le_trans ih hm)
      simp only [added]
      cases status play w h <;> simp
    | _ => simp only [added]; omega
  refine le_trans this ?_
  have := Finset.card_le_card (show levels play st ⊆ Finset.range play.length by
    intro i hi
    simp only [levels, Finset.mem_filter] at hi
    exact hi.1)
  simpa using this

end

end Verif.Random
