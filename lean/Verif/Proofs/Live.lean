import Verif.Spec.Live
import Verif.Props.Search
import Verif.Proofs.SearchPrefix

/-! # Progress of a search (C74) -/

namespace Verif.Search

set_option linter.unusedSectionVars false

variable {S A R X Y : Type} [DecidableEq S] [DecidableEq A]

section
variable [Add R] [Zero R] {env : Env S A R} {m : Manager S R} {alg : Alg S A R X Y} {k : Nat} {s0 : S} {dp tm : Int}
  {tb : List ((Int × S) × Option Nat)}

theorem reach_snoc {st st' : St S A R X Y} {h : List (Event S A R)} {w : Nat} {ch : Choice S A} {e : Event S A R}
    (hr : Reachable env m alg k s0 dp tm tb st h) (hs : step env m alg st w ch = some (st', e)) :
    Reachable env m alg k s0 dp tm tb st' (e :: h) := by
  obtain ⟨ls, hx⟩ := hr
  exact ⟨ls ++ [(w, ch)], by rw [exec_snoc, hx]; simp [hs]⟩

theorem exec_append {l1 l2 : List (Nat × Choice S A)} : ∀ {st : St S A R X Y} {h}, execFrom env m alg st h (l1 ++ l2) =
    (execFrom env m alg st h l1).bind fun p => execFrom env m alg p.1 p.2 l2 := by
  induction l1 with
  | nil => intro st h; simp [execFrom]
  | cons l l1 ih =>
    obtain ⟨w, ch⟩ := l
    intro st h
    simp only [List.cons_append, execFrom]
    split
    · exact ih
    · rfl

theorem reach_append {st st' : St S A R X Y} {h h' : List (Event S A R)} {ls : List (Nat × Choice S A)}
    (hr : Reachable env m alg k s0 dp tm tb st h) (hx : execFrom env m alg st h ls = some (st', h')) :
    Reachable env m alg k s0 dp tm tb st' h' := by
  obtain ⟨l, hl⟩ := hr
  exact ⟨l ++ ls, by rw [exec_append, hl]; exact hx⟩

end

section
variable [AddMonoid R] {env : Env S A R} {m : Manager S R} {alg : Alg S A R X Y} {k : Nat} {s0 : S} {dp tm : Int}
  {tb : List ((Int × S) × Option Nat)} {st : St S A R X Y} {h : List (Event S A R)}

theorem safe_reach (hv : alg.Valid) (htb : Leftover tb) (ht : TableOk m tb) (hr : Reachable env m alg k s0 dp tm tb st h) :
    st.crashed = none := by
  rcases c19_only_table_failures hv htb hr with h1 | ⟨h1, ⟨_, h2⟩ | ⟨_, h2⟩⟩
  · exact h1
  · exact absurd h2 (ht h1).1
  · exact absurd (ht h1).2 h2

/-- Every worker can take a step. -/
theorem enabled (hl : env.Live) (hv : alg.Valid) (htb : Leftover tb) (ht : TableOk m tb) (hs : Selects env m alg k s0 dp tm tb)
    (hr : Reachable env m alg k s0 dp tm tb st h) {w : Nat} (hw : w < k) : ∃ ch st' e, step env m alg st w ch = some (st', e) := by
  have hc := safe_reach hv htb ht hr
  obtain ⟨p, hp⟩ := reach_phase hr hw
  have I := reach_inv hv htb hr
  have W := I.ws w p hp
  cases p with
  | idle => exact ⟨.go, _, _, by unfold step; rw [hc, hp]; rfl⟩
  | sel cur path rs new =>
    cases hd : st.dn[cur]? with
    | none => exact ⟨.go, _, _, by unfold step; rw [hc, hp]; simp only [Option.isSome_none, Bool.false_eq_true, if_false, hd]; rfl⟩
    | some nd =>
      cases hsc : shouldContinue env m nd new with
      | true =>
        obtain ⟨a, st', e, h1⟩ := hs hr hc hp hd hsc
        exact ⟨_, _, _, h1⟩
      | false =>
        refine ⟨.go, ?_⟩
        unfold step
        rw [hc, hp]
        simp only [Option.isSome_none, Bool.false_eq_true, if_false, hd, hsc, blockEnd]
        split
        · exact ⟨_, _, rfl⟩
        · exact ⟨_, _, rfl⟩
  | samp cur a c path rs new =>
    obtain ⟨_, _, _, _, _, _, h1, ⟨nd, h2, h3⟩, _⟩ := W
    obtain ⟨nd', nc, g1, g2, g0, g3, g4, _⟩ := childC_facts I.tree h1
    rw [h2] at g1
    obtain rfl := Option.some.inj g1
    have g5 : a ∈ env.actions nd.state := I.tree.heap.dAct cur nd.skel a c (by simp [h2]) g0
    have hsink : env.isSink nd.state = false := by
      simp only [isLeaf, Bool.or_eq_false_iff] at h3
      exact h3.1
    obtain ⟨o, ho⟩ := List.exists_mem_of_ne_nil _ (hl.succs nd.state hsink a g5)
    refine ⟨.obs o, ?_⟩
    unfold step
    rw [hc, hp]
    simp only [Option.isSome_none, Bool.false_eq_true, if_false, blockC, g2, h2]
    rw [if_pos (by rw [g3, g4]; exact ho)]
    split
    · exact ⟨_, _, rfl⟩
    · split
      · exact ⟨_, _, rfl⟩
      · split
        · exact ⟨_, _, rfl⟩
        · exact ⟨_, _, rfl⟩
  | back nodes before after ret tot =>
    refine ⟨.go, ?_⟩
    unfold step
    rw [hc, hp]
    simp only [Option.isSome_none, Bool.false_eq_true, if_false, blockBackC]
    split
    · exact ⟨_, _, rfl⟩
    · split
      · exact ⟨_, _, rfl⟩
      · split
        · exact ⟨_, _, rfl⟩
        · exact ⟨_, _, rfl⟩
  | backD d nodes before after ret tot =>
    refine ⟨.go, ?_⟩
    unfold step
    rw [hc, hp]
    simp only [Option.isSome_none, Bool.false_eq_true, if_false, blockBackD]
    split
    · exact ⟨_, _, rfl⟩
    · exact ⟨_, _, rfl⟩

/-- What one step of `w` does to the count of its blocks. -/
theorem blocks_step {st' : St S A R X Y} {w v : Nat} {e : Event S A R} (E : Eff env m alg st v e st') (hc : st'.crashed = none) :
    (v ≠ w → blocksOf w (e :: h) = blocksOf w h ∧ st'.ws[w]? = st.ws[w]?) ∧
    (v = w → e ≠ .completed w → st'.ws[w]? ≠ some .idle ∧
      ((st.ws[w]? = some .idle ∧ blocksOf w (e :: h) = 0) ∨ (st.ws[w]? ≠ some .idle ∧ blocksOf w (e :: h) = blocksOf w h + 1))) := by
  constructor
  · intro hne
    have := eff_worker E
    exact ⟨by simp [blocksOf, trialOf, this, hne], eff_ws_other E hne.symm⟩
  · rintro rfl hcomp
    cases E <;> first
      | (simp at hc; done)
      | (simp at hcomp; done)
      | skip
    all_goals
      have hlt : v < st.ws.length := (List.getElem?_eq_some_iff.1 (by assumption)).1
      simp_all [blocksOf, trialOf, Event.worker]

theorem completes_aux (hv : alg.Valid) (htb : Leftover tb) (ht : TableOk m tb) {w : Nat} :
    ∀ (ls : List (Nat × Choice S A)) {st' : St S A R X Y} {h' : List (Event S A R)}, Reachable env m alg k s0 dp tm tb st h →
    execFrom env m alg st h ls = some (st', h') →
    ∃ ext, h' = ext ++ h ∧ ((Event.completed w : Event S A R) ∈ ext ∨
      (turnsOf w ls ≤ blocksOf w h' + 1 ∧ (st'.ws[w]? = some .idle → turnsOf w ls = 0))) := by
  intro ls
  obtain ⟨n, hn⟩ : ∃ n, ls.length = n := ⟨_, rfl⟩
  induction n generalizing ls with
  | zero =>
    obtain rfl := List.length_eq_zero_iff.1 hn
    intro st' h' hr hx
    simp [execFrom] at hx
    obtain ⟨rfl, rfl⟩ := hx
    exact ⟨[], rfl, .inr ⟨by simp [turnsOf], fun _ => rfl⟩⟩
  | succ n ih =>
    rcases getLast?_cases ls with rfl | ⟨l, ⟨v, ch⟩, rfl⟩
    · simp at hn
    intro st' h' hr hx
    rw [exec_snoc] at hx
    simp only [Option.bind_eq_some_iff, Option.map_eq_some_iff, Prod.exists] at hx
    obtain ⟨s1, h1, hx1, s2, e, hst, heq⟩ := hx
    simp only [Prod.mk.injEq] at heq
    obtain ⟨rfl, rfl⟩ := heq
    obtain ⟨ext, rfl, hcase⟩ := ih l (by simpa using hn) hr hx1
    have hr1 := reach_append hr hx1
    obtain ⟨_, E⟩ := step_eff hst
    have hB := blocks_step (w := w) (h := ext ++ h) E (safe_reach hv htb ht (reach_snoc hr1 hst))
    refine ⟨e :: ext, rfl, ?_⟩
    rcases hcase with h2 | ⟨h2, h3⟩
    · exact .inl (by simp [h2])
    by_cases hvw : v = w
    · by_cases hcomp : e = .completed w
      · exact .inl (by simp [hcomp])
      · obtain ⟨h4, h5⟩ := hB.2 hvw hcomp
        refine .inr ⟨?_, fun hh => absurd hh h4⟩
        have ht1 : turnsOf w (l ++ [(v, ch)]) = turnsOf w l + 1 := by simp [turnsOf, List.countP_append, hvw]
        rw [ht1]
        show _ ≤ blocksOf w (e :: (ext ++ h)) + 1
        rcases h5 with ⟨h6, h7⟩ | ⟨h6, h7⟩
        · have := h3 h6; omega
        · omega
    · obtain ⟨h4, h5⟩ := hB.1 hvw
      have ht1 : turnsOf w (l ++ [(v, ch)]) = turnsOf w l := by simp [turnsOf, List.countP_append, hvw]
      exact .inr ⟨by rw [ht1]; show _ ≤ blocksOf w (e :: (ext ++ h)) + 1; rw [h4]; exact h2, fun hh => by rw [ht1]; exact h3 (h5 ▸ hh)⟩

theorem began_idle {st' : St S A R X Y} {w v : Nat} {e : Event S A R} (E : Eff env m alg st v e st') (he : e = .began w) :
    v = w ∧ st.ws[v]? = some .idle := by
  cases E <;> simp_all

theorem completed_idle {st' : St S A R X Y} {w v : Nat} {e : Event S A R} (E : Eff env m alg st v e st') (he : e = .completed w) :
    v = w ∧ st'.ws[v]? = some .idle := by
  cases E <;> simp_all
  exact List.getElem?_set_self (List.getElem?_eq_some_iff.1 (by assumption)).1

/-- A running trial can be finished by its own worker. -/
theorem finish_one (hl : env.Live) (hv : alg.Valid) (htb : Leftover tb) (ht : TableOk m tb) (hs : Selects env m alg k s0 dp tm tb)
    (hdp : dp ≤ m.maxDepth) {w : Nat} (hw : w < k) (hr : Reachable env m alg k s0 dp tm tb st h) :
    ∃ ls st' ext, execFrom env m alg st h ls = some (st', ext ++ h) ∧ st'.ws[w]? = some .idle ∧ (∀ v, v ≠ w → st'.ws[v]? = st.ws[v]?) ∧
      ∀ v, (Event.began v : Event S A R) ∉ ext := by
  by_cases hi : st.ws[w]? = some .idle
  · exact ⟨[], st, [], rfl, hi, fun _ _ => rfl, by simp⟩
  obtain ⟨n, hn⟩ : ∃ n : Nat, (4 * (m.maxDepth - dp) + 2).toNat - blocksOf w h = n := ⟨_, rfl⟩
  induction n generalizing st h with
  | zero =>
    obtain ⟨ch, st', e, h1⟩ := enabled hl hv htb ht hs hr hw
    obtain ⟨_, E⟩ := step_eff h1
    have hr' := reach_snoc hr h1
    have hb := c09_trial_length_bounded hv htb hr' hdp hw
    by_cases hcomp : e = .completed w
    · exact ⟨[(w, ch)], st', [e], by simp [execFrom, h1], (completed_idle E hcomp).2, fun v hvw => eff_ws_other E hvw, by simp [hcomp]⟩
    · obtain ⟨_, h3 | h3⟩ := (blocks_step (w := w) (h := h) E (safe_reach hv htb ht hr')).2 rfl hcomp
      · exact absurd h3.1 hi
      · omega
  | succ n ih =>
    obtain ⟨ch, st', e, h1⟩ := enabled hl hv htb ht hs hr hw
    obtain ⟨_, E⟩ := step_eff h1
    have hr' := reach_snoc hr h1
    have hb := c09_trial_length_bounded hv htb hr' hdp hw
    by_cases hcomp : e = .completed w
    · exact ⟨[(w, ch)], st', [e], by simp [execFrom, h1], (completed_idle E hcomp).2, fun v hvw => eff_ws_other E hvw, by simp [hcomp]⟩
    · obtain ⟨h2, h3 | h3⟩ := (blocks_step (w := w) (h := h) E (safe_reach hv htb ht hr')).2 rfl hcomp
      · exact absurd h3.1 hi
      · obtain ⟨ls, st2, ext, g1, g2, g3, g4⟩ := ih hr' h2 (by omega)
        refine ⟨(w, ch) :: ls, st2, ext ++ [e], by simp [execFrom, h1, g1], g2, fun v hvw => by rw [g3 v hvw, eff_ws_other E hvw], ?_⟩
        intro v hm
        rcases List.mem_append.1 hm with hm | hm
        · exact g4 v hm
        · simp at hm
          obtain ⟨rfl, g5⟩ := began_idle E hm.symm
          exact hi g5

/-- All running trials can be finished. -/
theorem finish_all (hl : env.Live) (hv : alg.Valid) (htb : Leftover tb) (ht : TableOk m tb) (hs : Selects env m alg k s0 dp tm tb)
    (hdp : dp ≤ m.maxDepth) (hr : Reachable env m alg k s0 dp tm tb st h) : ∀ j ≤ k,
    ∃ ls st' ext, execFrom env m alg st h ls = some (st', ext ++ h) ∧ (∀ v < j, st'.ws[v]? = some .idle) ∧
      ∀ v, (Event.began v : Event S A R) ∉ ext
  | 0, _ => ⟨[], st, [], rfl, by simp, by simp⟩
  | j + 1, hj => by
    obtain ⟨ls, st1, ext, g1, g2, g3⟩ := finish_all hl hv htb ht hs hdp hr j (by omega)
    obtain ⟨ls2, st2, ext2, k1, k2, k3, k4⟩ := finish_one hl hv htb ht hs hdp (w := j) (by omega) (reach_append hr g1)
    refine ⟨ls ++ ls2, st2, ext2 ++ ext, by rw [exec_append, g1]; simpa using k1, ?_, ?_⟩
    · intro v hlt
      by_cases hvj : v = j
      · rw [hvj]; exact k2
      · rw [k3 v hvj]; exact g2 v (by omega)
    · intro v hm
      rcases List.mem_append.1 hm with hm | hm
      · exact k4 v hm
      · exact g3 v hm

end

end Verif.Search
