import Verif.Proofs.Eval
import Verif.Spec.UctToy
import Verif.Props.Uct
import Verif.Props.MentsSelect
import Mathlib.Analysis.Real.Sqrt
import Mathlib.Data.List.Perm.Lattice

/-! # C46–C49, C59, C60: evaluation of a tree by rollouts -/

set_option linter.unusedSectionVars false

namespace Verif.Eval

open Verif.Search Verif.Sampling

variable {S A R X Y : Type} [DecidableEq S] [DecidableEq A]

/-- The example tree: UCT after two and a half trials; node 0 is the root. -/
def exTree : St Nat Nat ℚ (Uct.Stats ℚ) (Uct.Stats ℚ) :=
  ((Uct.Toy.final 1 0 1).map Prod.fst).getD (init Uct.Toy.env Uct.Toy.mgr (Uct.uct (Uct.Toy.cfg 1 0) Uct.Toy.mgr) 2 0 0 0 [])

theorem exTree_reachable : ∃ h, Reachable Uct.Toy.env Uct.Toy.mgr (Uct.uct (Uct.Toy.cfg 1 0) Uct.Toy.mgr) 2 0 0 0 [] exTree h := by
  have hs : (Uct.Toy.final 1 0 1).isSome = true := by decide +kernel
  obtain ⟨x, hx⟩ := Option.isSome_iff_exists.1 hs
  refine ⟨x.2, Uct.Toy.sched 1, ?_⟩
  have : exTree = x.1 := by unfold exTree; rw [hx]; rfl
  rw [this]
  exact hx

/-! ## C46 -/

/-- C46: after `reset` and the given steps the policy is at the node that the steps lead to in the tree, if there is one, and at no
node otherwise; whatever the policy did before. -/
theorem c46_follows_tree (st : St S A R X Y) (p : Policy) (steps : List (A × S)) :
    (∀ e, (drive st p.reset steps).cur = some e ↔ Leads st p.root steps e) ∧
    ((drive st p.reset steps).cur = none ↔ ¬ ∃ e, Leads st p.root steps e) := by
  have h := fun e => drive_cur st steps (p := p.reset) (d := p.root) rfl e
  refine ⟨h, ?_⟩
  constructor
  · rintro hn ⟨e, he⟩
    rw [(h e).2 he] at hn
    simp at hn
  · intro hn
    cases hc : (drive st p.reset steps).cur with
    | none => rfl
    | some e => exact absurd ⟨e, (h e).1 hc⟩ hn

/-- C46: at a node the policy takes that node's recommendation. -/
theorem c46_takes_recommendation (st : St S A R X Y) (p : Policy) {steps : List (A × S)} {e : Nat} (h : Leads st p.root steps e)
    (env : Env S A R) (advise : Nat → Nat → Option A) (s : S) (raw : Nat) :
    (drive st p.reset steps).getAction env advise s raw = advise e raw := by
  have := ((c46_follows_tree st p steps).1 e).2 h
  unfold Policy.getAction
  rw [this]

/-- C46: from the first missing step on, whatever happens afterwards, it takes the action whose index is the random draw reduced to
the number of valid actions of the current state, so every valid action has its share of the draws; until the next `reset`, which
puts it back at the root. -/
theorem c46_uniform_after_missing (st : St S A R X Y) (p : Policy) {steps : List (A × S)} (h : ¬ ∃ e, Leads st p.root steps e)
    (more : List (A × S)) (env : Env S A R) (advise : Nat → Nat → Option A) (s : S) (hne : env.actions s ≠ []) (raw : Nat) :
    (drive st p.reset (steps ++ more)).getAction env advise s raw = (env.actions s)[raw % (env.actions s).length]? ∧
    (drive st p.reset (steps ++ more)).reset.cur = some p.root := by
  have h1 := (c46_follows_tree st p steps).2.2 h
  have h2 : drive st p.reset (steps ++ more) = drive st p.reset steps := by
    have := drive_none st more h1
    unfold drive at this ⊢
    rw [List.foldl_append, this]
  rw [h2]
  constructor
  · unfold Policy.getAction
    rw [h1]
    exact Uct.sampleUniform_eq _ _ hne
  · show some (drive st p.reset steps).root = some p.root
    rw [drive_root]
    rfl

/-- C46: a copy of a policy is at the root of the same tree, wherever the original is. -/
theorem c46_copy_starts_at_root (st : St S A R X Y) (p : Policy) : p.copy.cur = some p.root ∧ p.copy.root = p.root ∧
    ∀ steps e, (drive st p.copy steps).cur = some e ↔ Leads st p.root steps e :=
  ⟨rfl, rfl, fun steps e => drive_cur st steps (p := p.copy) (d := p.root) rfl e⟩

/-- A tree in which some sequences lead to a node and others do not. -/
example : (drive exTree (newPolicy 0) [(0, 1)]).cur = some 1 ∧ (drive exTree (newPolicy 0) [(0, 1), (1, 2)]).cur = none ∧
    (drive exTree (newPolicy 0) [(0, 2)]).cur = none := by decide +kernel

example : Leads exTree 0 [(0, 1)] 1 ∧ ¬ ∃ e, Leads exTree 0 [(0, 2)] e :=
  ⟨((c46_follows_tree exTree (newPolicy 0) [(0, 1)]).1 1).1 (by decide +kernel),
   (c46_follows_tree exTree (newPolicy 0) [(0, 2)]).2.1 (by decide +kernel)⟩

variable [Add R] [Zero R]
variable {c : ECfg S A R X Y} {p : Policy} {old : List R} {es : EState S R} {h : List (EEvent S A R)}

/-- C46 in rollouts, for every thread and interleaving: an action taken in a rollout is the recommendation of the node that the steps
of this rollout so far lead to, or a uniformly drawn action of the current state if there is no such node. -/
theorem c46_in_rollouts {h1 h0 : List (EEvent S A R)} {t : Nat} {s s' : S} {a : A} {al : Bool}
    (hr : EReach c p old es (h1 ++ .acted t s a s' al :: h0)) :
    (∃ e raw, Leads c.tree p.root ((rollSteps t h0).map fun x => (x.2.1, x.2.2)) e ∧ c.advise e raw = some a) ∨
    ((¬ ∃ e, Leads c.tree p.root ((rollSteps t h0).map fun x => (x.2.1, x.2.2)) e) ∧
      ∃ raw, (c.env.actions s)[raw % (c.env.actions s).length]? = some a) := by
  obtain ⟨es0, es1, t', hr0, hnc, E⟩ := ereach_prefix hr
  cases E with
  | acted th r raw _ _ hth hroll hlt hs ha hsucc =>
    obtain ⟨_, _, _, _, hp⟩ := (einv hr0).roll _ _ _ hth hroll
    rw [hp] at ha
    by_cases hex : ∃ e, Leads c.tree p.root ((rollSteps t h0).map fun x => (x.2.1, x.2.2)) e
    · obtain ⟨e, he⟩ := hex
      rw [c46_takes_recommendation c.tree p he] at ha
      exact .inl ⟨e, raw, he, ha⟩
    · right
      refine ⟨hex, raw, ?_⟩
      have hne : c.env.actions r.state ≠ [] := by
        intro hne
        have hcur := (c46_follows_tree c.tree p ((rollSteps t h0).map fun x => (x.2.1, x.2.2))).2.2 hex
        unfold Policy.getAction at ha
        rw [hcur] at ha
        simp only [hne, Uct.sampleUniform_nil] at ha
        simp at ha
      have := (c46_uniform_after_missing c.tree p hex [] c.env c.advise r.state hne raw).1
      rw [List.append_nil] at this
      rw [this] at ha
      exact ha

/-! ## C47 -/

theorem finished_length (h : List (EEvent S A R)) : (finished h).length = (results h).length := by
  induction h with
  | nil => rfl
  | cons e h ih => cases e <;> simp [finished, results, ih]

/-- C47, at every moment: the returns of earlier calls are kept, one return is added for each finished rollout, the finished rollouts
are numbered from 0 to `rollouts - 1`, no number occurs twice, and rollout `i` is run by thread `i mod threads`. -/
theorem c47_each_once (hr : EReach c p old es h) : es.returns = old ++ results h ∧ (results h).length = (finished h).length ∧
    (finished h).Nodup ∧ ((finished h).map Prod.snd).Nodup ∧
    ∀ t i, (t, i) ∈ finished h → 0 ≤ i ∧ i < c.rollouts ∧ t < c.threads ∧ (t : Int) = i % c.threads := by
  have I := einv hr
  have key : ∀ t i, (t, i) ∈ finished h → 0 ≤ i ∧ i < c.rollouts ∧ t < c.threads ∧ (t : Int) = i % c.threads := by
    intro t i hx
    have hlt := I.lt _ hx
    obtain ⟨th, h1, ⟨m, rfl⟩, h2⟩ := (I.mem t i).1 hx
    have ht := (List.getElem?_eq_some_iff.1 h1).1
    rw [I.len] at ht
    refine ⟨by positivity, hlt, ht, ?_⟩
    rw [Int.add_mul_emod_self_left, Int.emod_eq_of_lt (by positivity) (by exact_mod_cast ht)]
  refine ⟨I.ret, (finished_length h).symm, I.nodup, ?_, key⟩
  refine List.Nodup.map_on ?_ I.nodup
  rintro ⟨t, i⟩ hx ⟨t', i'⟩ hy hxy
  simp only at hxy
  subst hxy
  have e1 := (key _ _ hx).2.2.2
  have e2 := (key _ _ hy).2.2.2
  have : t = t' := by omega
  rw [this]

/-- C47: when `run_rollouts(n, t)` with at least one thread returns, exactly `n` returns have been added (none for negative `n`):
rollout `i` was run once, by thread `i mod t`, for every `i` below `n`. -/
theorem c47_exact_count (hT : 1 ≤ c.threads) (hr : EReach c p old es h) (hd : allDone c es) :
    (finished h).Perm ((List.range c.rollouts.toNat).map fun i => (i % c.threads, (i : Int))) ∧
    es.returns.length = old.length + c.rollouts.toNat := by
  have I := einv hr
  obtain ⟨k1, k2, k3, k4, k5⟩ := c47_each_once hr
  have hp : (finished h).Perm ((List.range c.rollouts.toNat).map fun i => (i % c.threads, (i : Int))) := by
    rw [List.perm_ext_iff_of_nodup k3]
    · rintro ⟨t, i⟩
      rw [List.mem_map]
      constructor
      · intro hx
        obtain ⟨h1, h2, h3, h4⟩ := k5 t i hx
        refine ⟨i.toNat, by rw [List.mem_range]; omega, ?_⟩
        have hi : ((i.toNat : Nat) : Int) = i := Int.toNat_of_nonneg h1
        rw [Prod.mk.injEq]
        refine ⟨?_, hi⟩
        have : ((i.toNat % c.threads : Nat) : Int) = (t : Int) := by rw [h4, ← hi]; push_cast; simp
        exact_mod_cast this
      · rintro ⟨j, hj, hxj⟩
        rw [List.mem_range] at hj
        simp only [Prod.mk.injEq] at hxj
        obtain ⟨rfl, rfl⟩ := hxj
        rw [I.mem]
        have hlt : j % c.threads < es.ts.length := by rw [I.len]; exact Nat.mod_lt _ hT
        refine ⟨es.ts[j % c.threads], List.getElem?_eq_getElem hlt, ⟨j / c.threads, ?_⟩, ?_⟩
        · exact_mod_cast (Nat.mod_add_div j c.threads).symm
        · have := (hd.2 _ (List.getElem_mem hlt)).2
          omega
    · refine List.Nodup.map ?_ List.nodup_range
      intro a b hab
      simp only [Prod.mk.injEq] at hab
      exact_mod_cast hab.2
  refine ⟨hp, ?_⟩
  rw [k1, List.length_append, k2, hp.length_eq]
  simp

/-- C47: the return that is added is the sum of the rewards along the rollout, which started in the initial state, took one of the
possible transitions in each step, and ended in a sink state (or `max_trial_length` is not positive). -/
theorem c47_return_is_sum {h1 h0 : List (EEvent S A R)} {t : Nat} {i : Int} {r : R} (hr : EReach c p old es (h1 ++ .finished t i r :: h0)) :
    ∃ s', Walk c.env c.init (rollSteps t h0) s' ∧ r = returnOf c.env (rollSteps t h0) ∧ (c.env.isSink s' = true ∨ c.maxLen ≤ 0) := by
  obtain ⟨es0, es1, t', hr0, hnc, E⟩ := ereach_prefix hr
  cases E with
  | finished th r hth hroll hg =>
    obtain ⟨h1, h2, h3, _, _⟩ := (einv hr0).roll _ _ _ hth hroll
    refine ⟨r.state, h1, h2, ?_⟩
    rw [h3] at hg
    by_cases hm : c.maxLen ≤ 0
    · exact .inr hm
    · left
      cases hs : c.env.isSink r.state with
      | true => rfl
      | false => exact absurd ⟨by omega, hs⟩ hg

/-- C47: no deadlock: as long as `run_rollouts` has not returned and nothing crashed, some thread can go on. -/
theorem c47_can_continue (hsucc : ∀ s a, c.env.succ s a ≠ []) (_hr : EReach c p old es h) (hnc : es.crashed = false) (hnd : ¬ allDone c es) :
    ∃ t raw s' es' e, eStep c es t raw s' = some (es', e) := by
  unfold allDone at hnd
  simp only [hnc, true_and, not_forall] at hnd
  obtain ⟨th, hth, hno⟩ := hnd
  obtain ⟨t, hlt, hth⟩ := List.getElem_of_mem hth
  have hth : es.ts[t]? = some th := by rw [List.getElem?_eq_getElem hlt, hth]
  unfold eStep
  cases hroll : th.roll with
  | none =>
    have hi : th.i < c.rollouts := by
      by_contra hge
      exact hno ⟨hroll, by omega⟩
    exact ⟨t, 0, c.init, _, _, by simp [hnc, hth, hroll, hi]; exact ⟨rfl, rfl⟩⟩
  | some r =>
    by_cases hg : r.taken < c.maxLen ∧ c.env.isSink r.state = false
    · cases ha : th.pol.getAction c.env c.advise r.state 0 with
      | none => exact ⟨t, 0, c.init, _, _, by simp [hnc, hth, hroll, hg, ha]; exact ⟨rfl, rfl⟩⟩
      | some a =>
        obtain ⟨s', hs'⟩ := List.exists_mem_of_ne_nil _ (hsucc r.state a)
        exact ⟨t, 0, s', _, _, by simp [hnc, hth, hroll, hg, ha, hs']; exact ⟨rfl, rfl⟩⟩
    · refine ⟨t, 0, c.init, ?_⟩
      simp only [hnc, hth, hroll, hg, if_false]
      exact ⟨_, _, rfl⟩

/-- Running a schedule. -/
def exec (c : ECfg S A R X Y) (es : EState S R) (h : List (EEvent S A R)) : List (Nat × Nat × S) → Option (EState S R × List (EEvent S A R))
  | [] => some (es, h)
  | (t, raw, s') :: ls => match eStep c es t raw s' with
    | none => none
    | some (es', e) => exec c es' (e :: h) ls

theorem exec_reach {ls : List (Nat × Nat × S)} : ∀ {es : EState S R} {h : List (EEvent S A R)} {x : EState S R × List (EEvent S A R)},
    EReach c p old es h → exec c es h ls = some x → EReach c p old x.1 x.2 := by
  induction ls with
  | nil => intro es h x hr hx; simp only [exec, Option.some.injEq] at hx; subst hx; exact hr
  | cons l ls ih =>
    obtain ⟨t, raw, s'⟩ := l
    intro es h x hr hx
    simp only [exec] at hx
    split at hx
    · simp at hx
    · next hs => exact ih (.step hr hs) hx

/-- Evaluation of the example tree: three rollouts by two threads; the nodes recommend their most visited action. -/
def exEval (maxLen : Int) (keeps : Bool) : ECfg Nat Nat ℚ (Uct.Stats ℚ) (Uct.Stats ℚ) where
  tree := exTree
  env := Uct.Toy.env
  init := 0
  advise d raw := (exTree.dn[d]?).bind fun nd => Uct.recommend (Uct.Toy.cfg 1 0) 0 (viewOf Uct.Toy.env Uct.Toy.mgr exTree nd) raw id id
  maxLen := maxLen
  rollouts := 3
  threads := 2
  keepsCtx := keeps

/-- Threads 0 and 1 interleaved; thread 0 runs rollouts 0 and 2. -/
def exSched : List (Nat × Nat × Nat) :=
  [(0, 0, 0), (1, 0, 0), (0, 0, 1), (1, 0, 2), (1, 1, 4), (0, 0, 3), (1, 0, 0), (0, 1, 5), (0, 0, 0), (0, 0, 0), (0, 0, 2), (0, 0, 4), (0, 0, 0)]

/-- The run is possible, ends, and leaves four returns: the one that was there and three new ones. -/
example : ∃ es h, EReach (exEval 10 false) (newPolicy 0) [7] es h ∧ allDone (exEval 10 false) es ∧ es.returns.length = 4 ∧
    (es.ts.map fun th => th.i) = [4, 3] := by
  have hs : ((exec (exEval 10 false) (start (exEval 10 false) (newPolicy 0) [7]) [] exSched).any fun x =>
      decide (x.1.crashed = false ∧ (∀ th ∈ x.1.ts, th.roll.isNone ∧ 3 ≤ th.i) ∧ x.1.returns.length = 4 ∧ (x.1.ts.map fun th => th.i) = [4, 3])) = true := by
    decide +kernel
  rw [Option.any_eq_true] at hs
  obtain ⟨x, hx, hp⟩ := hs
  simp only [decide_eq_true_eq] at hp
  exact ⟨x.1, x.2, exec_reach .start hx, ⟨hp.1, fun th hth => ⟨by simpa using (hp.2.1 th hth).1, (hp.2.1 th hth).2⟩⟩, hp.2.2.1, hp.2.2.2⟩

/-! ## C48 -/

/-- C48 fails: in an environment without sink states and with a positive `max_trial_length`, no rollout ever finishes, however many
steps are made, so `run_rollouts` does not return. -/
theorem c48_never_finishes (hns : ∀ s, c.env.isSink s = false) (hm : 1 ≤ c.maxLen) (hr : EReach c p old es h) : finished h = [] := by
  induction hr with
  | start => rfl
  | @step es h t raw s' es' e hr hs ih =>
    have E := (eStep_eff hs).2
    cases E with
    | finished th r hth hroll hg =>
      obtain ⟨_, _, h3, _, _⟩ := (einv hr).roll _ _ _ hth hroll
      exact absurd ⟨by omega, hns _⟩ hg
    | began => exact ih
    | died => exact ih
    | acted => exact ih

/-- An environment that goes round in one state. -/
def loopEnv : Env Nat Nat ℚ where
  isSink _ := false
  actions _ := [0]
  succ s _ := [s]
  reward _ _ _ := 1

def loopTree : St Nat Nat ℚ Unit Unit := { root := 0, dn := [], cn := [], table := [], ws := [], ctxs := [], crashed := none }

def loopEval (maxLen : Int) : ECfg Nat Nat ℚ Unit Unit where
  tree := loopTree
  env := loopEnv
  init := 0
  advise _ _ := some 0
  maxLen := maxLen
  rollouts := 1
  threads := 1
  keepsCtx := false

/-- C48 is false: whatever (positive) `max_trial_length` is, there are rollouts with more actions than any given number, in particular
more than `max_trial_length`. -/
theorem c48_length_limit_false {maxLen : Int} (hm : 1 ≤ maxLen) (n : Nat) :
    ∃ es h, EReach (loopEval maxLen) (newPolicy 0) [] es h ∧ (rollSteps 0 h).length = n := by
  have key : ∃ es h, EReach (loopEval maxLen) (newPolicy 0) [] es h ∧ (rollSteps 0 h).length = n ∧ es.crashed = false ∧
      ∃ th r, es.ts[0]? = some th ∧ th.roll = some r ∧ r.taken = 0 ∧ r.state = 0 := by
    induction n with
    | zero =>
      refine ⟨_, _, .step (t := 0) (raw := 0) (s' := 0) .start rfl, rfl, rfl, _, _, rfl, rfl, rfl, rfl⟩
    | succ n ih =>
      obtain ⟨es, h, hr, hl, hnc, th, r, hth, hroll, htk, hst⟩ := ih
      have hga : th.pol.getAction (loopEval maxLen).env (loopEval maxLen).advise r.state 0 = some 0 := by
        unfold Policy.getAction
        cases th.pol.cur with
        | none => rfl
        | some d => rfl
      have hstep : eStep (loopEval maxLen) es 0 0 0 = some ({ es with ts := es.ts.set 0 { th with
              pol := th.pol.update loopTree 0 0,
              roll := some { r with state := 0, ret := r.ret + loopEnv.reward r.state 0 0 } } }, .acted 0 r.state 0 0 r.ctxAlive) := by
        unfold eStep
        have hg : r.taken < (loopEval maxLen).maxLen ∧ (loopEval maxLen).env.isSink r.state = false := ⟨by rw [htk]; exact hm, rfl⟩
        have hs : (0 : Nat) ∈ (loopEval maxLen).env.succ r.state 0 := by rw [hst]; exact List.mem_singleton.2 rfl
        simp only [hnc, hth, hroll, hg, hga, hs, if_true, and_self]
        rfl
      refine ⟨_, _, .step hr hstep, ?_, hnc, { th with pol := th.pol.update loopTree 0 0, roll := some { r with state := 0, ret := r.ret + loopEnv.reward r.state 0 0 } }, _, ?_, rfl, htk, rfl⟩
      · simp [rollSteps, hl]
      · exact List.getElem?_set_self (List.getElem?_eq_some_iff.1 hth).1
  obtain ⟨es, h, h1, h2, _⟩ := key
  exact ⟨es, h, h1, h2⟩

example : ∃ es h, EReach (loopEval 3) (newPolicy 0) [] es h ∧ 3 < (rollSteps 0 h).length := by
  obtain ⟨es, h, h1, h2⟩ := c48_length_limit_false (maxLen := 3) (by decide) 4
  exact ⟨es, h, h1, by omega⟩

/-- C48, what holds: with a `max_trial_length` that is not positive no action is taken; and in an environment where every walk of
`K` steps from the initial state ends in a sink state a rollout takes at most `K` actions.  Missing: the limit itself has no effect. -/
theorem c48_length_partial (hr : EReach c p old es h) (t : Nat) : (c.maxLen ≤ 0 → rollSteps t h = []) ∧
    ∀ K : Nat, (∀ steps s', Walk c.env c.init steps s' → K ≤ steps.length → c.env.isSink s' = true) → (rollSteps t h).length ≤ K := by
  induction hr with
  | start => exact ⟨fun _ => rfl, fun _ _ => Nat.zero_le _⟩
  | @step es h t' raw s' es' e hr hs ih =>
    have E := (eStep_eff hs).2
    cases E with
    | finished th r hth hroll hg => exact ih
    | died => exact ih
    | began th hth =>
      by_cases ht : t' = t
      · simp [rollSteps, ht]
      · simpa [rollSteps, ht] using ih
    | acted th r raw a s' hth hroll hlt hsink ha hsucc =>
      by_cases ht : t' = t
      · subst ht
        obtain ⟨h1, _, h3, _, _⟩ := (einv hr).roll _ _ _ hth hroll
        have hs : rollSteps t' (EEvent.acted t' r.state a s' r.ctxAlive :: h) = rollSteps t' h ++ [(r.state, a, s')] := by simp [rollSteps]
        rw [hs]
        constructor
        · intro hm; omega
        · intro K hK
          rw [List.length_append, List.length_singleton]
          by_contra hlt
          have := hK _ _ h1 (by omega)
          rw [this] at hsink
          simp at hsink
      · simpa [rollSteps, ht] using ih

/-- In the example environment every walk of four steps ends in a sink state. -/
example : ∀ steps s', Walk (exEval 10 false).env (exEval 10 false).init steps s' → 4 ≤ steps.length → (exEval 10 false).env.isSink s' = true := by
  have key : ∀ s steps s', Walk Uct.Toy.env s steps s' → s + steps.length ≤ s' := by
    intro s steps s' W
    induction W with
    | nil s => simp
    | @cons s s1 s' a rest h1 _ ih =>
      have : s1 = s + 1 ∨ s1 = s + 2 := by simpa [Uct.Toy.env] using h1
      simp only [List.length_cons]
      omega
  intro steps s' W hl
  have h1 := key _ _ _ W
  have h1 : 0 + steps.length ≤ s' := h1
  show decide (4 ≤ s') = true
  simp only [decide_eq_true_eq]
  omega

end Verif.Eval

namespace Verif.Eval

/-! ## C49 -/

/-- The arithmetic mean. -/
noncomputable def mean (rs : List ℝ) : ℝ := rs.sum / rs.length

/-- The sample standard deviation. -/
noncomputable def sampleStdDev (rs : List ℝ) : ℝ := Real.sqrt ((rs.map fun x => (x - mean rs) ^ 2).sum / (rs.length - 1))

theorem foldl_weighted (w : ℝ) (f : ℝ → ℝ) (rs : List ℝ) (x : ℝ) :
    rs.foldl (fun acc val => acc + w * f val) x = x + w * (rs.map f).sum := by
  induction rs generalizing x with
  | nil => simp
  | cons y l ih => rw [List.foldl_cons, ih, List.map_cons, List.sum_cons]; ring

/-- C49: `get_mean_return` is the arithmetic mean of the returns. -/
theorem c49_mean {rs : List ℝ} (_hne : rs ≠ []) : meanReturn rs = mean rs := by
  unfold meanReturn mean
  have := foldl_weighted (1 / (rs.length : ℝ)) id rs 0
  rw [List.map_id] at this
  refine this.trans ?_
  ring

/-- C49 is false for the standard deviation: of the returns 0 and 2 it is the square root of 2, `get_stddev_return` gives 2. -/
theorem c49_stddev_false : stddevReturn [0, 2] = some 2 ∧ sampleStdDev [0, 2] = Real.sqrt 2 ∧ Real.sqrt 2 ≠ 2 := by
  refine ⟨?_, ?_, ?_⟩
  · unfold stddevReturn
    have : meanReturn [0, 2] = 1 := by rw [c49_mean (by simp)]; norm_num [mean]
    simp only [this]
    norm_num
  · unfold sampleStdDev mean
    norm_num
  · intro h
    have := Real.sq_sqrt (show (0 : ℝ) ≤ 2 by norm_num)
    rw [h] at this
    norm_num at this

/-- C49, what holds: for at least two returns `get_stddev_return` is the sample variance, the square of the sample standard
deviation; for one return it is not a number. -/
theorem c49_stddev_partial (rs : List ℝ) : (2 ≤ rs.length → stddevReturn rs = some (sampleStdDev rs ^ 2)) ∧
    (rs.length = 1 → stddevReturn rs = none) := by
  constructor
  · intro h
    have hne : rs ≠ [] := by rintro rfl; simp at h
    unfold stddevReturn sampleStdDev
    have h1 : (0 : ℝ) < rs.length - 1 := by
      have : (2 : ℝ) ≤ rs.length := by exact_mod_cast h
      linarith
    rw [if_neg (by omega), Real.sq_sqrt, c49_mean hne]
    · congr 1
      rw [foldl_weighted (1 / ((rs.length : ℝ) - 1)) (fun val => (val - mean rs) ^ 2) rs 0]
      ring
    · apply div_nonneg _ h1.le
      apply List.sum_nonneg
      intro x hx
      obtain ⟨y, _, rfl⟩ := List.mem_map.1 hx
      positivity
  · intro h
    unfold stddevReturn
    rw [if_pos h]

example : meanReturn [1, 2, 6] = 3 ∧ stddevReturn [1, 2, 6] = some 7 := by
  refine ⟨by rw [c49_mean (by simp)]; norm_num [mean], ?_⟩
  unfold stddevReturn
  have : meanReturn [1, 2, 6] = 3 := by rw [c49_mean (by simp)]; norm_num [mean]
  simp only [this]
  norm_num

end Verif.Eval

namespace Verif.Eval

/-! ## C59 -/

open Verif.Search Verif.Sampling

section
variable {S A R X Y : Type} [DecidableEq S] [DecidableEq A] [AddMonoid R]

/-- The node that a walk of the environment leads to has the state in which the walk ends. -/
theorem leads_state {env : Env S A R} {m : Manager S R} {s0 : S} {dp tm : Int} {st : St S A R X Y} (T : Tree env m s0 dp tm st)
    {s s' : S} {l : List (RStep S A)} (W : Walk env s l s') : ∀ {d e : Nat}, stateOf st d = some s →
    Leads st d (l.map fun x => (x.2.1, x.2.2)) e → stateOf st e = some s' := by
  induction W with
  | nil s =>
    intro d e hd L
    cases L
    exact hd
  | @cons s s1 s' a rest h1 _ ih =>
    intro d e hd L
    rw [List.map_cons] at L
    cases L with
    | cons g1 g2 g3 =>
      obtain ⟨nc, nd, f1, f2, f3, f4, _⟩ := childD_facts T g2
      exact ih (by unfold stateOf; rw [f2]; exact congrArg some f4) g3

variable {c : ECfg S A R X Y} {p : Policy} {old : List R} {es : EState S R} {h : List (EEvent S A R)}

/-- What an evaluation needs: the tree comes from some moment of some search in the same environment from the same initial state, the
policy is one for its root, every non-sink state has actions, and every node with a non-sink state recommends some valid action. -/
structure GoodEval (c : ECfg S A R X Y) (p : Policy) : Prop where
  tree : ∃ (m : Manager S R) (alg : Alg S A R X Y) (k : Nat) (dp tm : Int) (tb : List ((Int × S) × Option Nat)) (hs : List (Event S A R)),
    alg.Valid ∧ Leftover tb ∧ Reachable c.env m alg k c.init dp tm tb c.tree hs
  root : p.root = c.tree.root
  acts : ∀ s, c.env.isSink s = false → c.env.actions s ≠ []
  advice : ∀ d nd, c.tree.dn[d]? = some nd → c.env.isSink nd.state = false → ∀ raw, ∃ a ∈ c.env.actions nd.state, c.advise d raw = some a

/-- C59: no rollout crashes, in every interleaving, and every action taken is a valid action of the state it is taken in, which is not
a sink state; the state of the policy's current node, if it has one, is the state the rollout is in. -/
theorem c59_actions_valid (G : GoodEval c p) (hr : EReach c p old es h) : es.crashed = false ∧
    (∀ t s a s' al, .acted t s a s' al ∈ h → c.env.isSink s = false ∧ a ∈ c.env.actions s ∧ s' ∈ c.env.succ s a) ∧
    (∀ (t : Nat) th r d, es.ts[t]? = some th → th.roll = some r → th.pol.cur = some d → stateOf c.tree d = some r.state) := by
  obtain ⟨m, alg, k, dp, tm, tb, hs, hv, htb, hreach⟩ := G.tree
  have I := reach_inv hv htb hreach
  have track : ∀ {es : EState S R} {h : List (EEvent S A R)}, EReach c p old es h →
      ∀ (t : Nat) th r d, es.ts[t]? = some th → th.roll = some r → th.pol.cur = some d → stateOf c.tree d = some r.state := by
    intro es h hr t th r d hth hroll hcur
    obtain ⟨W, _, _, _, hpol⟩ := (einv hr).roll t th r hth hroll
    rw [hpol] at hcur
    have L := ((c46_follows_tree c.tree p _).1 d).1 hcur
    obtain ⟨nd, hnd, hst, _⟩ := root_node I.tree
    exact leads_state I.tree W (by rw [G.root]; unfold stateOf; rw [hnd]; exact congrArg some hst) L
  have get : ∀ {es : EState S R} {h : List (EEvent S A R)}, EReach c p old es h → ∀ (t : Nat) th r raw, es.ts[t]? = some th →
      th.roll = some r → c.env.isSink r.state = false → ∃ a ∈ c.env.actions r.state, th.pol.getAction c.env c.advise r.state raw = some a := by
    intro es h hr t th r raw hth hroll hsink
    unfold Policy.getAction
    cases hcur : th.pol.cur with
    | none =>
      obtain ⟨a, ha⟩ := Uct.sampleUniform_defined (c.env.actions r.state) raw (G.acts _ hsink)
      exact ⟨a, (Uct.sampleUniform_mem ha).1, ha⟩
    | some d =>
      have := track hr t th r d hth hroll hcur
      unfold stateOf at this
      simp only [Option.map_eq_some_iff] at this
      obtain ⟨nd, hnd, hst⟩ := this
      have := G.advice d nd hnd (by rw [hst]; exact hsink) raw
      rw [hst] at this
      exact this
  refine ⟨?_, ?_, track hr⟩
  · induction hr with
    | start => rfl
    | @step es h t raw s' es' e hr hs ih =>
      cases (eStep_eff hs).2 with
      | died th r raw hth hroll hlt hsink ha =>
        obtain ⟨a, _, ha'⟩ := get hr t th r raw hth hroll hsink
        rw [ha] at ha'
        simp at ha'
      | began => exact ih
      | acted => exact ih
      | finished => exact ih
  · intro t s a s' al hmem
    obtain ⟨h1, h0, rfl⟩ := List.append_of_mem hmem
    obtain ⟨es0, es1, t', hr0, hnc, E⟩ := ereach_prefix hr
    cases E with
    | acted th r raw _ _ hth hroll hlt hsink ha hsucc =>
      obtain ⟨b, hb, hb'⟩ := get hr0 t th r raw hth hroll hsink
      rw [ha] at hb'
      obtain rfl := Option.some.inj hb'
      exact ⟨hsink, hb, hsucc⟩

end

section
variable {S A : Type} [DecidableEq S] [DecidableEq A]

/-- C59 for UCT trees: the recommendations by visits always meet the requirement. -/
theorem c59_uct {𝕜 : Type} [Field 𝕜] [LinearOrder 𝕜] [IsStrictOrderedRing 𝕜] {c : ECfg S A 𝕜 (Uct.Stats 𝕜) (Uct.Stats 𝕜)} {p : Policy}
    {cfg : Uct.Cfg S A 𝕜} {m : Manager S 𝕜} {k : Nat} {dp tm : Int} {tb : List ((Int × S) × Option Nat)} {hs : List (Event S A 𝕜)}
    (htb : Leftover tb) (hr : Reachable c.env m (Uct.uct cfg m) k c.init dp tm tb c.tree hs) (hroot : p.root = c.tree.root)
    (hacts : ∀ s, c.env.isSink s = false → c.env.actions s ≠ []) {lowI : Int} (hlowI : lowI ≤ 0) (hmv : cfg.mostVisited = true)
    {iter : List (A × 𝕜) → List (A × 𝕜)} {iterI : List (A × Int) → List (A × Int)} (hi : Uct.IterOk iter) (hiI : Uct.IterOk iterI)
    (hadv : c.advise = fun d raw => (c.tree.dn[d]?).bind fun nd => Uct.recommend cfg lowI (viewOf c.env m c.tree nd) raw iter iterI) :
    GoodEval c p := by
  refine ⟨⟨m, _, k, dp, tm, tb, hs, Uct.uct_valid cfg m, htb, hr⟩, hroot, hacts, ?_⟩
  intro d nd hd hsink raw
  rw [hadv]
  simp only [hd, Option.bind_some]
  obtain ⟨I, C⟩ := reach_both (Uct.uct_valid cfg m) htb hr
  have hk : ∀ a, Uct.Tried (viewOf c.env m c.tree nd) a → a ∈ (viewOf c.env m c.tree nd).actions := by
    intro a ha
    obtain ⟨c', g1⟩ := (mem_kidsY_keys I.tree hd rfl a).1 ha
    obtain ⟨nd2, nc2, f1, f2, _, _, _, _, _, f8⟩ := childC_facts I.tree (childC_of_mem I.tree hd (find?_mem g1))
    rw [hd] at f1
    obtain rfl := Option.some.inj f1
    exact f8
  obtain ⟨a, h1, h2, _⟩ := Uct.c30_most_visited hlowI hmv (hacts _ hsink) hk raw iter hiI
  exact ⟨a, h2, h1⟩

/-- C59 for MENTS trees, in exact real arithmetic. -/
theorem c59_ments {c : ECfg S A ℝ Ments.Soft Ments.Soft} {p : Policy} {eps : ℝ} {cfg : Ments.Cfg S A} {lr : S → A → ℝ} {m : Manager S ℝ} {k : Nat}
    {dp tm : Int} {tb : List ((Int × S) × Option Nat)} {hs : List (Event S A ℝ)} (G : Ments.GoodCfg cfg c.env)
    (htb : Leftover tb) (hr : Reachable c.env m (Ments.ments eps cfg lr) k c.init dp tm tb c.tree hs) (hroot : p.root = c.tree.root)
    (hacts : ∀ s, c.env.isSink s = false → c.env.actions s ≠ []) {lowI : Int} (hlowI : lowI ≤ 0)
    (hlow : ∀ (d : Nat) nd, c.tree.dn[d]? = some nd → ∀ a ∈ c.env.actions nd.state, ∀ x,
      Ments.mentsQ cfg id (viewOf c.env m c.tree nd) a = .ok x → cfg.low ≤ x)
    {iter : List (A × ℝ) → List (A × ℝ)} {iterI : List (A × Int) → List (A × Int)} (hi : Uct.IterOk iter) (hiI : Uct.IterOk iterI)
    (hadv : c.advise = fun d raw => (c.tree.dn[d]?).bind fun nd =>
      match Ments.recommend cfg (Ments.mentsQ cfg id (viewOf c.env m c.tree nd)) lowI (viewOf c.env m c.tree nd) raw iter iterI with
      | .ok a => a
      | .error _ => none) :
    GoodEval c p := by
  refine ⟨⟨m, _, k, dp, tm, tb, hs, Ments.ments_valid eps cfg lr, htb, hr⟩, hroot, hacts, ?_⟩
  intro d nd hd hsink raw
  rw [hadv]
  simp only [hd, Option.bind_some]
  obtain ⟨a, h1, h2⟩ := Ments.c37_valid_in_search G htb hr hd (hacts _ hsink) (hlow d nd hd) hlowI raw hi hiI
  exact ⟨a, h1, by rw [h2]⟩

end

/-- The evaluation of the example tree meets the requirements. -/
theorem exEval_good (maxLen : Int) (keeps : Bool) : GoodEval (exEval maxLen keeps) (newPolicy 0) := by
  obtain ⟨h, hr⟩ := exTree_reachable
  exact c59_uct (cfg := Uct.Toy.cfg 1 0) (m := Uct.Toy.mgr) (iter := id) (iterI := id) (lowI := 0) (by intro p hp; simp at hp) hr
    (by show 0 = exTree.root; decide +kernel) (by intro s _; simp [exEval, Uct.Toy.env]) (le_refl _) rfl (fun _ _ => Iff.rfl) (fun _ _ => Iff.rfl) rfl

example : ∃ es h, EReach (exEval 10 false) (newPolicy 0) [] es h ∧ es.crashed = false ∧ h ≠ [] :=
  ⟨_, _, .step (t := 0) (raw := 0) (s' := 0) .start rfl, rfl, by simp⟩

/-- The example tree, whose root has state 0, used in an environment that starts in state 1, where only action 5 is valid. -/
def otherEval : ECfg Nat Nat ℚ (Uct.Stats ℚ) (Uct.Stats ℚ) :=
  { exEval 10 false with env := { Uct.Toy.env with actions := fun s => if s = 0 then [0, 1] else [5] }, init := 1 }

/-- Without the requirement that the tree is one for the initial state a rollout can take an invalid action: the nodes only know the
actions of their own states. -/
theorem c59_other_root_false : ∃ (c : ECfg Nat Nat ℚ (Uct.Stats ℚ) (Uct.Stats ℚ)) (es : EState Nat ℚ) (h : List (EEvent Nat Nat ℚ)),
    (∀ s, c.env.isSink s = false → c.env.actions s ≠ []) ∧ EReach c (newPolicy 0) [] es h ∧
    ∃ t s a s' al, .acted t s a s' al ∈ h ∧ a ∉ c.env.actions s := by
  have hs : ((exec otherEval (start otherEval (newPolicy 0) []) [] [(0, 0, 0), (0, 0, 2)]).any fun x =>
      decide ((x.2.head?.map fun e => match e with | .acted 0 1 a 2 false => decide (a ∉ otherEval.env.actions 1) | _ => false) = some true)) = true := by
    decide +kernel
  rw [Option.any_eq_true] at hs
  obtain ⟨x, hx, hp⟩ := hs
  simp only [decide_eq_true_eq] at hp
  refine ⟨otherEval, x.1, x.2, ?_, exec_reach .start hx, ?_⟩
  · intro s _
    show (if s = 0 then [0, 1] else [5]) ≠ []
    split <;> simp
  · cases hl : x.2 with
    | nil => rw [hl] at hp; simp at hp
    | cons e l =>
      rw [hl] at hp
      simp only [List.head?_cons, Option.map_some, Option.some.injEq] at hp
      split at hp
      · exact ⟨_, _, _, _, _, List.mem_cons_self, by simpa using hp⟩
      · simp at hp

/-! ## C60 -/

section
variable {S A R X Y : Type} [DecidableEq S] [DecidableEq A] [Add R] [Zero R]
variable {c : ECfg S A R X Y} {p : Policy} {old : List R} {es : EState S R} {h : List (EEvent S A R)}

/-- C60: the context object handed to the policy exists if and only if the environment itself keeps a reference to it. -/
theorem c60_context_alive_iff {t : Nat} {s s' : S} {a : A} {al : Bool} (hr : EReach c p old es h) (he : .acted t s a s' al ∈ h) :
    al = c.keepsCtx := by
  obtain ⟨h1, h0, rfl⟩ := List.append_of_mem he
  obtain ⟨es0, es1, t', hr0, hnc, E⟩ := ereach_prefix hr
  cases E with
  | acted th r raw _ _ hth hroll hlt hsink ha hsucc => exact ((einv hr0).roll _ _ _ hth hroll).2.2.2.1

end

/-- C60 is false for the default context, of which nobody else keeps a reference: every action is chosen with a reference to a
destroyed object. -/
theorem c60_dangling_context_false : ∃ (es : EState Nat ℚ) (h : List (EEvent Nat Nat ℚ)),
    EReach (exEval 10 false) (newPolicy 0) [] es h ∧ ∃ t s a s', .acted t s a s' false ∈ h := by
  have hs : ((exec (exEval 10 false) (start (exEval 10 false) (newPolicy 0) []) [] [(0, 0, 0), (0, 0, 1)]).any fun x =>
      decide ((x.2.head?.map fun e => match e with | .acted 0 0 _ 1 false => true | _ => false) = some true)) = true := by
    decide +kernel
  rw [Option.any_eq_true] at hs
  obtain ⟨x, hx, hp⟩ := hs
  simp only [decide_eq_true_eq] at hp
  refine ⟨x.1, x.2, exec_reach .start hx, ?_⟩
  cases hl : x.2 with
  | nil => rw [hl] at hp; simp at hp
  | cons e l =>
    rw [hl] at hp
    simp only [List.head?_cons, Option.map_some, Option.some.injEq] at hp
    split at hp
    · exact ⟨_, _, _, _, List.mem_cons_self⟩
    · simp at hp

/-- C60, what holds: an environment that keeps its context objects is safe. -/
theorem c60_kept_context_partial {S A R X Y : Type} [DecidableEq S] [DecidableEq A] [Add R] [Zero R] {c : ECfg S A R X Y} {p : Policy}
    {old : List R} {es : EState S R} {h : List (EEvent S A R)} (hk : c.keepsCtx = true) (hr : EReach c p old es h) :
    ∀ t s a s' al, .acted t s a s' al ∈ h → al = true :=
  fun _ _ _ _ _ he => (c60_context_alive_iff hr he).trans hk

end Verif.Eval
