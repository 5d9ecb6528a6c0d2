import Verif.Proofs.Consistent
import Verif.Proofs.CtxInv
import Verif.Proofs.SearchBack
import Mathlib.Algebra.Order.Group.Multiset
import Mathlib.Tactic.Abel

/-! # Where the returns of a node come from -/

namespace Verif.Search

set_option linter.unusedSimpArgs false
set_option linter.unusedSectionVars false

variable {S A R X Y : Type} [DecidableEq S] [DecidableEq A]

/-! ## A node that is not a leaf ends at most one trial -/

def Event.grewInto (d : Nat) : Event S A R → Bool | .stepped _ _ _ _ _ d' _ g => d' == d && g | _ => false

def Phase.selNew (m : Manager S R) (d : Nat) : Phase S A R → Bool | .sel d' _ _ new => d' == d && (m.mctsMode && new) | _ => false

section
variable [AddMonoid R] {env : Env S A R} {m : Manager S R} {alg : Alg S A R X Y} {k : Nat} {s0 : S} {dp tm : Int}
  {tb : List ((Int × S) × Option Nat)} {st : St S A R X Y} {h : List (Event S A R)}

/-- A trial ends at a node that is not a leaf only after having grown the tree by reaching it. -/
theorem ends_grew (hv : alg.Valid) (htb : Leftover tb) (hr : Reachable env m alg k s0 dp tm tb st h) :
    ∀ d, (∀ nd, st.dn[d]? = some nd → isLeaf env m nd = false) →
      h.countP (Event.endAt d) + st.ws.countP (Phase.selNew m d) ≤ h.countP (Event.grewInto d) := by
  refine reach_induct (fun st h => ∀ d, (∀ nd, st.dn[d]? = some nd → isLeaf env m nd = false) →
      h.countP (Event.endAt d) + st.ws.countP (Phase.selNew m d) ≤ h.countP (Event.grewInto d)) ?_ ?_ hr
  · intro d _
    simp [init, List.countP_replicate, Phase.selNew]
  · intro st h w e st' hr ih _ E d hd
    have I := reach_inv hv htb hr
    have hd0 : ∀ nd, st.dn[d]? = some nd → isLeaf env m nd = false := by
      intro nd hn
      obtain ⟨nd', h1, h2, h3, _⟩ := (le_eff E).d d nd hn
      rw [← isLeaf_congr h2 h3]
      exact hd nd' h1
    have ih' := ih d hd0
    have key : ∀ (p q : Phase S A R), st.ws[w]? = some p → st'.ws = st.ws.set w q →
        (Event.endAt d e).toNat + (q.selNew m d).toNat ≤ (p.selNew m d).toNat + (Event.grewInto d e).toNat →
        (e :: h).countP (Event.endAt d) + st'.ws.countP (Phase.selNew m d) ≤ (e :: h).countP (Event.grewInto d) := by
      intro p q hp hws h1
      have a1 := countP_set' (Phase.selNew m d) st.ws w p q hp
      rw [hws, List.countP_cons, List.countP_cons]
      cases hx : Event.endAt d e <;> cases hy : Event.grewInto d e <;> simp [hx, hy] at h1 ⊢ <;> omega
    cases E with
    | crash hc => simpa [Event.endAt, Event.grewInto] using ih'
    | began hw => exact key _ _ hw rfl (by simp [Event.endAt, Event.grewInto, Phase.selNew])
    | selOld hw hd' hl hm ha hf => exact key _ _ hw rfl (by simp [Event.endAt, Event.grewInto, Phase.selNew])
    | selNew hw hd' hl hm ha hf => exact key _ _ hw rfl (by simp [Event.endAt, Event.grewInto, Phase.selNew])
    | @ended cur path rs new nd hw hd' hs =>
      refine key _ _ hw rfl ?_
      by_cases hc : cur = d
      · subst hc
        rcases hs with hs | hs
        · rw [hd0 nd hd'] at hs; simp at hs
        · simp [Event.endAt, Event.grewInto, Phase.selNew, hs]
      · have hb : (cur == d) = false := by simpa using hc
        simp [Event.endAt, Event.grewInto, Phase.selNew, hb]
    | @stepOld cur a c path rs new nc nd o d' hw hc' hd' ho hf =>
      refine key _ _ hw rfl ?_
      have := (I.ws w _ hw)
      have hm := this.2.2.2.2.2.2.2.2
      simp [Event.endAt, Event.grewInto, Phase.selNew, hm]
    | @stepNew cur a c path rs new nc nd o tb hw hc' hd' ho hf ht =>
      refine key _ _ hw rfl ?_
      cases hb : (st.dn.length == d) <;> simp [Event.endAt, Event.grewInto, Phase.selNew, hb]
      exact Bool.toNat_le _
    | @stepHit cur a c path rs new nc nd o d' hw hc' hd' ho hf hu ht =>
      refine key _ _ hw rfl ?_
      cases hb : (d' == d) <;> simp [Event.endAt, Event.grewInto, Phase.selNew, hb]
      exact Bool.toNat_le _
    | completed hw => exact key _ _ hw rfl (by simp [Event.endAt, Event.grewInto, Phase.selNew])
    | backedC hw hc => exact key _ _ hw rfl (by simp [Event.endAt, Event.grewInto, Phase.selNew])
    | backedD hw hd' => exact key _ _ hw rfl (by simp [Event.endAt, Event.grewInto, Phase.selNew])

/-- Without a transposition table every node is created once. -/
theorem grew_once (ht : m.useTable = false) (hr : Reachable env m alg k s0 dp tm tb st h) :
    ∀ d, h.countP (Event.grewInto d) ≤ if d < st.dn.length then 1 else 0 := by
  obtain ⟨ls, hx⟩ := hr
  refine exec_induct (fun st h => ∀ d, h.countP (Event.grewInto d) ≤ if d < st.dn.length then 1 else 0) ?_ ?_ hx
  · intro st h w e st' ih _ E d
    have ih' := ih d
    cases E with
    | @stepNew cur a c path rs new nc nd o tb hw hc' hd' ho hf ht =>
      rw [List.countP_cons]
      simp only [Event.grewInto, Bool.and_true, beq_iff_eq, List.length_append, List.length_singleton]
      split at ih' <;> split <;> split <;> omega
    | @stepHit cur a c path rs new nc nd o d' hw hc' hd' ho hf hu ht' => rw [ht] at hu; simp at hu
    | _ => simpa [Event.grewInto] using ih'
  · intro d; simp

theorem grew_into (h : List (Event S A R)) (d : Nat) : h.countP (Event.grewInto d) ≤ h.countP (Event.stepInto d) := by
  apply List.countP_mono_left
  intro e _
  cases e <;> simp [Event.grewInto, Event.stepInto]
  intro h _; exact h

/-- A node that is not a leaf ends at most one trial; the root none. -/
theorem ends_le_one (hv : alg.Valid) (htb : Leftover tb) (ht : m.useTable = false) (hr : Reachable env m alg k s0 dp tm tb st h) {d : Nat}
    {nd : DNode S A R X} (hd : st.dn[d]? = some nd) (hl : isLeaf env m nd = false) : h.countP (Event.endAt d) ≤ 1 := by
  have h1 := ends_grew hv htb hr d (by intro nd' h'; rw [hd] at h'; simp at h'; subst h'; exact hl)
  have h2 := grew_once ht hr d
  split at h2 <;> omega

theorem root_ends (hv : alg.Valid) (htb : Leftover tb) (hr : Reachable env m alg k s0 dp tm tb st h)
    {nd : DNode S A R X} (hd : st.dn[st.root]? = some nd) (hl : isLeaf env m nd = false) : h.countP (Event.endAt st.root) = 0 := by
  have h1 := ends_grew hv htb hr st.root (by intro nd' h'; rw [hd] at h'; simp at h'; subst h'; exact hl)
  obtain ⟨I, C⟩ := reach_both hv htb hr
  have h2 := no_into_root I C
  have h3 := grew_into h st.root
  omega

end

/-! ## Flow of returns -/

/-- Parents: `par c` is the decision node above chance node `c`, `up d` the chance node above decision node `d` and `rew d` the
reward on the way. -/
structure Ups [Add R] [Zero R] (env : Env S A R) (st : St S A R X Y) (par up : Nat → Nat) (rew : Nat → R) : Prop where
  pc : ∀ d a c, childC st d a = some c → par c = d
  pd : ∀ c o d, childD st c o = some d → up d = c
  pr : ∀ c nc o d, st.cn[c]? = some nc → childD st c o = some d → rew d = env.reward nc.state nc.action o

theorem Ups.le [Add R] [Zero R] {env : Env S A R} {st st' : St S A R X Y} {par up : Nat → Nat} {rew : Nat → R} (U : Ups env st' par up rew) (L : Le st st') :
    Ups env st par up rew := by
  refine ⟨fun d a c hc => U.pc d a c (L.childC hc), fun c o d hc => U.pd c o d (L.childD hc), ?_⟩
  intro c nc o d hc hcd
  obtain ⟨nc', h1, h2, h3, _⟩ := L.c c nc hc
  rw [← h2, ← h3]
  exact U.pr c nc' o d h1 (L.childD hcd)

/-- The value a worker is about to hand to chance node `c`. -/
def Phase.pendM [Add R] (c : Nat) : Phase S A R → Multiset R
  | .back nodes before _ ret _ | .backD _ nodes before _ ret _ =>
    match nodes.getLast?, before.getLast? with
    | some p, some r => if p.2 = c then {ret + r} else 0
    | _, _ => 0
  | _ => 0

/-- The value a worker is about to hand to decision node `d`. -/
def Phase.pendDM (d : Nat) : Phase S A R → Multiset R
  | .backD d' _ _ _ ret _ => if d' = d then {ret} else 0
  | _ => 0

/-- What an event produces for chance node `c`. -/
def Event.feeds [Add R] (root : Nat) (par up : Nat → Nat) (rew : Nat → R) (c : Nat) : Event S A R → Multiset R
  | .backedC _ c' args => if par c' ≠ root ∧ up (par c') = c then {args.retAfter + rew (par c')} else 0
  | .ended _ d hv => if d ≠ root ∧ up d = c then {hv + rew d} else 0
  | _ => 0

/-- What an event produces for decision node `d`. -/
def Event.feedsD (par : Nat → Nat) (d : Nat) : Event S A R → Multiset R
  | .backedC _ c' args => if par c' = d then {args.retAfter} else 0
  | _ => 0

theorem msum_zero (k : Nat) : (List.replicate k (0 : Multiset R)).sum = 0 := by
  induction k with
  | zero => rfl
  | succ k ih => rw [List.replicate_succ, List.sum_cons, ih, add_zero]

theorem msum_set {α : Type} (f : α → Multiset R) (l : List α) (i : Nat) (p q : α) (h : l[i]? = some p) :
    ((l.set i q).map f).sum + f p = (l.map f).sum + f q := by
  induction l generalizing i with
  | nil => simp at h
  | cons a l ih =>
    cases i with
    | zero =>
      simp at h; subst h
      simp only [List.set_cons_zero, List.map_cons, List.sum_cons]
      abel
    | succ i =>
      simp at h
      have := ih i h
      simp only [List.set_cons_succ, List.map_cons, List.sum_cons]
      rw [add_assoc, this, add_assoc]

/-- The link above the end of a path. -/
theorem isPath_last {env : Env S A R} {st : St S A R X Y} {ss : List (Step S A R)} {s : Step S A R} :
    ∀ {d e : Nat}, IsPath env st d (ss ++ [s]) e → IsPath env st d ss s.d ∧ childC st s.d s.a = some s.c ∧ childD st s.c s.o = some e ∧
      ∃ x, stateOf st s.d = some x ∧ s.r = env.reward x s.a s.o := by
  induction ss with
  | nil =>
    intro d e hp
    obtain ⟨h1, h2, h3, ⟨x, h4, _, _, h5⟩, h6⟩ := hp
    simp only [IsPath] at h6
    subst h6
    exact ⟨h1.symm, by rw [h1]; exact h2, h3, x, by rw [h1]; exact h4, h5⟩
  | cons t ss ih =>
    intro d e hp
    obtain ⟨h1, h2, h3, h4, h6⟩ := hp
    obtain ⟨g1, g2⟩ := ih h6
    exact ⟨⟨h1, h2, h3, h4, g1⟩, g2⟩

/-- `nodes` and `before` lead from the root down to decision node `d`. -/
def Linked (env : Env S A R) (st : St S A R X Y) (d : Nat) (nodes : List (Nat × Nat)) (before : List R) : Prop :=
  ∃ ss : List (Step S A R), IsPath env st st.root ss d ∧ nodes = pairs ss ∧ before = ss.map Step.r

section
variable [AddMonoid R] {env : Env S A R} {m : Manager S R} {alg : Alg S A R X Y} {k : Nat} {s0 : S} {dp tm : Int}
  {tb : List ((Int × S) × Option Nat)} {st : St S A R X Y} {h : List (Event S A R)}

theorem Linked.spec (T : Tree env m s0 dp tm st) {par up : Nat → Nat} {rew : Nat → R} (U : Ups env st par up rew) {d : Nat}
    {nodes : List (Nat × Nat)} {before : List R} (L : Linked env st d nodes before) :
    (d = st.root ∧ nodes = [] ∧ before = []) ∨ (d ≠ st.root ∧ ∃ ns bs d0, nodes = ns ++ [(d0, up d)] ∧ before = bs ++ [rew d]) := by
  obtain ⟨ss, hp, rfl, rfl⟩ := L
  rcases getLast?_cases ss with rfl | ⟨l, s, rfl⟩
  · left; exact ⟨hp.symm, rfl, rfl⟩
  · right
    obtain ⟨g1, g2, g3, x, g4, g5⟩ := isPath_last hp
    obtain ⟨nc, nd, k1, k2, _, _, k5, _⟩ := childD_facts T g3
    obtain ⟨nd1, nc1, q1, q2, _, q3, q4, _⟩ := childC_facts T g2
    rw [k1] at q2; simp at q2; subst q2
    have hst : nd1.state = x := by simpa [stateOf, q1] using g4
    refine ⟨?_, ?_⟩
    · rintro rfl
      obtain ⟨r, hr, _, hdr, _⟩ := root_node T
      rw [k2] at hr; simp at hr; subst hr
      have := isPath_depth T hp k2 k2
      simp at this
      omega
    · refine ⟨pairs l, l.map Step.r, s.d, ?_, ?_⟩
      · rw [U.pd _ _ _ g3]; simp [pairs]
      · rw [U.pr _ nc _ _ k1 g3, q3, q4, hst, ← g5]; simp

/-- The links of a worker that is going down, and of one that is backing up. -/
theorem sel_linked (I : Inv env m s0 dp tm st h) {w cur : Nat} {path : List (Nat × Nat)} {rs : List R} {new : Bool}
    (hw : st.ws[w]? = some (.sel cur path rs new)) : Linked env st cur path rs := by
  obtain ⟨h1, h2, h3, _⟩ := I.ws w _ hw
  exact ⟨_, h1.1, h2, h3⟩

theorem back_linked (I : Inv env m s0 dp tm st h) {w d c : Nat} {nodes : List (Nat × Nat)} {before after : List R} {r ret tot : R}
    (hw : st.ws[w]? = some (.back (nodes ++ [(d, c)]) (before ++ [r]) after ret tot)) :
    Linked env st d nodes before ∧ ∃ a, childC st d a = some c := by
  obtain ⟨e, hv, j, h1, h2, h3, h4, h5, h6, _⟩ := I.ws w _ hw
  generalize hss : stepsOf w h = ss at *
  rcases Nat.eq_zero_or_pos j with rfl | hj
  · simp at h5
  · have hlt : j - 1 < ss.length := by omega
    have hjs : ss[j - 1]? = some ss[j - 1] := List.getElem?_eq_getElem hlt
    have htk : ss.take j = ss.take (j - 1) ++ [ss[j - 1]] := by
      have := List.take_append_getElem (l := ss) (i := j - 1) hlt
      rw [this]; congr 1; omega
    have e5 : nodes ++ [(d, c)] = pairs (ss.take (j - 1)) ++ [(ss[j - 1].d, ss[j - 1].c)] := by
      rw [h5]; unfold pairs; rw [← List.map_take, htk, List.map_append]; rfl
    have e6 : before ++ [r] = (ss.take (j - 1)).map Step.r ++ [ss[j - 1].r] := by
      rw [h6, ← List.map_take, htk, List.map_append]; rfl
    obtain ⟨e51, e52⟩ := List.append_inj' e5 rfl
    obtain ⟨e61, e62⟩ := List.append_inj' e6 rfl
    simp at e52
    have hp := isPath_take h3.1 hjs
    rw [← e52.1] at hp
    refine ⟨⟨ss.take (j - 1), hp, e51, e61⟩, ss[j - 1].a, ?_⟩
    have := (isPath_mem h3.1 ss[j - 1] (List.getElem_mem hlt)).1
    rw [e52.1, e52.2]; exact this

/-- **Flow.** What has been backed up through a chance node, together with what workers are about to hand to it, is what has been
produced below it: each value with the reward of the step added. -/
theorem flow_c (hv : alg.Valid) (htb : Leftover tb) (hr : Reachable env m alg k s0 dp tm tb st h) {par up : Nat → Nat}
    {rew : Nat → R} (U : Ups env st par up rew) (c : Nat) :
    (returnsC c h : Multiset R) + (st.ws.map (Phase.pendM c)).sum = (h.map (Event.feeds st.root par up rew c)).sum := by
  refine reach_induct (fun st h => Ups env st par up rew → (returnsC c h : Multiset R) + (st.ws.map (Phase.pendM c)).sum =
    (h.map (Event.feeds st.root par up rew c)).sum) ?_ ?_ hr U
  · intro _
    simp [init, returnsC, Phase.pendM, msum_zero]
  · intro st h w e st' hr ih _ E U
    have I := reach_inv hv htb hr
    have U0 := U.le (le_eff E)
    have ih' := ih U0
    have key : ∀ (p q : Phase S A R), st.ws[w]? = some p → st'.ws = st.ws.set w q →
        (returnsC c [e] : Multiset R) + q.pendM c = p.pendM c + e.feeds st'.root par up rew c →
        (returnsC c (e :: h) : Multiset R) + (st'.ws.map (Phase.pendM c)).sum =
          ((e :: h).map (Event.feeds st'.root par up rew c)).sum := by
      intro p q hp hws h1
      have a1 := msum_set (Phase.pendM c) st.ws w p q hp
      have a4 : (returnsC c (e :: h) : Multiset R) = (returnsC c [e] : Multiset R) + (returnsC c h : Multiset R) := by
        rw [← List.singleton_append]; simp only [returnsC, List.filterMap_append, Multiset.coe_add]
      rw [hws, a4, List.map_cons, List.sum_cons, (le_eff E).root, ← ih']
      rw [(le_eff E).root] at h1
      have : (↑(returnsC c [e]) + ↑(returnsC c h) + ((st.ws.set w q).map (Phase.pendM c)).sum) + p.pendM c =
          (e.feeds st.root par up rew c + (↑(returnsC c h) + (st.ws.map (Phase.pendM c)).sum)) + p.pendM c := by
        calc _ = ↑(returnsC c [e]) + ↑(returnsC c h) + (((st.ws.set w q).map (Phase.pendM c)).sum + p.pendM c) := by abel
          _ = (↑(returnsC c [e]) + q.pendM c) + ↑(returnsC c h) + (st.ws.map (Phase.pendM c)).sum := by rw [a1]; abel
          _ = _ := by rw [h1]; abel
      exact add_right_cancel this
    cases E with
    | crash hc => simpa [returnsC, Event.feeds] using ih'
    | began hw => exact key _ _ hw rfl (by simp [returnsC, Phase.pendM, Event.feeds])
    | selOld hw hd' hl hm ha hf => exact key _ _ hw rfl (by simp [returnsC, Phase.pendM, Event.feeds])
    | selNew hw hd' hl hm ha hf => exact key _ _ hw rfl (by simp [returnsC, Phase.pendM, Event.feeds])
    | @ended cur path rs new nd hw hd' hs =>
      refine key _ _ hw rfl ?_
      rcases (sel_linked I hw).spec I.tree U0 with ⟨rfl, rfl, rfl⟩ | ⟨hne, ns, bs, d0, rfl, rfl⟩
      · simp [returnsC, Phase.pendM, Event.feeds]
      · simp [returnsC, Phase.pendM, Event.feeds, hne]
    | stepOld hw hc' hd' ho hf => exact key _ _ hw rfl (by simp [returnsC, Phase.pendM, Event.feeds])
    | stepNew hw hc' hd' ho hf ht => exact key _ _ hw rfl (by simp [returnsC, Phase.pendM, Event.feeds])
    | stepHit hw hc' hd' ho hf hu ht => exact key _ _ hw rfl (by simp [returnsC, Phase.pendM, Event.feeds])
    | completed hw => exact key _ _ hw rfl (by simp [returnsC, Phase.pendM, Event.feeds])
    | @backedC nodes d c' before r after ret tot nc hw hc' =>
      refine key _ _ hw rfl ?_
      obtain ⟨L, a, hch⟩ := back_linked I hw
      have hpar := U0.pc _ _ _ hch
      rcases L.spec I.tree U0 with ⟨rfl, rfl, rfl⟩ | ⟨hne, ns, bs, d0, rfl, rfl⟩
      · by_cases hcc : c' = c
        · subst hcc; simp [returnsC, Phase.pendM, Event.feeds, hpar]
        · simp [returnsC, Phase.pendM, Event.feeds, hpar, hcc]
      · by_cases hcc : c' = c
        · subst hcc; simp [returnsC, Phase.pendM, Event.feeds, hpar, hne]
        · simp [returnsC, Phase.pendM, Event.feeds, hpar, hne, hcc]
    | backedD hw hd' => exact key _ _ hw rfl (by simp [returnsC, Phase.pendM, Event.feeds])

/-- The same for a decision node: it receives what its chance nodes have received. -/
theorem flow_d (hv : alg.Valid) (htb : Leftover tb) (hr : Reachable env m alg k s0 dp tm tb st h) {par up : Nat → Nat}
    {rew : Nat → R} (U : Ups env st par up rew) (d : Nat) :
    (returnsD d h : Multiset R) + (st.ws.map (Phase.pendDM d)).sum = (h.map (Event.feedsD par d)).sum := by
  refine reach_induct (fun st h => Ups env st par up rew → (returnsD d h : Multiset R) + (st.ws.map (Phase.pendDM d)).sum =
    (h.map (Event.feedsD par d)).sum) ?_ ?_ hr U
  · intro _
    simp [init, returnsD, Phase.pendDM, msum_zero]
  · intro st h w e st' hr ih _ E U
    have I := reach_inv hv htb hr
    have U0 := U.le (le_eff E)
    have ih' := ih U0
    have key : ∀ (p q : Phase S A R), st.ws[w]? = some p → st'.ws = st.ws.set w q →
        (returnsD d [e] : Multiset R) + q.pendDM d = p.pendDM d + e.feedsD par d →
        (returnsD d (e :: h) : Multiset R) + (st'.ws.map (Phase.pendDM d)).sum =
          ((e :: h).map (Event.feedsD par d)).sum := by
      intro p q hp hws h1
      have a1 := msum_set (Phase.pendDM d) st.ws w p q hp
      have a4 : (returnsD d (e :: h) : Multiset R) = (returnsD d [e] : Multiset R) + (returnsD d h : Multiset R) := by
        rw [← List.singleton_append]; simp only [returnsD, List.filterMap_append, Multiset.coe_add]
      rw [hws, a4, List.map_cons, List.sum_cons, ← ih']
      have : (↑(returnsD d [e]) + ↑(returnsD d h) + ((st.ws.set w q).map (Phase.pendDM d)).sum) + p.pendDM d =
          (e.feedsD par d + (↑(returnsD d h) + (st.ws.map (Phase.pendDM d)).sum)) + p.pendDM d := by
        calc _ = ↑(returnsD d [e]) + ↑(returnsD d h) + (((st.ws.set w q).map (Phase.pendDM d)).sum + p.pendDM d) := by abel
          _ = (↑(returnsD d [e]) + q.pendDM d) + ↑(returnsD d h) + (st.ws.map (Phase.pendDM d)).sum := by rw [a1]; abel
          _ = _ := by rw [h1]; abel
      exact add_right_cancel this
    cases E with
    | crash hc => simpa [returnsD, Event.feedsD] using ih'
    | @backedC nodes d' c' before r after ret tot nc hw hc' =>
      refine key _ _ hw rfl ?_
      obtain ⟨L, a, hch⟩ := back_linked I hw
      have hpar := U0.pc _ _ _ hch
      by_cases hcc : d' = d <;> simp [returnsD, Phase.pendDM, Event.feedsD, hpar, hcc]
    | @backedD cur nodes before after ret tot nd hw hd' =>
      refine key _ _ hw rfl ?_
      by_cases hcc : cur = d <;> simp [returnsD, Phase.pendDM, Event.feedsD, hcc]
    | began hw => exact key _ _ hw rfl (by simp [returnsD, Phase.pendDM, Event.feedsD])
    | selOld hw hd' hl hm ha hf => exact key _ _ hw rfl (by simp [returnsD, Phase.pendDM, Event.feedsD])
    | selNew hw hd' hl hm ha hf => exact key _ _ hw rfl (by simp [returnsD, Phase.pendDM, Event.feedsD])
    | ended hw hd' hs => exact key _ _ hw rfl (by simp [returnsD, Phase.pendDM, Event.feedsD])
    | stepOld hw hc' hd' ho hf => exact key _ _ hw rfl (by simp [returnsD, Phase.pendDM, Event.feedsD])
    | stepNew hw hc' hd' ho hf ht => exact key _ _ hw rfl (by simp [returnsD, Phase.pendDM, Event.feedsD])
    | stepHit hw hc' hd' ho hf hu ht => exact key _ _ hw rfl (by simp [returnsD, Phase.pendDM, Event.feedsD])
    | completed hw => exact key _ _ hw rfl (by simp [returnsD, Phase.pendDM, Event.feedsD])

theorem pendM_card (c : Nat) (p : Phase S A R) : (p.pendM c).card ≤ 1 := by
  cases p <;> simp only [Phase.pendM] <;> (try simp) <;> split <;> (try simp) <;> split <;> simp

theorem pendDM_card (c : Nat) (p : Phase S A R) : (p.pendDM c).card ≤ 1 := by
  cases p <;> simp only [Phase.pendDM] <;> (try simp) <;> split <;> simp

theorem msum_card {α : Type} (f : α → Multiset R) (hf : ∀ a, (f a).card ≤ 1) (l : List α) : ((l.map f).sum).card ≤ l.length := by
  induction l with
  | nil => simp
  | cons a l ih =>
    simp only [List.map_cons, List.sum_cons, Multiset.card_add, List.length_cons]
    have := hf a
    omega

/-- The parents exist if there is no transposition table. -/
theorem ups_exist (T : Tree env m s0 dp tm st) (ht : m.useTable = false) : ∃ par up rew, Ups env st par up rew := by
  classical
  refine ⟨fun c => if h : ∃ d a, childC st d a = some c then h.choose else 0,
    fun d => if h : ∃ c o, childD st c o = some d then h.choose else 0,
    fun d => if h : ∃ r, ∃ c nc o, st.cn[c]? = some nc ∧ childD st c o = some d ∧ r = env.reward nc.state nc.action o then
      h.choose else 0, ?_, ?_, ?_⟩
  · intro d a c hc
    have hex : ∃ d a, childC st d a = some c := ⟨d, a, hc⟩
    simp only [dif_pos hex]
    obtain ⟨a', ha'⟩ := hex.choose_spec
    obtain ⟨nd, _, h1, _, h2, _⟩ := childC_facts T hc
    obtain ⟨nd', _, h1', _, h2', _⟩ := childC_facts T ha'
    exact T.heap.dUniq _ _ nd'.skel nd.skel a' a c (by simp [h1']) (by simp [h1]) h2' h2
  · intro c o d hc
    have hex : ∃ c o, childD st c o = some d := ⟨c, o, hc⟩
    simp only [dif_pos hex]
    obtain ⟨o', ho'⟩ := hex.choose_spec
    obtain ⟨nc, _, h1, _, h2, _⟩ := childD_facts T hc
    obtain ⟨nc', _, h1', _, h2', _⟩ := childD_facts T ho'
    exact T.heap.cUniq ht _ _ nc'.skel nc.skel o' o d (by simp [h1']) (by simp [h1]) h2' h2
  · intro c nc o d hc hcd
    have hex : ∃ r, ∃ c nc o, st.cn[c]? = some nc ∧ childD st c o = some d ∧ r = env.reward nc.state nc.action o :=
      ⟨_, c, nc, o, hc, hcd, rfl⟩
    simp only [dif_pos hex]
    obtain ⟨c', nc', o', hs1, hs2, hs3⟩ := hex.choose_spec
    rw [hs3]
    obtain ⟨nc1, nd1, h1, h2, h3, h4, _⟩ := childD_facts T hcd
    obtain ⟨nc2, nd2, g1, g2, g3, g4, _⟩ := childD_facts T hs2
    have e1 := T.heap.cUniq ht c' c nc2.skel nc1.skel o' o d (by simp [g1]) (by simp [h1]) g3 h3
    subst e1
    rw [hc] at hs1
    simp at hs1
    rw [← hs1]
    rw [h2] at g2; simp at g2; subst g2
    rw [← g4, h4]

/-- The values that trials have brought up to decision node `d`: the returns of its chance nodes, and its own heuristic value for
every trial that ended in it. -/
def below (d : Nat) (nd : DNode S A R X) (h : List (Event S A R)) : Multiset R :=
  (nd.kids.map fun p => (returnsC p.2 h : Multiset R)).sum + Multiset.replicate (h.countP (Event.endAt d)) nd.heur

theorem ended_heur (hr : Reachable env m alg k s0 dp tm tb st h) :
    ∀ w d hv, Event.ended w d hv ∈ h → ∃ nd, st.dn[d]? = some nd ∧ nd.heur = hv := by
  refine reach_induct (fun st h => ∀ w d hv, Event.ended w d hv ∈ h → ∃ nd, st.dn[d]? = some nd ∧ nd.heur = hv) ?_ ?_ hr
  · intro w d hv hm; simp at hm
  · intro st h w e st' hr ih _ E w' d hv hm
    have old : (∃ nd, st.dn[d]? = some nd ∧ nd.heur = hv) → ∃ nd, st'.dn[d]? = some nd ∧ nd.heur = hv := by
      rintro ⟨nd, h1, h2⟩
      obtain ⟨nd', g1, _, _, _, g2, _⟩ := (le_eff E).d d nd h1
      exact ⟨nd', g1, g2.trans h2⟩
    rcases List.mem_cons.1 hm with hm | hm
    · apply old
      subst hm
      cases E with
      | @ended cur path rs new nd hw hd' hs => exact ⟨nd, hd', rfl⟩
    · exact old (ih w' d hv hm)

theorem msum_filter {α : Type} (f : α → Option (Nat × R)) (L : List Nat) (hL : L.Nodup) (h : List α) :
    (h.map fun e => match f e with | some (c, x) => if c ∈ L then ({x} : Multiset R) else 0 | none => 0).sum =
      (L.map fun c => ((h.filterMap fun e => match f e with | some (c', x) => if c' = c then some x else none | none => none : List R) :
        Multiset R)).sum := by
  induction h with
  | nil => simp only [List.map_nil, List.sum_nil, List.filterMap_nil, Multiset.coe_nil]; induction L with
    | nil => rfl
    | cons a L ih => rw [List.map_cons, List.sum_cons, zero_add]; exact ih (List.nodup_cons.1 hL).2
  | cons e h ih =>
    rw [List.map_cons, List.sum_cons, ih]
    have one : ∀ L : List Nat, L.Nodup →
        (match f e with | some (c, x) => if c ∈ L then ({x} : Multiset R) else 0 | none => 0) +
        (L.map fun c => ((h.filterMap fun e => match f e with | some (c', x) => if c' = c then some x else none | none => none : List R) :
          Multiset R)).sum =
        (L.map fun c => (((e :: h).filterMap fun e => match f e with | some (c', x) => if c' = c then some x else none | none => none
          : List R) : Multiset R)).sum := by
      intro L
      induction L with
      | nil => intro _; cases f e <;> simp
      | cons c L ihL =>
        intro hL
        rw [List.nodup_cons] at hL
        have ih2 := ihL hL.2
        simp only [List.map_cons, List.sum_cons, List.filterMap_cons] at ih2 ⊢
        rw [← ih2]
        cases hf : f e with
        | none => simp
        | some p =>
          obtain ⟨c', x⟩ := p
          by_cases hcc : c' = c
          · subst hcc
            simp only [List.mem_cons, true_or, if_true, hL.1, if_false, zero_add]
            rw [← add_assoc, ← Multiset.cons_coe, Multiset.singleton_add]
          · simp only [List.mem_cons, hcc, false_or, if_false]
            abel
    exact one L hL

/-- The parent of a chance node that has been backed up. -/
theorem backed_par (hv : alg.Valid) (htb : Leftover tb) (hr : Reachable env m alg k s0 dp tm tb st h) {par up : Nat → Nat}
    {rew : Nat → R} (U : Ups env st par up rew) {w c : Nat} {args : BArgs R} (he : Event.backedC w c args ∈ h) :
    ∃ nd, st.dn[par c]? = some nd ∧ ∃ a, (a, c) ∈ nd.kids := by
  have I := reach_inv hv htb hr
  obtain ⟨_, T⟩ := reach_bk hr
  have hlt := T.c _ he c (by simp [Event.touchesC])
  obtain ⟨nc, hc⟩ : ∃ nc, st.cn[c]? = some nc := ⟨_, List.getElem?_eq_getElem hlt⟩
  obtain ⟨i, ds, g1, g2⟩ := I.tree.heap.cPar c nc.skel (by simp [hc])
  simp at g1
  obtain ⟨nd, g1, rfl⟩ := g1
  have hcc := childC_of_mem I.tree g1 g2
  have := U.pc _ _ _ hcc
  subst this
  exact ⟨nd, g1, _, g2⟩

theorem feedsD_sum (hv : alg.Valid) (htb : Leftover tb) (hr : Reachable env m alg k s0 dp tm tb st h) {par up : Nat → Nat}
    {rew : Nat → R} (U : Ups env st par up rew) {d : Nat} {nd : DNode S A R X} (hd : st.dn[d]? = some nd) :
    (h.map (Event.feedsD par d)).sum = (nd.kids.map fun p => (returnsC p.2 h : Multiset R)).sum := by
  have I := reach_inv hv htb hr
  let f : Event S A R → Option (Nat × R) := fun e => match e with | .backedC _ c args => some (c, args.retAfter) | _ => none
  have h1 := msum_filter f (nd.kids.map Prod.snd) (dkids_nodup I.tree hd) h
  have h2 : h.map (Event.feedsD par d) =
      h.map (fun e => match f e with | some (c, x) => if c ∈ nd.kids.map Prod.snd then ({x} : Multiset R) else 0 | none => 0) := by
    apply List.map_congr_left
    intro e he
    cases e <;> simp only [Event.feedsD, f]
    rename_i w c args
    obtain ⟨nd', g1, a, g2⟩ := backed_par hv htb hr U he
    by_cases hp : par c = d
    · subst hp
      rw [hd] at g1; simp at g1; subst g1
      rw [if_pos rfl, if_pos (List.mem_map.2 ⟨_, g2, rfl⟩)]
    · rw [if_neg hp, if_neg]
      intro hm
      obtain ⟨⟨a', c'⟩, g3, rfl⟩ := List.mem_map.1 hm
      exact hp (U.pc _ _ _ (childC_of_mem I.tree hd g3))
  rw [h2, h1, List.map_map]
  congr 1
  apply List.map_congr_left
  intro p _
  simp only [Function.comp, returnsC]
  congr 1
  apply List.filterMap_congr
  intro e _
  cases e <;> rfl

/-- The returns of a decision node are those of its chance nodes, up to what workers hold in their hands. -/
theorem flow_decision (hv : alg.Valid) (htb : Leftover tb) (ht : m.useTable = false) (hr : Reachable env m alg k s0 dp tm tb st h)
    {d : Nat} {nd : DNode S A R X} (hd : st.dn[d]? = some nd) :
    ∃ p : Multiset R, p.card ≤ k ∧
      (returnsD d h : Multiset R) + p = (nd.kids.map fun p => (returnsC p.2 h : Multiset R)).sum := by
  have I := reach_inv hv htb hr
  obtain ⟨par, up, rew, U⟩ := ups_exist I.tree ht
  refine ⟨_, ?_, (flow_d hv htb hr U d).trans (feedsD_sum hv htb hr U hd)⟩
  rw [← reach_len hr]
  exact msum_card _ (pendDM_card d) _

theorem map_sum_add {α : Type} (f g : α → Multiset R) (l : List α) : (l.map fun a => f a + g a).sum = (l.map f).sum + (l.map g).sum := by
  induction l with
  | nil => simp
  | cons a l ih => simp only [List.map_cons, List.sum_cons, ih]; abel

/-- The returns of a chance node with a single successor are the values that came up to it, with the reward added, up to what
workers hold in their hands. -/
theorem flow_chance (hv : alg.Valid) (htb : Leftover tb) (ht : m.useTable = false) (hr : Reachable env m alg k s0 dp tm tb st h)
    {c d : Nat} {nc : CNode S A R Y} {o : S} {nd : DNode S A R X} (hc : st.cn[c]? = some nc) (hk : nc.kids = [(o, d)])
    (hd : st.dn[d]? = some nd) :
    ∃ p : Multiset R, p.card ≤ k ∧
      (returnsC c h : Multiset R) + p = (below d nd h).map (· + env.reward nc.state nc.action o) := by
  have I := reach_inv hv htb hr
  obtain ⟨par, up, rew, U⟩ := ups_exist I.tree ht
  have hcd : childD st c o = some d := childD_of_mem I.tree hc (by rw [hk]; simp)
  have hrew := U.pr c nc o d hc hcd
  have hup := U.pd c o d hcd
  have hroot : d ≠ st.root := by
    rintro rfl
    obtain ⟨nc1, nd1, k1, k2, _, _, k3, _⟩ := childD_facts I.tree hcd
    obtain ⟨i, ds, g1, g2⟩ := I.tree.heap.cPar c nc1.skel (by simp [k1])
    simp at g1
    obtain ⟨nd0, g1, rfl⟩ := g1
    obtain ⟨nd2, nc2, q1, q2, _, _, _, q3, _⟩ := childC_facts I.tree (childC_of_mem I.tree g1 g2)
    rw [k1] at q2; simp at q2; subst q2
    obtain ⟨r, hr, _, hdr, _⟩ := root_node I.tree
    rw [k2] at hr; simp at hr; subst hr
    have := (I.tree.heap.dTime i nd2.skel (by simp [q1])).2
    simp [DNode.skel] at this
    omega
  have huniq : ∀ d' nd', st.dn[d']? = some nd' → d' ≠ st.root → up d' = c → d' = d := by
    intro d' nd' h1 h2 h3
    have hr0 : st.root = 0 := I.tree.root
    obtain ⟨c2, n2, o2, g1, g2⟩ := I.tree.heap.dPar d' nd'.skel (by simp [h1]) (by rw [← hr0]; exact h2)
    simp at g1
    obtain ⟨nc2, g1, rfl⟩ := g1
    have := U.pd _ _ _ (childD_of_mem I.tree g1 g2)
    rw [h3] at this
    subst this
    rw [hc] at g1; simp at g1; subst g1
    have g3 : (o2, d') ∈ nc.kids := g2
    rw [hk] at g3; simp at g3; exact g3.2
  let endsM : Event S A R → Multiset R := fun e => match e with | .ended _ d' x => if d' = d then {x} else 0 | _ => 0
  have hends : (h.map endsM).sum = Multiset.replicate (h.countP (Event.endAt d)) nd.heur := by
    have gen : ∀ l : List (Event S A R), (∀ w d' x, Event.ended w d' x ∈ l → ∃ nd, st.dn[d']? = some nd ∧ nd.heur = x) →
        (l.map endsM).sum = Multiset.replicate (l.countP (Event.endAt d)) nd.heur := by
      intro l hh
      induction l with
      | nil => simp
      | cons e l ih =>
        rw [List.map_cons, List.sum_cons, ih (fun w d hv hm => hh w d hv (List.mem_cons_of_mem _ hm)), List.countP_cons]
        cases e with
        | ended w d' x =>
          by_cases hdd : d' = d
          · subst hdd
            obtain ⟨nd', q1, q2⟩ := hh w d' x (by simp)
            rw [hd] at q1; simp at q1; subst q1
            simp [endsM, Event.endAt, q2, Multiset.singleton_add, Multiset.replicate_succ]
          · simp [endsM, Event.endAt, hdd]
        | _ => simp [endsM, Event.endAt]
    exact gen h (ended_heur hr)
  refine ⟨_, ?_, (flow_c hv htb hr U c).trans ?_⟩
  · rw [← reach_len hr]
    exact msum_card _ (pendM_card c) _
  · unfold below
    rw [← hends, ← feedsD_sum hv htb hr U hd, ← map_sum_add, ← hrew]
    have : ∀ l : List (Event S A R), (∀ e ∈ l, e ∈ h) → (l.map (Event.feeds st.root par up rew c)).sum =
        ((l.map fun e => Event.feedsD par d e + endsM e).sum).map (· + rew d) := by
      intro l hl
      induction l with
      | nil => simp
      | cons e l ih =>
        rw [List.map_cons, List.sum_cons, ih (fun e he => hl e (List.mem_cons_of_mem _ he)), List.map_cons, List.sum_cons, Multiset.map_add]
        congr 1
        have he := hl e (by simp)
        cases e with
        | backedC w c' args =>
          obtain ⟨nd', g1, a, g2⟩ := backed_par hv htb hr U he
          by_cases hp : par c' = d
          · simp [Event.feeds, Event.feedsD, endsM, hp, hroot, hup]
          · have : ¬ (par c' ≠ st.root ∧ up (par c') = c) := fun hh => hp (huniq _ _ g1 hh.1 hh.2)
            simp only [Event.feeds, Event.feedsD, endsM, hp, this, if_false, add_zero, Multiset.map_zero]
        | ended w d' x =>
          obtain ⟨nd', g1, _⟩ := ended_heur hr w d' x he
          by_cases hp : d' = d
          · simp [Event.feeds, Event.feedsD, endsM, hp, hroot, hup]
          · have : ¬ (d' ≠ st.root ∧ up d' = c) := fun hh => hp (huniq _ _ g1 hh.1 hh.2)
            simp only [Event.feeds, Event.feedsD, endsM, hp, this, if_false, add_zero, Multiset.map_zero]
        | _ => simp [Event.feeds, Event.feedsD, endsM]
    exact this h (fun e he => he)

end

end Verif.Search
