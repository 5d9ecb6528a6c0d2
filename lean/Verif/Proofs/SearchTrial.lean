import Verif.Proofs.SearchTree
import Mathlib.Algebra.Group.Defs

/-! # Each worker's position agrees with what it did: the per-worker invariant -/

namespace Verif.Search

set_option linter.unusedSimpArgs false
set_option linter.unusedSectionVars false

variable {S A R X Y : Type} [DecidableEq S] [DecidableEq A]

/-! ## History functions -/

theorem trialOf_other {w : Nat} {e : Event S A R} {h : List (Event S A R)} (hw : e.worker ≠ w) :
    trialOf w (e :: h) = trialOf w h := by simp [trialOf, hw]

theorem stepsOf_other {w : Nat} {e : Event S A R} {h : List (Event S A R)} (hw : e.worker ≠ w) :
    stepsOf w (e :: h) = stepsOf w h := by simp [stepsOf, trialOf_other hw]

theorem endOf_other {w : Nat} {e : Event S A R} {h : List (Event S A R)} (hw : e.worker ≠ w) :
    endOf w (e :: h) = endOf w h := by simp [endOf, trialOf_other hw]

theorem callsOf_other {w : Nat} {e : Event S A R} {h : List (Event S A R)} (hw : e.worker ≠ w) :
    callsOf w (e :: h) = callsOf w h := by simp [callsOf, trialOf_other hw]

section
variable (w : Nat) (h : List (Event S A R))
theorem tr_began : trialOf w (.began w :: h) = [] := by simp [trialOf, Event.worker]
theorem tr_sel (d a c) : trialOf w (.selected w d a c :: h) = .selected w d a c :: trialOf w h := by
  simp [trialOf, Event.worker]
theorem tr_stp (d a c o d' r g) :
    trialOf w (.stepped w d a c o d' r g :: h) = .stepped w d a c o d' r g :: trialOf w h := by
  simp [trialOf, Event.worker]
theorem tr_end (d v) : trialOf w (.ended w d v :: h) = .ended w d v :: trialOf w h := by
  simp [trialOf, Event.worker]
theorem tr_bc (c args) : trialOf w (.backedC w c args :: h) = .backedC w c args :: trialOf w h := by
  simp [trialOf, Event.worker]
theorem tr_bd (d args) : trialOf w (.backedD w d args :: h) = .backedD w d args :: trialOf w h := by
  simp [trialOf, Event.worker]
theorem tr_comp : trialOf w (.completed w :: h) = .completed w :: trialOf w h := by
  simp [trialOf, Event.worker]
theorem tr_crash (e) : trialOf w (.crash w e :: h) = .crash w e :: trialOf w h := by
  simp [trialOf, Event.worker]
theorem st_sel (d a c) : stepsOf w (.selected w d a c :: h) = stepsOf w h := by
  simp [stepsOf, tr_sel, List.filterMap_cons, Event.step?]
theorem en_sel (d a c) : endOf w (.selected w d a c :: h) = endOf w h := by
  simp [endOf, tr_sel, List.filterMap_cons]
theorem ca_sel (d a c) : callsOf w (.selected w d a c :: h) = callsOf w h := by
  simp [callsOf, tr_sel, List.filterMap_cons, Event.call?]
theorem st_end (d v) : stepsOf w (.ended w d v :: h) = stepsOf w h := by
  simp [stepsOf, tr_end, List.filterMap_cons, Event.step?]
theorem en_end (d v) : endOf w (.ended w d v :: h) = some (d, v) := by
  simp [endOf, tr_end, List.filterMap_cons]
theorem ca_end (d v) : callsOf w (.ended w d v :: h) = callsOf w h := by
  simp [callsOf, tr_end, List.filterMap_cons, Event.call?]
theorem st_bc (c args) : stepsOf w (.backedC w c args :: h) = stepsOf w h := by
  simp [stepsOf, tr_bc, List.filterMap_cons, Event.step?]
theorem en_bc (c args) : endOf w (.backedC w c args :: h) = endOf w h := by
  simp [endOf, tr_bc, List.filterMap_cons]
theorem ca_bc (c args) : callsOf w (.backedC w c args :: h) = callsOf w h ++ [.chance c args] := by
  simp [callsOf, tr_bc, List.filterMap_cons, Event.call?]
theorem st_bd (d args) : stepsOf w (.backedD w d args :: h) = stepsOf w h := by
  simp [stepsOf, tr_bd, List.filterMap_cons, Event.step?]
theorem en_bd (d args) : endOf w (.backedD w d args :: h) = endOf w h := by
  simp [endOf, tr_bd, List.filterMap_cons]
theorem ca_bd (d args) : callsOf w (.backedD w d args :: h) = callsOf w h ++ [.decision d args] := by
  simp [callsOf, tr_bd, List.filterMap_cons, Event.call?]
theorem st_comp  : stepsOf w (.completed w :: h) = stepsOf w h := by
  simp [stepsOf, tr_comp, List.filterMap_cons, Event.step?]
theorem en_comp  : endOf w (.completed w :: h) = endOf w h := by
  simp [endOf, tr_comp, List.filterMap_cons]
theorem ca_comp  : callsOf w (.completed w :: h) = callsOf w h := by
  simp [callsOf, tr_comp, List.filterMap_cons, Event.call?]
theorem st_crash (e) : stepsOf w (.crash w e :: h) = stepsOf w h := by
  simp [stepsOf, tr_crash, List.filterMap_cons, Event.step?]
theorem en_crash (e) : endOf w (.crash w e :: h) = endOf w h := by
  simp [endOf, tr_crash, List.filterMap_cons]
theorem ca_crash (e) : callsOf w (.crash w e :: h) = callsOf w h := by
  simp [callsOf, tr_crash, List.filterMap_cons, Event.call?]
theorem st_stp (d a c o d' r g) : stepsOf w (.stepped w d a c o d' r g :: h) = stepsOf w h ++ [⟨d, a, c, o, d', r, g⟩] := by
  simp [stepsOf, tr_stp, List.filterMap_cons, Event.step?]
theorem en_stp (d a c o d' r g) : endOf w (.stepped w d a c o d' r g :: h) = endOf w h := by
  simp [endOf, tr_stp, List.filterMap_cons]
theorem ca_stp (d a c o d' r g) : callsOf w (.stepped w d a c o d' r g :: h) = callsOf w h := by
  simp [callsOf, tr_stp, List.filterMap_cons, Event.call?]
end

/-! ## Invariant -/

/-- The backup calls for the pairs `j, j+1, ...`, deepest first. -/
def callsFrom [Add R] [Zero R] (ss : List (Step S A R)) (hv : R) (j : Nat) : List (Call R) :=
  ((List.range ss.length).drop j).reverse.flatMap (callsAt ss hv)

theorem callsFrom_zero [Add R] [Zero R] (ss : List (Step S A R)) (hv : R) : callsFrom ss hv 0 = expectedCalls ss hv := rfl

theorem callsFrom_len [Add R] [Zero R] (ss : List (Step S A R)) (hv : R) : callsFrom ss hv ss.length = [] := by
  have : (List.range ss.length).drop ss.length = [] := by rw [List.drop_eq_nil_iff]; simp
  simp [callsFrom, this]

theorem callsFrom_succ [Add R] [Zero R] (ss : List (Step S A R)) (hv : R) {j : Nat} (hj : j < ss.length) :
    callsFrom ss hv j = callsFrom ss hv (j + 1) ++ callsAt ss hv j := by
  have : (List.range ss.length).drop j = j :: (List.range ss.length).drop (j + 1) := by
    rw [List.drop_eq_getElem_cons (by simpa using hj)]; simp
  simp [callsFrom, this]

/-- The decision nodes left behind were not leaves, and in mcts mode only the last step may have grown the tree. -/
def Cont (env : Env S A R) (m : Manager S R) (st : St S A R X Y) (ss : List (Step S A R)) : Prop :=
  (∀ s ∈ ss, ∃ nd, st.dn[s.d]? = some nd ∧ isLeaf env m nd = false) ∧
  (m.mctsMode = true → ∀ s ∈ ss.dropLast, s.grew = false)

def Stopped (env : Env S A R) (m : Manager S R) (st : St S A R X Y) (ss : List (Step S A R)) (e : Nat) (hv : R) : Prop :=
  ∃ nd, st.dn[e]? = some nd ∧ nd.heur = hv ∧
    (isLeaf env m nd = true ∨ (m.mctsMode = true ∧ ss.any Step.grew = true))

def Base (env : Env S A R) (m : Manager S R) (st : St S A R X Y) (ss : List (Step S A R)) (e : Nat) : Prop :=
  IsPath env st st.root ss e ∧ (∃ nd, st.dn[e]? = some nd) ∧ Cont env m st ss

def pairs (ss : List (Step S A R)) : List (Nat × Nat) := ss.map (fun s => (s.d, s.c))

/-- What the phase of a worker says about the history of its trial. -/
def WInv [Add R] [Zero R] (env : Env S A R) (m : Manager S R) (st : St S A R X Y) (h : List (Event S A R)) (w : Nat) :
    Phase S A R → Prop
  | .idle => trialOf w h = [] ∨ ∃ e hv, endOf w h = some (e, hv) ∧ Base env m st (stepsOf w h) e ∧
      Stopped env m st (stepsOf w h) e hv ∧ callsOf w h = expectedCalls (stepsOf w h) hv
  | .sel cur path rs new => Base env m st (stepsOf w h) cur ∧ path = pairs (stepsOf w h) ∧ rs = (stepsOf w h).map Step.r ∧
      new = (stepsOf w h).any Step.grew ∧ callsOf w h = [] ∧ endOf w h = none
  | .samp cur a c path rs new => Base env m st (stepsOf w h) cur ∧ path = pairs (stepsOf w h) ∧
      rs = (stepsOf w h).map Step.r ∧ new = (stepsOf w h).any Step.grew ∧ callsOf w h = [] ∧ endOf w h = none ∧
      childC st cur a = some c ∧ (∃ nd, st.dn[cur]? = some nd ∧ isLeaf env m nd = false) ∧ (m.mctsMode && new) = false
  | .back nodes before after ret tot => ∃ e hv j, j ≤ (stepsOf w h).length ∧ endOf w h = some (e, hv) ∧
      Base env m st (stepsOf w h) e ∧ Stopped env m st (stepsOf w h) e hv ∧ nodes = (pairs (stepsOf w h)).take j ∧
      before = ((stepsOf w h).map Step.r).take j ∧ after = hv :: (((stepsOf w h).map Step.r).drop j).reverse ∧
      ret = after.sum ∧ tot = ((stepsOf w h).map Step.r ++ [hv]).sum ∧ callsOf w h = callsFrom (stepsOf w h) hv j
  | .backD d nodes before after ret tot => ∃ e hv j s, (stepsOf w h)[j]? = some s ∧ s.d = d ∧ endOf w h = some (e, hv) ∧
      Base env m st (stepsOf w h) e ∧ Stopped env m st (stepsOf w h) e hv ∧ nodes = (pairs (stepsOf w h)).take j ∧
      before = ((stepsOf w h).map Step.r).take j ∧ after = hv :: (((stepsOf w h).map Step.r).drop j).reverse ∧
      ret = after.sum ∧ tot = ((stepsOf w h).map Step.r ++ [hv]).sum ∧
      callsOf w h = callsFrom (stepsOf w h) hv (j + 1) ++ [.chance s.c (argsAt ((stepsOf w h).map Step.r) hv j)]

theorem isLeaf_congr {env : Env S A R} {m : Manager S R} {nd nd' : DNode S A R X} (h1 : nd'.state = nd.state)
    (h2 : nd'.depth = nd.depth) : isLeaf env m nd' = isLeaf env m nd := by simp [isLeaf, h1, h2]

theorem Cont.mono [Add R] [Zero R] {env : Env S A R} {m : Manager S R} {st st' : St S A R X Y} {ss : List (Step S A R)} (hle : Le st st')
    (h : Cont env m st ss) : Cont env m st' ss := by
  refine ⟨fun s hs => ?_, h.2⟩
  obtain ⟨nd, h1, h2⟩ := h.1 s hs
  obtain ⟨nd', h3, h4, h5, _⟩ := hle.d _ nd h1
  exact ⟨nd', h3, by rw [isLeaf_congr h4 h5]; exact h2⟩

theorem Stopped.mono [Add R] [Zero R] {env : Env S A R} {m : Manager S R} {st st' : St S A R X Y} {ss : List (Step S A R)} {e : Nat} {hv : R}
    (hle : Le st st') (h : Stopped env m st ss e hv) : Stopped env m st' ss e hv := by
  obtain ⟨nd, h1, h2, h3⟩ := h
  obtain ⟨nd', g1, g2, g3, g4, g5, _⟩ := hle.d _ nd h1
  exact ⟨nd', g1, by rw [g5, h2], by rw [isLeaf_congr g2 g3]; exact h3⟩

theorem Base.mono [Add R] [Zero R] {env : Env S A R} {m : Manager S R} {st st' : St S A R X Y} {ss : List (Step S A R)} {e : Nat}
    (hle : Le st st') (h : Base env m st ss e) : Base env m st' ss e := by
  obtain ⟨h1, ⟨nd, h2⟩, h3⟩ := h
  obtain ⟨nd', g1, _⟩ := hle.d _ nd h2
  exact ⟨by rw [hle.root]; exact hle.isPath h1, ⟨nd', g1⟩, h3.mono hle⟩

/-- Another worker's step does not disturb the invariant. -/
theorem WInv.mono [Add R] [Zero R] {env : Env S A R} {m : Manager S R} {st st' : St S A R X Y} {h : List (Event S A R)}
    {w : Nat} {p : Phase S A R} {h' : List (Event S A R)} (hle : Le st st') (hs : stepsOf w h' = stepsOf w h)
    (he : endOf w h' = endOf w h) (hc : callsOf w h' = callsOf w h) (ht : p = .idle → trialOf w h = [] → trialOf w h' = [])
    (H : WInv env m st h w p) : WInv env m st' h' w p := by
  cases p with
  | idle =>
    rcases H with H | ⟨e, hv, h1, h2, h3, h4⟩
    · exact .inl (ht rfl H)
    · exact .inr ⟨e, hv, by rw [he]; exact h1, by rw [hs]; exact h2.mono hle, by rw [hs]; exact h3.mono hle,
        by rw [hc, hs]; exact h4⟩
  | sel cur path rs new =>
    obtain ⟨h1, h2, h3, h4, h5, h6⟩ := H
    refine ⟨?_, ?_, ?_, ?_, ?_, ?_⟩ <;> simp only [hs, he, hc] <;> first | assumption | exact h1.mono hle
  | samp cur a c path rs new =>
    obtain ⟨h1, h2, h3, h4, h5, h6, h7, ⟨nd, h8, h9⟩, h10⟩ := H
    refine ⟨?_, ?_, ?_, ?_, ?_, ?_, hle.childC h7, ?_, h10⟩ <;> (try simp only [hs, he, hc]) <;> try first | assumption | exact h1.mono hle
    obtain ⟨nd', g1, g2, g3, _⟩ := hle.d _ nd h8
    exact ⟨nd', g1, by rw [isLeaf_congr g2 g3]; exact h9⟩
  | back nodes before after ret tot =>
    obtain ⟨e, hv, j, h1, h2, h3, h4, h5⟩ := H
    refine ⟨e, hv, j, ?_, ?_, ?_, ?_, ?_⟩ <;> simp only [hs, he, hc] <;>
      first | assumption | exact h3.mono hle | exact h4.mono hle
  | backD d nodes before after ret tot =>
    obtain ⟨e, hv, j, s, h1, h2, h3, h4, h5, h6⟩ := H
    refine ⟨e, hv, j, s, ?_, h2, ?_, ?_, ?_, ?_⟩ <;> simp only [hs, he, hc] <;>
      first | assumption | exact h4.mono hle | exact h5.mono hle

theorem total_eq_sum [AddMonoid R] (rs : List R) : total rs = rs.sum := by
  have : ∀ (x : R), rs.foldl (· + ·) x = x + rs.sum := by
    induction rs with
    | nil => intro x; simp
    | cons r rs ih => intro x; simp [ih, add_assoc]
  simp [total, this]

theorem sum_snoc [AddMonoid R] (l : List R) (r : R) : (l ++ [r]).sum = l.sum + r := by
  induction l with
  | nil => simp
  | cons x l ih => simp only [List.cons_append, List.sum_cons, ih, add_assoc]

/-- The whole invariant: tree shape and every worker. -/
structure Inv [AddMonoid R] (env : Env S A R) (m : Manager S R) (s0 : S) (dp tm : Int) (st : St S A R X Y)
    (h : List (Event S A R)) : Prop where
  tree : Tree env m s0 dp tm st
  ws : ∀ (w : Nat) p, st.ws[w]? = some p → WInv env m st h w p

theorem eff_worker [Add R] [Zero R] {env : Env S A R} {m : Manager S R} {alg : Alg S A R X Y} {st st' : St S A R X Y} {w : Nat}
    {e : Event S A R} (E : Eff env m alg st w e st') : e.worker = w := by cases E <;> rfl

theorem eff_ws_other [Add R] [Zero R] {env : Env S A R} {m : Manager S R} {alg : Alg S A R X Y} {st st' : St S A R X Y} {w : Nat}
    {e : Event S A R} (E : Eff env m alg st w e st') {v : Nat} (hv : v ≠ w) : st'.ws[v]? = st.ws[v]? := by
  cases E <;> simp [Ne.symm hv]

theorem inv_init [AddMonoid R] (env : Env S A R) (m : Manager S R) (alg : Alg S A R X Y) (k : Nat) (s0 : S) (dp tm : Int)
    (tb : List ((Int × S) × Option Nat)) (htb : ∀ p ∈ tb, p.2 = none) :
    Inv env m s0 dp tm (init env m alg k s0 dp tm tb) [] := by
  refine ⟨tree_init env m alg k s0 dp tm tb htb, ?_⟩
  intro w p hp
  simp only [init, List.getElem?_replicate] at hp
  split at hp
  · simp at hp; subst hp; exact .inl rfl
  · simp at hp

/-- A `Step` just taken is a path of length one in the new state. -/
theorem isPath_one [Add R] [Zero R] {env : Env S A R} {st : St S A R X Y} {s : Step S A R} {x : S}
    (h1 : childC st s.d s.a = some s.c) (h2 : childD st s.c s.o = some s.d') (h3 : stateOf st s.d = some x)
    (h4 : s.a ∈ env.actions x) (h5 : s.o ∈ env.succ x s.a) (h6 : s.r = env.reward x s.a s.o) :
    IsPath env st s.d [s] s.d' := ⟨rfl, h1, h2, ⟨x, h3, h4, h5, h6⟩, rfl⟩

/-- Facts about a chance node reached from a decision node. -/
theorem tree_childC [Add R] [Zero R] {env : Env S A R} {m : Manager S R} {s0 : S} {dp tm : Int} {st : St S A R X Y}
    (T : Tree env m s0 dp tm st) {d c : Nat} {a : A} {nd : DNode S A R X} {nc : CNode S A R Y} (hd : st.dn[d]? = some nd)
    (hc : st.cn[c]? = some nc) (h : childC st d a = some c) :
    nc.state = nd.state ∧ nc.action = a ∧ nc.depth = nd.depth ∧ nc.time = nd.time ∧ a ∈ env.actions nd.state := by
  simp only [childC, hd, Option.bind_some] at h
  have hm := find?_mem h
  have h1 : (st.dn.map DNode.skel)[d]? = some nd.skel := by simp [hd]
  obtain ⟨n, g1, g2⟩ := T.heap.dKid d nd.skel a c h1 hm
  simp [hc] at g1; subst g1
  exact ⟨g2.1, g2.2.1, g2.2.2.1, g2.2.2.2, T.heap.dAct d nd.skel a c h1 hm⟩

theorem tree_childC_exists [Add R] [Zero R] {env : Env S A R} {m : Manager S R} {s0 : S} {dp tm : Int} {st : St S A R X Y}
    (T : Tree env m s0 dp tm st) {d c : Nat} {a : A} (h : childC st d a = some c) : ∃ nc, st.cn[c]? = some nc := by
  simp only [childC, Option.bind_eq_some_iff] at h
  obtain ⟨nd, hd, h⟩ := h
  have h1 : (st.dn.map DNode.skel)[d]? = some nd.skel := by simp [hd]
  obtain ⟨n, g1, g2⟩ := T.heap.dKid d nd.skel a c h1 (find?_mem h)
  simp at g1
  obtain ⟨nc, g1, _⟩ := g1
  exact ⟨nc, g1⟩

theorem tree_childD_exists [Add R] [Zero R] {env : Env S A R} {m : Manager S R} {s0 : S} {dp tm : Int} {st : St S A R X Y}
    (T : Tree env m s0 dp tm st) {c d : Nat} {o : S} (h : childD st c o = some d) : ∃ nd, st.dn[d]? = some nd := by
  simp only [childD, Option.bind_eq_some_iff] at h
  obtain ⟨nc, hc, h⟩ := h
  have h1 : (st.cn.map CNode.skel)[c]? = some nc.skel := by simp [hc]
  obtain ⟨n, g1, g2⟩ := T.heap.cKid c nc.skel o d h1 (find?_mem h)
  simp at g1
  obtain ⟨nc, g1, _⟩ := g1
  exact ⟨nc, g1⟩

/-- The step part of the invariant, common to the three ways of stepping. -/
theorem winv_stepped [AddMonoid R] {env : Env S A R} {m : Manager S R} {s0 : S} {dp tm : Int} {st st' : St S A R X Y}
    {h : List (Event S A R)} {w cur c d' : Nat} {a : A} {path rs} {new g : Bool} {nd : DNode S A R X} {nc : CNode S A R Y} {o : S}
    (T : Tree env m s0 dp tm st) (T' : Tree env m s0 dp tm st') (hle : Le st st')
    (H : WInv env m st h w (.samp cur a c path rs new))
    (hc : st.cn[c]? = some nc) (hd : st.dn[cur]? = some nd) (ho : o ∈ env.succ nc.state nc.action)
    (hch : childD st' c o = some d') :
    WInv env m st' (.stepped w cur a c o d' (env.reward nd.state a o) g :: h) w
      (.sel d' (path ++ [(cur, c)]) (rs ++ [env.reward nd.state a o]) (new || g)) := by
  obtain ⟨⟨h1, _, hcont⟩, h2, h3, h4, h5, h6, h7, ⟨nd', h8, h9⟩, h10⟩ := H
  have hs : stepsOf w (.stepped w cur a c o d' (env.reward nd.state a o) g :: h) =
      stepsOf w h ++ [⟨cur, a, c, o, d', env.reward nd.state a o, g⟩] := st_stp ..
  rw [hd] at h8; simp at h8; subst h8
  obtain ⟨g1, g2, g3, g4, g5⟩ := tree_childC T hd hc h7
  refine ⟨?_, ?_, ?_, ?_, ?_, ?_⟩
  · rw [hs]
    refine ⟨?_, tree_childD_exists T' hch, ?_⟩
    · rw [hle.root]
      exact isPath_snoc (s := ⟨cur, a, c, o, d', env.reward nd.state a o, g⟩) (hle.isPath h1)
        (isPath_one (x := nd.state) (hle.childC h7) hch (hle.stateOf (by simp [stateOf, hd])) g5 (by rw [← g1, ← g2]; simpa [g2] using ho) rfl)
    · have hc2 := hcont.mono hle
      refine ⟨?_, ?_⟩
      · intro s hs
        rcases List.mem_append.1 hs with hs | hs
        · exact hc2.1 s hs
        · simp at hs; subst hs
          obtain ⟨nd2, k1, k2, k3, _⟩ := hle.d _ nd hd
          exact ⟨nd2, k1, by rw [isLeaf_congr k2 k3]; exact h9⟩
      · intro hm s hs
        simp at hs
        rw [hm, h4] at h10
        simp at h10
        simpa using h10 s hs
  · rw [hs, h2]; simp [pairs]
  · rw [hs, h3]; simp
  · rw [hs, h4]; simp
  · rw [ca_stp]; exact h5
  · rw [en_stp]; exact h6

theorem inv_eff [AddMonoid R] {env : Env S A R} {m : Manager S R} {alg : Alg S A R X Y} (hv : alg.Valid) {s0 : S} {dp tm : Int}
    {st st' : St S A R X Y} {h : List (Event S A R)} {w : Nat} {e : Event S A R} (I : Inv env m s0 dp tm st h)
    (E : Eff env m alg st w e st') : Inv env m s0 dp tm st' (e :: h) := by
  have T' := tree_eff hv I.tree E
  have hle := le_eff E
  have hew := eff_worker E
  refine ⟨T', ?_⟩
  intro v p hp
  by_cases hvw : v ≠ w
  · rw [eff_ws_other E hvw] at hp
    have hne : e.worker ≠ v := by rw [hew]; exact fun h => hvw h.symm
    exact (I.ws v p hp).mono hle (stepsOf_other hne) (endOf_other hne) (callsOf_other hne) (fun _ h => by rw [trialOf_other hne]; exact h)
  have hvw : v = w := Classical.not_not.1 hvw
  subst hvw
  have hself : ∀ q, st.ws[v]?.isSome → (st.ws.set v q)[v]? = some q := by
    intro q hq
    cases hx : st.ws[v]? with
    | none => simp [hx] at hq
    | some y => exact List.getElem?_set_self (List.getElem?_eq_some_iff.1 hx).1
  cases E with
  | @crash err hc =>
    refine (I.ws v p hp).mono hle (st_crash ..) (en_crash ..) (ca_crash ..) ?_
    -- an idle worker does not die
    intro hidle
    exfalso
    subst hidle
    cases hc <;> (rename_i hw _; simp_all)
  | began hw =>
    rw [hself _ (by simp [hw])] at hp; simp at hp; subst hp
    obtain ⟨r, hr, _⟩ := T'.heap.root
    simp only [List.getElem?_map, Option.map_eq_some_iff] at hr
    obtain ⟨nd, hnd, _⟩ := hr
    have hs : stepsOf v (.began v :: h) = [] := by simp [stepsOf, tr_began]
    refine ⟨?_, ?_, ?_, ?_, ?_, ?_⟩
    · rw [hs]; exact ⟨rfl, ⟨nd, by rw [I.tree.root]; exact hnd⟩, by simp [Cont]⟩
    all_goals simp [hs, pairs, callsOf, endOf, tr_began]
  | selOld hw hd hl hm ha hf =>
    rw [hself _ (by simp [hw])] at hp; simp at hp; subst hp
    obtain ⟨h1, h2, h3, h4, h5, h6⟩ := I.ws v _ hw
    have hs : ∀ d a c, stepsOf v (.selected v d a c :: h) = stepsOf v h := by intros; rw [st_sel]
    have hlt := (List.getElem?_eq_some_iff.1 hd).1
    refine ⟨?_, ?_, ?_, ?_, ?_, ?_, ?_, ?_, hm⟩ <;> (try rw [hs]) <;> (try assumption)
    · exact h1.mono hle
    · rw [ca_sel]; exact h5
    · rw [en_sel]; exact h6
    · simp [childC, hlt, hf]
    · exact ⟨_, List.getElem?_set_self hlt, hl⟩
  | selNew hw hd hl hm ha hf =>
    rw [hself _ (by simp [hw])] at hp; simp at hp; subst hp
    obtain ⟨h1, h2, h3, h4, h5, h6⟩ := I.ws v _ hw
    have hs : ∀ d a c, stepsOf v (.selected v d a c :: h) = stepsOf v h := by intros; rw [st_sel]
    have hlt := (List.getElem?_eq_some_iff.1 hd).1
    refine ⟨?_, ?_, ?_, ?_, ?_, ?_, ?_, ?_, hm⟩ <;> (try rw [hs]) <;> (try assumption)
    · exact h1.mono hle
    · rw [ca_sel]; exact h5
    · rw [en_sel]; exact h6
    · simp [childC, hlt, find?_append, hf]
    · exact ⟨_, List.getElem?_set_self hlt, hl⟩
  | @ended cur path rs new nd hw hd hstop =>
    rw [hself _ (by simp [hw])] at hp; simp at hp; subst hp
    obtain ⟨h1, h2, h3, h4, h5, h6⟩ := I.ws v _ hw
    have hs : ∀ d a, stepsOf v (.ended v d a :: h) = stepsOf v h := by intros; rw [st_end]
    have hlt := (List.getElem?_eq_some_iff.1 hd).1
    refine ⟨cur, nd.heur, (stepsOf v h).length, ?_, ?_, ?_, ?_, ?_, ?_, ?_, ?_, ?_, ?_⟩ <;> (try rw [hs])
    · simp
    · rw [en_end]
    · exact h1.mono hle
    · refine ⟨_, List.getElem?_set_self hlt, rfl, ?_⟩
      rw [h4] at hstop
      rw [isLeaf_congr (nd := nd) rfl rfl]
      exact hstop.imp id (by simp)
    · rw [h2, List.take_of_length_le (by simp [pairs])]
    · rw [h3, List.take_of_length_le (by simp)]
    · rw [List.drop_eq_nil_of_le (by simp)]; simp
    · simp
    · rw [total_eq_sum, h3]
    · rw [callsFrom_len]; rw [ca_end]; exact h5
  | @stepOld cur a c path rs new nc nd o d' hw hc hd ho hf =>
    rw [hself _ (by simp [hw])] at hp; simp at hp; subst hp
    have hlt := (List.getElem?_eq_some_iff.1 hc).1
    have := winv_stepped (g := false) I.tree T' hle (I.ws v _ hw) hc hd ho (d' := d') (by simp [childD, hlt, hf])
    simpa using this
  | @stepNew cur a c path rs new nc nd o tb hw hc hd ho hf ht =>
    rw [hself _ (by simp [hw])] at hp; simp at hp; subst hp
    have hlt := (List.getElem?_eq_some_iff.1 hc).1
    have := winv_stepped (g := true) I.tree T' hle (I.ws v _ hw) hc hd ho (d' := st.dn.length)
      (by simp [childD, hlt, find?_append, hf])
    simpa using this
  | @stepHit cur a c path rs new nc nd o d' hw hc hd ho hf hu ht =>
    rw [hself _ (by simp [hw])] at hp; simp at hp; subst hp
    have hlt := (List.getElem?_eq_some_iff.1 hc).1
    have := winv_stepped (g := true) I.tree T' hle (I.ws v _ hw) hc hd ho (d' := d')
      (by simp [childD, hlt, find?_append, hf])
    simpa using this
  | completed hw =>
    rw [hself _ (by simp [hw])] at hp; simp at hp; subst hp
    obtain ⟨e, hv, j, h1, h2, h3, h4, h5, h6, h7, h8, h9, h10⟩ := I.ws v _ hw
    have hj : callsFrom (stepsOf v h) hv j = expectedCalls (stepsOf v h) hv := by
      have : j = 0 ∨ stepsOf v h = [] := by
        have := congrArg List.length h5
        simp [pairs] at this
        rcases Nat.eq_zero_or_pos j with hj | hj
        · exact .inl hj
        · right; rw [← List.length_eq_zero_iff]; omega
      rcases this with rfl | h0
      · rfl
      · simp [h0, callsFrom, expectedCalls]
    refine .inr ⟨e, hv, ?_, ?_, ?_, ?_⟩
    · rw [en_comp]; exact h2
    · rw [st_comp]; exact h3.mono hle
    · rw [st_comp]; exact h4.mono hle
    · rw [ca_comp, st_comp, h10, hj]
  | @backedC nodes d c before r after ret tot nc hw hc =>
    rw [hself _ (by simp [hw])] at hp; simp at hp; subst hp
    obtain ⟨e, hv, j, h1, h2, h3, h4, h5, h6, h7, h8, h9, h10⟩ := I.ws v _ hw
    have hs : ∀ d a, stepsOf v (.backedC v d a :: h) = stepsOf v h := by intros; rw [st_bc]
    cases j with
    | zero => simp at h5
    | succ j =>
    have hj : j < (stepsOf v h).length := by omega
    have h5' : nodes ++ [(d, c)] = (pairs (stepsOf v h)).take j ++ [((stepsOf v h)[j].d, (stepsOf v h)[j].c)] := by
      rw [h5, List.take_add_one]; simp [pairs, hj]
    have h6' : before ++ [r] = ((stepsOf v h).map Step.r).take j ++ [(stepsOf v h)[j].r] := by
      rw [h6, List.take_add_one]; simp [hj]
    obtain ⟨k1, k2⟩ := List.append_inj' h5' rfl
    obtain ⟨k3, k4⟩ := List.append_inj' h6' rfl
    simp at k2 k4
    obtain ⟨rfl, rfl⟩ := k2
    subst k4 k3 k1
    have hdrop : ((stepsOf v h).map Step.r).drop j = (stepsOf v h)[j].r :: ((stepsOf v h).map Step.r).drop (j + 1) := by
      rw [List.drop_eq_getElem_cons (by simpa using hj)]; simp
    have hafter : after ++ [(stepsOf v h)[j].r] = hv :: (((stepsOf v h).map Step.r).drop j).reverse := by
      rw [h7, hdrop]; simp
    have hret : ret + (stepsOf v h)[j].r = (after ++ [(stepsOf v h)[j].r]).sum := by rw [sum_snoc, h8]
    refine ⟨e, hv, j, (stepsOf v h)[j], ?_, ?_, ?_, ?_, ?_, ?_, ?_, ?_, ?_, ?_, ?_⟩ <;> (try rw [hs])
    · simp [hj]
    · rfl
    · rw [en_bc]; exact h2
    · exact h3.mono hle
    · exact h4.mono hle
    · exact hafter
    · exact hret
    · exact h9
    · have : callsOf v (.backedC v (stepsOf v h)[j].c ⟨((stepsOf v h).map Step.r).take j, after ++ [(stepsOf v h)[j].r],
          ret + (stepsOf v h)[j].r, tot⟩ :: h) = callsOf v h ++ [.chance (stepsOf v h)[j].c
          ⟨((stepsOf v h).map Step.r).take j, after ++ [(stepsOf v h)[j].r], ret + (stepsOf v h)[j].r, tot⟩] := ca_bc ..
      rw [this, h10, hret, hafter, h9]
      rfl
  | @backedD d nodes before after ret tot nd hw hd =>
    rw [hself _ (by simp [hw])] at hp; simp at hp; subst hp
    obtain ⟨e, hv, j, s, h0, h1, h2, h3, h4, h5, h6, h7, h8, h9, h10⟩ := I.ws v _ hw
    have hs : ∀ d a, stepsOf v (.backedD v d a :: h) = stepsOf v h := by intros; rw [st_bd]
    have hj := (List.getElem?_eq_some_iff.1 h0).1
    refine ⟨e, hv, j, ?_, ?_, ?_, ?_, ?_, ?_, ?_, ?_, ?_, ?_⟩ <;> (try rw [hs]) <;> (try assumption)
    · omega
    · rw [en_bd]; exact h2
    · exact h3.mono hle
    · exact h4.mono hle
    · have : callsOf v (.backedD v d ⟨before, after, ret, tot⟩ :: h) = callsOf v h ++ [.decision d ⟨before, after, ret, tot⟩] := ca_bd ..
      rw [this, h10, callsFrom_succ _ _ hj, h6, h8, h7, h9]
      simp [callsAt, h0, argsAt, h1]

theorem inv_exec [AddMonoid R] {env : Env S A R} {m : Manager S R} {alg : Alg S A R X Y} (hv : alg.Valid) {k : Nat} {s0 : S}
    {dp tm : Int} {tb : List ((Int × S) × Option Nat)} (htb : ∀ p ∈ tb, p.2 = none) {ls : List (Nat × Choice S A)}
    {st : St S A R X Y} {h : List (Event S A R)}
    (hx : execFrom env m alg (init env m alg k s0 dp tm tb) [] ls = some (st, h)) : Inv env m s0 dp tm st h :=
  exec_induct (fun s h => Inv env m s0 dp tm s h) (fun _ _ _ _ _ hp _ E => inv_eff hv hp E)
    (inv_init env m alg k s0 dp tm tb htb) hx

end Verif.Search
