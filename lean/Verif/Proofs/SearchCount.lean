import Verif.Proofs.SearchTrial

/-! # Counting visits -/

namespace Verif.Search

set_option linter.unusedSimpArgs false
set_option linter.unusedSectionVars false

variable {S A R X Y : Type} [DecidableEq S] [DecidableEq A]

theorem countP_set' {α} (f : α → Bool) (l : List α) (i : Nat) (p q : α) (h : l[i]? = some p) :
    (l.set i q).countP f + (f p).toNat = l.countP f + (f q).toNat := by
  induction l generalizing i with
  | nil => simp at h
  | cons a l ih =>
    cases i with
    | zero =>
      simp at h; subst h; simp only [List.set_cons_zero, List.countP_cons]
      cases f a <;> cases f q <;> simp <;> omega
    | succ i =>
      simp at h; have := ih i h
      simp only [List.set_cons_succ, List.countP_cons]; omega

/-- Counting by classes. -/
theorem countP_partition {α : Type} (p : α → Bool) (f : α → Option Nat) (L : List Nat) (hL : L.Nodup) (h : List α)
    (hp : ∀ e ∈ h, p e = true ↔ ∃ c ∈ L, f e = some c) :
    h.countP p = (L.map (fun c => h.countP (fun e => decide (f e = some c)))).sum := by
  have one : ∀ (x : Option Nat) (L : List Nat), L.Nodup →
      (L.map (fun c => if x = some c then 1 else 0)).sum = if ∃ c ∈ L, x = some c then 1 else 0 := by
    intro x L hL
    induction L with
    | nil => simp
    | cons c L ih =>
      rw [List.nodup_cons] at hL
      simp only [List.map_cons, List.sum_cons, ih hL.2, List.mem_cons, exists_eq_or_imp]
      by_cases hx : x = some c
      · have : ¬ ∃ c ∈ L, x = some c := by rintro ⟨c', h1, h2⟩; rw [hx] at h2; simp at h2; subst h2; exact hL.1 h1
        subst hx
        simp at this ⊢
        exact hL.1
      · simp [hx]
  induction h with
  | nil => clear hL hp; induction L with
    | nil => rfl
    | cons c L ih => simp at ih ⊢; exact ih
  | cons e h ih =>
    have ih' := ih (fun e he => hp e (List.mem_cons_of_mem _ he))
    have he := hp e (by simp)
    have hsum : ∀ L : List Nat, (L.map (fun c => (e :: h).countP (fun e => decide (f e = some c)))).sum =
        (L.map (fun c => h.countP (fun e => decide (f e = some c)))).sum + (L.map (fun c => if f e = some c then 1 else 0)).sum := by
      intro L
      induction L with
      | nil => simp
      | cons c L ih2 =>
        simp only [List.map_cons, List.sum_cons]
        rw [ih2, List.countP_cons]
        by_cases hx : f e = some c
        · simp [hx]; omega
        · simp [hx]; omega
    rw [hsum, one _ _ hL, List.countP_cons, ih']
    congr 1
    by_cases hx : p e = true
    · rw [if_pos hx, if_pos (he.1 hx)]
    · rw [if_neg hx, if_neg (fun h => hx (he.2 h))]

/-! ## The counting invariant -/

def Event.selAt (d : Nat) : Event S A R → Bool | .selected _ d' _ _ => d' == d | _ => false
def Event.endAt (d : Nat) : Event S A R → Bool | .ended _ d' _ => d' == d | _ => false
def Event.selVia (c : Nat) : Event S A R → Bool | .selected _ _ _ c' => c' == c | _ => false
def Event.stepVia (c : Nat) : Event S A R → Bool | .stepped _ _ _ c' _ _ _ _ => c' == c | _ => false
def Event.stepInto (d : Nat) : Event S A R → Bool | .stepped _ _ _ _ _ d' _ _ => d' == d | _ => false
def Event.isBegan : Event S A R → Bool | .began _ => true | _ => false
def Event.isCompleted : Event S A R → Bool | .completed _ => true | _ => false
def Event.isGrew : Event S A R → Bool | .stepped _ _ _ _ _ _ _ g => g | _ => false

def Phase.inSel (d : Nat) : Phase S A R → Bool | .sel d' _ _ _ => d' == d | _ => false
def Phase.inSamp (c : Nat) : Phase S A R → Bool | .samp _ _ c' _ _ _ => c' == c | _ => false
def Phase.busy : Phase S A R → Bool | .idle => false | _ => true
def Phase.fresh : Phase S A R → Bool | .sel _ _ _ new => !new | .samp _ _ _ _ _ new => !new | _ => false

structure Cnt (m : Manager S R) (alg : Alg S A R X Y) (st : St S A R X Y) (h : List (Event S A R)) : Prop where
  v1 : ∀ (d : Nat) nd, st.dn[d]? = some nd → nd.visits = alg.initVisits + h.countP (Event.selAt d) + h.countP (Event.endAt d)
  v2 : ∀ (c : Nat) nc, st.cn[c]? = some nc → nc.visits = h.countP (Event.stepVia c)
  v3 : ∀ c, h.countP (Event.selVia c) = h.countP (Event.stepVia c) + st.ws.countP (Phase.inSamp c)
  v4 : ∀ d, h.countP (Event.stepInto d) + (if d = st.root then h.countP Event.isBegan else 0) =
    h.countP (Event.selAt d) + h.countP (Event.endAt d) + st.ws.countP (Phase.inSel d)
  v5 : h.countP Event.isBegan = h.countP Event.isCompleted + st.ws.countP Phase.busy
  evSel : ∀ w d a c, .selected w d a c ∈ h → childC st d a = some c
  evStep : ∀ w d a c o d' r g, .stepped w d a c o d' r g ∈ h → childD st c o = some d' ∧ childC st d a = some c
  evEnd : ∀ w d v, .ended w d v ∈ h → ∃ nd, st.dn[d]? = some nd
  grow : st.dn.length ≤ 1 + h.countP Event.isGrew
  mcts : m.mctsMode = true → h.countP Event.isGrew + st.ws.countP Phase.fresh ≤ h.countP Event.isBegan

theorem cnt_init (env : Env S A R) [Zero R] (m : Manager S R) (alg : Alg S A R X Y) (k : Nat) (s0 : S) (dp tm : Int)
    (tb : List ((Int × S) × Option Nat)) : Cnt m alg (init env m alg k s0 dp tm tb) [] := by
  have : ∀ f : Phase S A R → Bool, f .idle = false → (List.replicate k (Phase.idle : Phase S A R)).countP f = 0 := by
    intro f hf; simp [List.countP_replicate, hf]
  constructor
  · intro d nd h
    rcases d with _ | d
    · simp [init, newD] at h; subst h; simp
    · simp [init] at h
  · intro c nc h; simp [init] at h
  · intro c; simp [init, this (Phase.inSamp c) rfl]
  · intro c; by_cases hc : c = 0 <;> simp [init, this (Phase.inSel c) rfl, this (Phase.inSel 0) rfl, hc]
  · simp [init, this Phase.busy rfl]
  · simp
  · simp
  · simp
  · simp [init]
  · intro; simp [init, this Phase.fresh rfl]

theorem countP_zero_of {α : Type} {p : α → Bool} {l : List α} (h : ∀ a ∈ l, p a = false) : l.countP p = 0 := by
  rw [List.countP_eq_zero]; intro a ha; simp [h a ha]

theorem Cnt.noD [Add R] [Zero R] {m : Manager S R} {alg : Alg S A R X Y} {st : St S A R X Y} {h : List (Event S A R)}
    (C : Cnt m alg st h) : h.countP (Event.selAt st.dn.length) = 0 ∧ h.countP (Event.endAt st.dn.length) = 0 := by
  constructor
  · apply countP_zero_of
    intro e he
    cases e <;> simp [Event.selAt]
    rename_i w d a c
    have := C.evSel w d a c he
    simp only [childC, Option.bind_eq_some_iff] at this
    obtain ⟨nd, h1, _⟩ := this
    have := (List.getElem?_eq_some_iff.1 h1).1
    omega
  · apply countP_zero_of
    intro e he
    cases e <;> simp [Event.endAt]
    rename_i w d v
    obtain ⟨nd, h1⟩ := C.evEnd w d v he
    have := (List.getElem?_eq_some_iff.1 h1).1
    omega

theorem Cnt.noC [Add R] [Zero R] {env : Env S A R} {m : Manager S R} {s0 : S} {dp tm : Int} {alg : Alg S A R X Y}
    {st : St S A R X Y} {h : List (Event S A R)} (T : Tree env m s0 dp tm st) (C : Cnt m alg st h) :
    h.countP (Event.stepVia st.cn.length) = 0 := by
  apply countP_zero_of
  intro e he
  cases e <;> simp [Event.stepVia]
  rename_i w d a c o d' r g
  obtain ⟨nc, h1⟩ := tree_childC_exists T (C.evStep w d a c o d' r g he).2
  have := (List.getElem?_eq_some_iff.1 h1).1
  omega

theorem Cnt.ev {m : Manager S R} {alg : Alg S A R X Y} [Add R] [Zero R] {st st' : St S A R X Y} {h : List (Event S A R)}
    (C : Cnt m alg st h) (hle : Le st st') :
    (∀ w d a c, .selected w d a c ∈ h → childC st' d a = some c) ∧
    (∀ w d a c o d' r g, .stepped w d a c o d' r g ∈ h → childD st' c o = some d' ∧ childC st' d a = some c) ∧
    (∀ w d v, .ended w d v ∈ h → ∃ nd, st'.dn[d]? = some nd) := by
  refine ⟨fun w d a c he => hle.childC (C.evSel w d a c he), fun w d a c o d' r g he => ?_, fun w d v he => ?_⟩
  · have := C.evStep w d a c o d' r g he
    exact ⟨hle.childD this.1, hle.childC this.2⟩
  · obtain ⟨nd, h1⟩ := C.evEnd w d v he
    obtain ⟨nd', h2, _⟩ := hle.d d nd h1
    exact ⟨nd', h2⟩

theorem set_cases {α : Type} {l : List α} {i j : Nat} {b x : α} (h : (l.set i b)[j]? = some x) :
    (j = i ∧ x = b) ∨ (j ≠ i ∧ l[j]? = some x) := by
  rw [List.getElem?_set] at h
  by_cases hj : i = j
  · rw [if_pos hj] at h
    split at h
    · simp at h; exact .inl ⟨hj.symm, h.symm⟩
    · simp at h
  · rw [if_neg hj] at h; exact .inr ⟨fun h => hj h.symm, h⟩

theorem snoc_cases {α : Type} {l : List α} {j : Nat} {b x : α} (h : (l ++ [b])[j]? = some x) :
    (j < l.length ∧ l[j]? = some x) ∨ (j = l.length ∧ x = b) := by
  by_cases hj : j < l.length
  · rw [List.getElem?_append_left hj] at h; exact .inl ⟨hj, h⟩
  · rw [List.getElem?_append_right (by omega)] at h
    have : j - l.length = 0 := by
      cases hk : j - l.length with
      | zero => rfl
      | succ k => rw [hk] at h; simp at h
    rw [this] at h; simp at h
    exact .inr ⟨by omega, h.symm⟩

theorem toNat_beq (a b : Nat) : (a == b).toNat = if a = b then 1 else 0 := by
  by_cases h : a = b <;> simp [h]

/-- Solve the counting goals of one case. -/
local macro "cnt" : tactic => `(tactic| (
  simp only [List.countP_cons, Event.selAt, Event.endAt, Event.stepVia, Event.selVia, Event.stepInto, Event.isBegan,
    Event.isCompleted, Event.isGrew, Phase.inSel, Phase.inSamp, Phase.busy, Phase.fresh, Bool.toNat_false, Bool.toNat_true,
    toNat_beq, beq_iff_eq, Bool.false_eq_true, if_false, if_true, Nat.add_zero, Bool.not_false, Bool.not_true] at *))

theorem cnt_eff [AddMonoid R] {env : Env S A R} {m : Manager S R} {alg : Alg S A R X Y} {s0 : S} {dp tm : Int}
    {st st' : St S A R X Y} {h : List (Event S A R)} {w : Nat} {e : Event S A R} (I : Inv env m s0 dp tm st h)
    (C : Cnt m alg st h) (E : Eff env m alg st w e st') : Cnt m alg st' (e :: h) := by
  have hle := le_eff E
  obtain ⟨ev1, ev2, ev3⟩ := C.ev hle
  obtain ⟨hnoD1, hnoD2⟩ := C.noD
  have hnoC := C.noC I.tree
  have hroot := I.tree.root
  have hws := I.ws
  obtain ⟨v1, v2, v3, v4, v5, _, _, _, grow, mcts⟩ := C
  clear I
  cases E with
  | crash hc =>
    clear hws
    constructor
    · cnt; exact v1
    · cnt; exact v2
    · cnt; exact v3
    · cnt; exact v4
    · cnt; exact v5
    · simpa using ev1
    · intro w' d a c o d' r g hm
      exact ev2 w' d a c o d' r g (by simpa using hm)
    · simpa using ev3
    · cnt; exact grow
    · cnt; exact mcts
  | began hw =>
    have k1 := fun d => countP_set' (Phase.inSel d) st.ws w _ (.sel st.root [] [] false) hw
    have k2 := fun d => countP_set' (Phase.inSamp d) st.ws w _ (.sel st.root [] [] false) hw
    have k3 := countP_set' (Phase.busy) st.ws w _ (.sel st.root [] [] false) hw
    have k4 := countP_set' (Phase.fresh) st.ws w _ (.sel st.root [] [] false) hw
    clear hws
    constructor
    · cnt; exact v1
    · cnt; exact v2
    · cnt; intro c; have := v3 c; have := k2 c; omega
    · cnt; intro c; have := v4 c; have := k1 c; clear v1 v2 v3 v4 mcts k1; by_cases hcr : c = st.root <;> grind
    · cnt; omega
    · simpa using ev1
    · simpa using ev2
    · simpa using ev3
    · cnt; exact grow
    · cnt; intro hm; have := mcts hm; omega
  | @selOld cur path rs new nd a c hw hd hl hm ha hf =>
    have k1 := fun d => countP_set' (Phase.inSel d) st.ws w _ (.samp cur a c path rs new) hw
    have k2 := fun d => countP_set' (Phase.inSamp d) st.ws w _ (.samp cur a c path rs new) hw
    have k3 := countP_set' (Phase.busy) st.ws w _ (.samp cur a c path rs new) hw
    have k4 := countP_set' (Phase.fresh) st.ws w _ (.samp cur a c path rs new) hw
    have hlt := (List.getElem?_eq_some_iff.1 hd).1
    clear hws
    constructor
    · intro d nd' hnd
      rcases set_cases hnd with ⟨rfl, rfl⟩ | ⟨hne, hnd⟩
      · have := v1 _ _ hd; cnt; omega
      · have := v1 _ _ hnd; cnt; rw [if_neg (Ne.symm hne)]; omega
    · cnt; exact v2
    · cnt; intro d; have := v3 d; have := k2 d; omega
    · cnt; intro d; have := v4 d; have := k1 d; omega
    · cnt; omega
    · intro w' d' a' c' hm
      rcases List.mem_cons.1 hm with hm | hm
      · simp at hm; obtain ⟨rfl, rfl, rfl, rfl⟩ := hm; simp [childC, hlt, hf]
      · exact ev1 _ _ _ _ hm
    · simpa using ev2
    · simpa using ev3
    · simpa [Event.isGrew] using grow
    · cnt; intro hm; have := mcts hm; omega
  | @selNew cur path rs new nd a hw hd hl hm ha hf =>
    have k1 := fun d => countP_set' (Phase.inSel d) st.ws w _ (.samp cur a st.cn.length path rs new) hw
    have k2 := fun d => countP_set' (Phase.inSamp d) st.ws w _ (.samp cur a st.cn.length path rs new) hw
    have k3 := countP_set' (Phase.busy) st.ws w _ (.samp cur a st.cn.length path rs new) hw
    have k4 := countP_set' (Phase.fresh) st.ws w _ (.samp cur a st.cn.length path rs new) hw
    have hlt := (List.getElem?_eq_some_iff.1 hd).1
    clear hws
    constructor
    · intro d nd' hnd
      rcases set_cases hnd with ⟨rfl, rfl⟩ | ⟨hne, hnd⟩
      · have := v1 _ _ hd; cnt; omega
      · have := v1 _ _ hnd; cnt; rw [if_neg (Ne.symm hne)]; omega
    · intro d nd' hnd
      rcases snoc_cases hnd with ⟨_, hnd⟩ | ⟨rfl, rfl⟩
      · have := v2 _ _ hnd; cnt; exact this
      · cnt; simp [newC, hnoC]
    · cnt; intro d; have := v3 d; have := k2 d; omega
    · cnt; intro d; have := v4 d; have := k1 d; omega
    · cnt; omega
    · intro w' d' a' c' hm
      rcases List.mem_cons.1 hm with hm | hm
      · simp at hm; obtain ⟨rfl, rfl, rfl, rfl⟩ := hm; simp [childC, hlt, find?_append, hf]
      · exact ev1 _ _ _ _ hm
    · simpa using ev2
    · simpa using ev3
    · simpa [Event.isGrew] using grow
    · cnt; intro hm; have := mcts hm; omega
  | @ended cur path rs new nd hw hd hs =>
    have k1 := fun d => countP_set' (Phase.inSel d) st.ws w _ (.back path rs [nd.heur] nd.heur (total (rs ++ [nd.heur]))) hw
    have k2 := fun d => countP_set' (Phase.inSamp d) st.ws w _ (.back path rs [nd.heur] nd.heur (total (rs ++ [nd.heur]))) hw
    have k3 := countP_set' (Phase.busy) st.ws w _ (.back path rs [nd.heur] nd.heur (total (rs ++ [nd.heur]))) hw
    have k4 := countP_set' (Phase.fresh) st.ws w _ (.back path rs [nd.heur] nd.heur (total (rs ++ [nd.heur]))) hw
    have hlt := (List.getElem?_eq_some_iff.1 hd).1
    clear hws
    constructor
    · intro d nd' hnd
      rcases set_cases hnd with ⟨rfl, rfl⟩ | ⟨hne, hnd⟩
      · have := v1 _ _ hd; cnt; omega
      · have := v1 _ _ hnd; cnt; rw [if_neg (Ne.symm hne)]; omega
    · cnt; exact v2
    · cnt; intro d; have := v3 d; have := k2 d; omega
    · cnt; intro d; have := v4 d; have := k1 d; omega
    · cnt; omega
    · simpa using ev1
    · simpa using ev2
    · intro w' d' v' hm
      rcases List.mem_cons.1 hm with hm | hm
      · simp at hm; obtain ⟨rfl, rfl, rfl⟩ := hm; exact ⟨_, List.getElem?_set_self hlt⟩
      · exact ev3 _ _ _ hm
    · simpa [Event.isGrew] using grow
    · cnt; intro hm; have := mcts hm; omega
  | @stepOld cur a c path rs new nc nd o d' hw hc hd ho hf =>
    have k1 := fun d => countP_set' (Phase.inSel d) st.ws w _ (.sel d' (path ++ [(cur, c)]) (rs ++ [env.reward nd.state a o]) new) hw
    have k2 := fun d => countP_set' (Phase.inSamp d) st.ws w _ (.sel d' (path ++ [(cur, c)]) (rs ++ [env.reward nd.state a o]) new) hw
    have k3 := countP_set' (Phase.busy) st.ws w _ (.sel d' (path ++ [(cur, c)]) (rs ++ [env.reward nd.state a o]) new) hw
    have k4 := countP_set' (Phase.fresh) st.ws w _ (.sel d' (path ++ [(cur, c)]) (rs ++ [env.reward nd.state a o]) new) hw
    have hlt := (List.getElem?_eq_some_iff.1 hc).1
    have hself := (hws _ _ hw).2.2.2.2.2.2.1
    clear hws
    constructor
    · cnt; exact v1
    · intro d nd' hnd
      rcases set_cases hnd with ⟨rfl, rfl⟩ | ⟨hne, hnd⟩
      · have := v2 _ _ hc; cnt; omega
      · have := v2 _ _ hnd; cnt; rw [if_neg (Ne.symm hne)]; omega
    · cnt; intro d; have := v3 d; have := k2 d; omega
    · cnt; intro d; have := v4 d; have := k1 d; omega
    · cnt; omega
    · simpa using ev1
    · intro w' d1 a1 c1 o1 d2 r1 g1 hm
      rcases List.mem_cons.1 hm with hm | hm
      · simp at hm; obtain ⟨rfl, rfl, rfl, rfl, rfl, rfl, rfl, rfl⟩ := hm
        exact ⟨by simp [childD, hlt, hf], hle.childC hself⟩
      · exact ev2 _ _ _ _ _ _ _ _ hm
    · simpa using ev3
    · simpa [Event.isGrew] using grow
    · cnt; intro hm; have := mcts hm; omega
  | @stepNew cur a c path rs new nc nd o tb hw hc hd ho hf ht =>
    have k1 := fun d => countP_set' (Phase.inSel d) st.ws w _ (.sel st.dn.length (path ++ [(cur, c)]) (rs ++ [env.reward nd.state a o]) true) hw
    have k2 := fun d => countP_set' (Phase.inSamp d) st.ws w _ (.sel st.dn.length (path ++ [(cur, c)]) (rs ++ [env.reward nd.state a o]) true) hw
    have k3 := countP_set' (Phase.busy) st.ws w _ (.sel st.dn.length (path ++ [(cur, c)]) (rs ++ [env.reward nd.state a o]) true) hw
    have k4 := countP_set' (Phase.fresh) st.ws w _ (.sel st.dn.length (path ++ [(cur, c)]) (rs ++ [env.reward nd.state a o]) true) hw
    have hlt := (List.getElem?_eq_some_iff.1 hc).1
    have hself := (hws _ _ hw).2.2.2.2.2.2.1
    have hnew := (hws _ _ hw).2.2.2.2.2.2.2.2
    clear hws
    constructor
    · intro d nd' hnd
      rcases snoc_cases hnd with ⟨_, hnd⟩ | ⟨rfl, rfl⟩
      · have := v1 _ _ hnd; cnt; exact this
      · cnt; simp [newD, hnoD1, hnoD2]
    · intro d nd' hnd
      rcases set_cases hnd with ⟨rfl, rfl⟩ | ⟨hne, hnd⟩
      · have := v2 _ _ hc; cnt; omega
      · have := v2 _ _ hnd; cnt; rw [if_neg (Ne.symm hne)]; omega
    · cnt; intro d; have := v3 d; have := k2 d; omega
    · cnt; intro d; have := v4 d; have := k1 d; omega
    · cnt; omega
    · simpa using ev1
    · intro w' d1 a1 c1 o1 d2 r1 g1 hm
      rcases List.mem_cons.1 hm with hm | hm
      · simp at hm; obtain ⟨rfl, rfl, rfl, rfl, rfl, rfl, rfl, rfl⟩ := hm
        exact ⟨by simp [childD, hlt, find?_append, hf], hle.childC hself⟩
      · exact ev2 _ _ _ _ _ _ _ _ hm
    · simpa using ev3
    · cnt; simp; omega
    · cnt; intro hm; have := mcts hm; simp [hm] at hnew; simp [hnew] at *; omega
  | @stepHit cur a c path rs new nc nd o d' hw hc hd ho hf hu ht =>
    have k1 := fun d => countP_set' (Phase.inSel d) st.ws w _ (.sel d' (path ++ [(cur, c)]) (rs ++ [env.reward nd.state a o]) true) hw
    have k2 := fun d => countP_set' (Phase.inSamp d) st.ws w _ (.sel d' (path ++ [(cur, c)]) (rs ++ [env.reward nd.state a o]) true) hw
    have k3 := countP_set' (Phase.busy) st.ws w _ (.sel d' (path ++ [(cur, c)]) (rs ++ [env.reward nd.state a o]) true) hw
    have k4 := countP_set' (Phase.fresh) st.ws w _ (.sel d' (path ++ [(cur, c)]) (rs ++ [env.reward nd.state a o]) true) hw
    have hlt := (List.getElem?_eq_some_iff.1 hc).1
    have hself := (hws _ _ hw).2.2.2.2.2.2.1
    have hnew := (hws _ _ hw).2.2.2.2.2.2.2.2
    clear hws
    constructor
    · cnt; exact v1
    · intro d nd' hnd
      rcases set_cases hnd with ⟨rfl, rfl⟩ | ⟨hne, hnd⟩
      · have := v2 _ _ hc; cnt; omega
      · have := v2 _ _ hnd; cnt; rw [if_neg (Ne.symm hne)]; omega
    · cnt; intro d; have := v3 d; have := k2 d; omega
    · cnt; intro d; have := v4 d; have := k1 d; omega
    · cnt; omega
    · simpa using ev1
    · intro w' d1 a1 c1 o1 d2 r1 g1 hm
      rcases List.mem_cons.1 hm with hm | hm
      · simp at hm; obtain ⟨rfl, rfl, rfl, rfl, rfl, rfl, rfl, rfl⟩ := hm
        exact ⟨by simp [childD, hlt, find?_append, hf], hle.childC hself⟩
      · exact ev2 _ _ _ _ _ _ _ _ hm
    · simpa using ev3
    · cnt; omega
    · cnt; intro hm; have := mcts hm; simp [hm] at hnew; simp [hnew] at *; omega
  | completed hw =>
    have k1 := fun d => countP_set' (Phase.inSel d) st.ws w _ .idle hw
    have k2 := fun d => countP_set' (Phase.inSamp d) st.ws w _ .idle hw
    have k3 := countP_set' (Phase.busy) st.ws w _ .idle hw
    have k4 := countP_set' (Phase.fresh) st.ws w _ .idle hw
    clear hws
    constructor
    · cnt; exact v1
    · cnt; exact v2
    · cnt; intro c; have := v3 c; have := k2 c; omega
    · cnt; intro c; have := v4 c; have := k1 c; omega
    · cnt; omega
    · simpa using ev1
    · simpa using ev2
    · simpa using ev3
    · cnt; exact grow
    · cnt; intro hm; have := mcts hm; omega
  | @backedC nodes d c before r after ret tot nc hw hc =>
    have k1 := fun d' => countP_set' (Phase.inSel d') st.ws w _ (.backD d nodes before (after ++ [r]) (ret + r) tot) hw
    have k2 := fun d' => countP_set' (Phase.inSamp d') st.ws w _ (.backD d nodes before (after ++ [r]) (ret + r) tot) hw
    have k3 := countP_set' (Phase.busy) st.ws w _ (.backD d nodes before (after ++ [r]) (ret + r) tot) hw
    have k4 := countP_set' (Phase.fresh) st.ws w _ (.backD d nodes before (after ++ [r]) (ret + r) tot) hw
    clear hws
    constructor
    · cnt; exact v1
    · intro d nd' hnd
      rcases set_cases hnd with ⟨rfl, rfl⟩ | ⟨hne, hnd⟩
      · have := v2 _ _ hc; cnt; exact this
      · have := v2 _ _ hnd; cnt; exact this
    · cnt; intro c; have := v3 c; have := k2 c; omega
    · cnt; intro c; have := v4 c; have := k1 c; omega
    · cnt; omega
    · simpa using ev1
    · simpa using ev2
    · simpa using ev3
    · cnt; exact grow
    · cnt; intro hm; have := mcts hm; omega
  | @backedD d nodes before after ret tot nd hw hd =>
    have k1 := fun d' => countP_set' (Phase.inSel d') st.ws w _ (.back nodes before after ret tot) hw
    have k2 := fun d' => countP_set' (Phase.inSamp d') st.ws w _ (.back nodes before after ret tot) hw
    have k3 := countP_set' (Phase.busy) st.ws w _ (.back nodes before after ret tot) hw
    have k4 := countP_set' (Phase.fresh) st.ws w _ (.back nodes before after ret tot) hw
    clear hws
    constructor
    · intro d nd' hnd
      rcases set_cases hnd with ⟨rfl, rfl⟩ | ⟨hne, hnd⟩
      · have := v1 _ _ hd; cnt; exact this
      · have := v1 _ _ hnd; cnt; exact this
    · cnt; exact v2
    · cnt; intro c; have := v3 c; have := k2 c; omega
    · cnt; intro c; have := v4 c; have := k1 c; omega
    · cnt; omega
    · simpa using ev1
    · simpa using ev2
    · simpa using ev3
    · simpa [Event.isGrew] using grow
    · cnt; intro hm; have := mcts hm; omega

end Verif.Search
