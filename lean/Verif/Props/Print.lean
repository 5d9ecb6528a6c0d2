import Verif.Proofs.Print
import Verif.Props.Search
import Mathlib.Algebra.Group.Int.Defs

/-!
# C53: pretty printing is depth limited and well bracketed
-/

set_option linter.unusedSectionVars false

namespace Verif.Print

open Verif.Search

section
variable {S A R X Y : Type} [DecidableEq S] [DecidableEq A] [AddMonoid R]
variable {env : Env S A R} {m : Manager S R} {alg : Alg S A R X Y} {k : Nat} {s0 : S} {dp tm : Int}
  {tb : List ((Int × S) × Option Nat)} {st : St S A R X Y} {h : List (Event S A R)} {f : Fmt S A R X Y}

/-! ## From reachable states to the structure used in the proofs -/

theorem mem_kids_childC (hv : alg.Valid) (htb : Leftover tb) (hr : Reachable env m alg k s0 dp tm tb st h) {d c : Nat} {a : A} :
    childC st d a = some c ↔ ∃ nd, st.dn[d]? = some nd ∧ (a, c) ∈ nd.kids := by
  unfold childC
  constructor
  · intro hc
    cases hd : st.dn[d]? with
    | none => simp [hd] at hc
    | some nd => exact ⟨nd, rfl, find?_mem (by simpa [hd] using hc)⟩
  · rintro ⟨nd, hd, hm⟩
    simp only [hd, Option.bind_some]
    exact find?_of_mem ((c15_keys_distinct hv htb hr).1 d nd hd) hm

theorem mem_kids_childD (hv : alg.Valid) (htb : Leftover tb) (hr : Reachable env m alg k s0 dp tm tb st h) {c d : Nat} {o : S} :
    childD st c o = some d ↔ ∃ nc, st.cn[c]? = some nc ∧ (o, d) ∈ nc.kids := by
  unfold childD
  constructor
  · intro hc
    cases hd : st.cn[c]? with
    | none => simp [hd] at hc
    | some nd => exact ⟨nd, rfl, find?_mem (by simpa [hd] using hc)⟩
  · rintro ⟨nd, hd, hm⟩
    simp only [hd, Option.bind_some]
    exact find?_of_mem ((c15_keys_distinct hv htb hr).2 c nd hd) hm

theorem linked_of_reachable (hv : alg.Valid) (htb : Leftover tb) (hr : Reachable env m alg k s0 dp tm tb st h) : Linked st where
  kD d nd a c hd hm := by
    obtain ⟨nd', nc, h1, h2, _, _, h3, _⟩ := c14_chance_child hv htb hr ((mem_kids_childC hv htb hr).2 ⟨nd, hd, hm⟩)
    rw [hd] at h1; cases h1
    exact ⟨nc, h2, h3⟩
  kC c nc o d hc hm := by
    obtain ⟨nc', nd, h1, h2, _, h3, _⟩ := c14_decision_child hv htb hr ((mem_kids_childD hv htb hr).2 ⟨nc, hc, hm⟩)
    rw [hc] at h1; cases h1
    exact ⟨nd, h2, h3⟩

theorem single_of_reachable (hv : alg.Valid) (htb : Leftover tb) (hr : Reachable env m alg k s0 dp tm tb st h)
    (ht : m.useTable = false) : Single st where
  kD d d' nd nd' a a' c hd hd' h1 h2 :=
    (c14_parents hv htb hr).2.2.1 d d' a a' c ((mem_kids_childC hv htb hr).2 ⟨nd, hd, h1⟩) ((mem_kids_childC hv htb hr).2 ⟨nd', hd', h2⟩)
  kC c c' nc nc' o o' d hc hc' h1 h2 :=
    (c14_parents hv htb hr).2.2.2 ht c c' o o' d ((mem_kids_childD hv htb hr).2 ⟨nc, hc, h1⟩) ((mem_kids_childD hv htb hr).2 ⟨nc', hc', h2⟩)
  nD := (c15_keys_distinct hv htb hr).1
  nC := (c15_keys_distinct hv htb hr).2

theorem kids_d (hv : alg.Valid) (htb : Leftover tb) (hr : Reachable env m alg k s0 dp tm tb st h) {d : Nat} {y : Nd} :
    y ∈ kidsN st (true, d) ↔ ∃ a c, y = (false, c) ∧ childC st d a = some c := by
  simp only [mem_kids_childC hv htb hr, kidsN]
  cases hd : st.dn[d]? with
  | none => simp
  | some nd =>
    simp only [List.mem_map, Option.some.injEq, exists_eq_left']
    constructor
    · rintro ⟨⟨a, c⟩, h1, rfl⟩; exact ⟨a, c, rfl, h1⟩
    · rintro ⟨a, c, rfl, h1⟩; exact ⟨(a, c), h1, rfl⟩

theorem kids_c (hv : alg.Valid) (htb : Leftover tb) (hr : Reachable env m alg k s0 dp tm tb st h) {c : Nat} {y : Nd} :
    y ∈ kidsN st (false, c) ↔ ∃ o d, y = (true, d) ∧ childD st c o = some d := by
  simp only [mem_kids_childD hv htb hr, kidsN]
  cases hd : st.cn[c]? with
  | none => simp
  | some nd =>
    simp only [List.mem_map, Option.some.injEq, exists_eq_left']
    constructor
    · rintro ⟨⟨a, c⟩, h1, rfl⟩; exact ⟨a, c, rfl, h1⟩
    · rintro ⟨a, c, rfl, h1⟩; exact ⟨(a, c), h1, rfl⟩

theorem path_after (hv : alg.Valid) (htb : Leftover tb) (hr : Reachable env m alg k s0 dp tm tb st h) {n d e : Nat} :
    Path st (2 * n) (true, d) (true, e) ↔ After st n d e := by
  induction n generalizing d with
  | zero =>
    constructor
    · intro hp; cases hp; exact .here
    · intro ha; cases ha; exact .here
  | succ n ih =>
    constructor
    · intro hp
      cases hp with
      | step h1 h2 =>
        obtain ⟨a, c, rfl, h3⟩ := (kids_d hv htb hr).1 h1
        cases h2 with
        | step h4 h5 =>
          obtain ⟨o, d', rfl, h6⟩ := (kids_c hv htb hr).1 h4
          exact .step h3 h6 (ih.1 h5)
    · intro ha
      cases ha with
      | step h1 h2 h3 =>
        exact .step ((kids_d hv htb hr).2 ⟨_, _, rfl, h1⟩) (.step ((kids_c hv htb hr).2 ⟨_, _, rfl, h2⟩) (ih.2 h3))

/-- Even levels hold decision nodes, odd levels chance nodes. -/
theorem path_parity (L : Linked st) {n : Nat} {b b' : Bool} {d e : Nat} (hp : Path st n (b, d) (b', e)) :
    (b' = b ↔ ∃ q, n = 2 * q) := by
  induction n generalizing b d with
  | zero => cases hp; exact ⟨fun _ => ⟨0, rfl⟩, fun _ => rfl⟩
  | succ n ih =>
    cases hp with
    | @step _ _ y _ h1 h2 =>
      have hb : y.1 = !b := by
        cases b <;> simp only [kidsN] at h1 <;> split at h1 <;> simp only [List.mem_map, List.not_mem_nil] at h1
        · obtain ⟨p, _, rfl⟩ := h1; rfl
        · obtain ⟨p, _, rfl⟩ := h1; rfl
      obtain ⟨by', i⟩ := y
      simp only at hb
      subst hb
      have := ih h2
      constructor
      · intro hbb
        have h3 : ¬ ∃ q, n = 2 * q := fun hq => by
          have := this.2 hq; subst hbb; cases b' <;> simp at this
        exact ⟨(n + 1) / 2, by
          have : n % 2 = 1 := by
            rcases Nat.mod_two_eq_zero_or_one n with h4 | h4
            · exact absurd ⟨n / 2, by omega⟩ h3
            · exact h4
          omega⟩
      · rintro ⟨q, hq⟩
        have h3 : ¬ ∃ q, n = 2 * q := by rintro ⟨q', hq'⟩; omega
        have h4 : b' ≠ !b := fun h5 => h3 (this.1 h5)
        cases b <;> cases b' <;> simp_all

theorem mem_shownD {ts : List (Tok S A)} {e : Nat} : e ∈ shownD ts ↔ (true, e) ∈ ids ts := by
  simp only [shownD, ids, List.mem_filterMap]
  constructor
  · rintro ⟨t, h1, h2⟩
    refine ⟨t, h1, ?_⟩
    split at h2
    · simpa using h2
    · cases h2
  · rintro ⟨t, h1, h2⟩
    refine ⟨t, h1, ?_⟩
    split at h2
    · next b i _ _ => cases h2; rfl
    · cases h2

theorem mem_shownC {ts : List (Tok S A)} {e : Nat} : e ∈ shownC ts ↔ (false, e) ∈ ids ts := by
  simp only [shownC, ids, List.mem_filterMap]
  constructor
  · rintro ⟨t, h1, h2⟩
    refine ⟨t, h1, ?_⟩
    split at h2
    · simpa using h2
    · cases h2
  · rintro ⟨t, h1, h2⟩
    refine ⟨t, h1, ?_⟩
    split at h2
    · next b i _ _ => cases h2; rfl
    · cases h2

theorem shown_nodup {ts : List (Tok S A)} (hn : (ids ts).Nodup) : (shownD ts).Nodup ∧ (shownC ts).Nodup := by
  have e1 : ∀ ts : List (Tok S A), shownD ts = (ids ts).filterMap (fun x => if x.1 then some x.2 else none) := by
    intro ts
    simp only [shownD, ids, List.filterMap_filterMap]
    congr 1
    funext t
    cases t <;> try rfl
    next b _ _ _ => cases b <;> rfl
  have e2 : ∀ ts : List (Tok S A), shownC ts = (ids ts).filterMap (fun x => if x.1 then none else some x.2) := by
    intro ts
    simp only [shownC, ids, List.filterMap_filterMap]
    congr 1
    funext t
    cases t <;> try rfl
    next b _ _ _ => cases b <;> rfl
  rw [e1, e2]
  have g : ∀ (l : List Nd) (q : Nd → Option Nat), l.Nodup → (∀ x y i, q x = some i → q y = some i → x = y) → (l.filterMap q).Nodup := by
    intro l q hl hq
    rw [List.Nodup, List.pairwise_filterMap]
    refine List.Pairwise.imp ?_ hl
    intro x y hne i hi j hj hij
    subst hij
    exact hne (hq x y i hi hj)
  constructor <;> apply g _ _ hn <;> rintro ⟨b, i⟩ ⟨b', j⟩ x h1 h2 <;> cases b <;> cases b' <;> simp_all

theorem after_chance (hv : alg.Valid) (htb : Leftover tb) (hr : Reachable env m alg k s0 dp tm tb st h) {n d c : Nat} :
    Path st n (true, d) (false, c) ↔ ∃ q e a, n = 2 * q + 1 ∧ After st q d e ∧ childC st e a = some c := by
  have L := linked_of_reachable hv htb hr
  constructor
  · intro hp
    cases n with
    | zero => cases hp
    | succ n =>
      obtain ⟨⟨b, e⟩, h1, h2⟩ := hp.snoc_inv
      cases b with
      | false =>
        obtain ⟨o, d', h3, _⟩ := (kids_c hv htb hr).1 h2
        cases h3
      | true =>
        obtain ⟨q, hq⟩ := (path_parity L h1).1 rfl
        obtain ⟨a, c', h3, h4⟩ := (kids_d hv htb hr).1 h2
        cases h3
        subst hq
        exact ⟨q, e, a, rfl, (path_after hv htb hr).1 h1, h4⟩
  · rintro ⟨q, e, a, rfl, h1, h2⟩
    have h3 := (path_after hv htb hr).2 h1
    have h4 : (false, c) ∈ kidsN st (true, e) := (kids_d hv htb hr).2 ⟨a, c, rfl, h2⟩
    generalize 2 * q = n at h3
    generalize (true, d) = x at h3
    generalize (true, e) = y at h3 h4
    induction h3 with
    | here => exact .step h4 .here
    | step h5 h6 ih => exact .step h5 (ih h4)

/-! ## C53 -/

/-- C53.  Printing a decision node with depth `n` always terminates (with at least `2n + 1` nested calls available) and shows exactly
the decision nodes that can be reached by at most `n` actions, and the chance nodes of the actions leading there; it cuts off
(`...`) exactly the non-leaf nodes `n` actions away.  Each node is shown with its current value and visit count. -/
theorem c53_what_is_shown (hv : alg.Valid) (htb : Leftover tb) (hr : Reachable env m alg k s0 dp tm tb st h) {d : Nat}
    {nd : DNode S A R X} (hd : st.dn[d]? = some nd) (n : Nat) {fuel : Nat} (hf : 2 * n < fuel) :
    ∃ ts, prettyD env m f st fuel n d = some ts ∧
      (∀ e, e ∈ shownD ts ↔ ∃ q ≤ n, After st q d e) ∧
      (∀ c, c ∈ shownC ts ↔ ∃ q < n, ∃ e a, After st q d e ∧ childC st e a = some c) ∧
      (∀ e, e ∈ cutOff ts ↔ After st n d e ∧ ∃ ne, st.dn[e]? = some ne ∧ env.isSink ne.state = false ∧ ne.depth < m.maxDepth) ∧
      (∀ e v j, Tok.node true e v j ∈ ts → ∃ ne, st.dn[e]? = some ne ∧ v = f.valD ne ∧ j = ne.visits) ∧
      (∀ c v j, Tok.node false c v j ∈ ts → ∃ nc, st.cn[c]? = some nc ∧ v = f.valC nc ∧ j = nc.visits) := by
  have L := linked_of_reachable hv htb hr
  obtain ⟨ts, h1, h2⟩ := (print_nice (env := env) (m := m) (f := f) L n).1 fuel d 0 nd hf hd
  refine ⟨ts, h1, ?_, ?_, ?_, fun e v j hm => (h2.own _ _ _ _ hm).1 rfl, fun c v j hm => (h2.own _ _ _ _ hm).2 rfl⟩
  · intro e
    rw [mem_shownD, h2.ids, mem_listed]
    constructor
    · rintro ⟨j, hj, hp⟩
      obtain ⟨q, hq⟩ := (path_parity L hp).1 rfl
      subst hq
      exact ⟨q, by omega, (path_after hv htb hr).1 hp⟩
    · rintro ⟨q, hq, ha⟩
      exact ⟨2 * q, by omega, (path_after hv htb hr).2 ha⟩
  · intro c
    rw [mem_shownC, h2.ids, mem_listed]
    constructor
    · rintro ⟨j, hj, hp⟩
      obtain ⟨q, e, a, rfl, h3, h4⟩ := (after_chance hv htb hr).1 hp
      exact ⟨q, by omega, e, a, h3, h4⟩
    · rintro ⟨q, hq, e, a, h3, h4⟩
      exact ⟨2 * q + 1, by omega, (after_chance hv htb hr).2 ⟨q, e, a, rfl, h3, h4⟩⟩
  · intro e
    rw [h2.cut, mem_pend, path_after hv htb hr]
    simp only [isLeaf, Bool.or_eq_false_iff, decide_eq_false_iff_not, Int.not_le]

/-- C53.  Without transposition table no node is shown twice. -/
theorem c53_each_once_partial (hv : alg.Valid) (htb : Leftover tb) (hr : Reachable env m alg k s0 dp tm tb st h) (ht : m.useTable = false)
    {d : Nat} {nd : DNode S A R X} (hd : st.dn[d]? = some nd) (n : Nat) {fuel : Nat} (hf : 2 * n < fuel) :
    ∃ ts, prettyD env m f st fuel n d = some ts ∧ (shownD ts).Nodup ∧ (shownC ts).Nodup := by
  have L := linked_of_reachable hv htb hr
  obtain ⟨ts, h1, h2⟩ := (print_nice (env := env) (m := m) (f := f) L n).1 fuel d 0 nd hf hd
  refine ⟨ts, h1, shown_nodup ?_⟩
  rw [h2.ids]
  exact listed_nodup L (single_of_reachable hv htb hr ht) (l := 2 * nd.depth) (by simp [lev, hd])

/-- C53.  The square brackets of the output match, provided that the printed values, actions and observations contain none. -/
theorem c53_brackets_match (hv : alg.Valid) (htb : Leftover tb) (hr : Reachable env m alg k s0 dp tm tb st h)
    (h1 : ∀ nd, NoBrackets (f.valD nd)) (h2 : ∀ nc, NoBrackets (f.valC nc)) (h3 : ∀ a, NoBrackets (f.act a)) (h4 : ∀ o, NoBrackets (f.obs o))
    {d : Nat} {nd : DNode S A R X} (hd : st.dn[d]? = some nd) (n : Nat) {fuel : Nat} (hf : 2 * n < fuel) :
    ∃ ts, prettyD env m f st fuel n d = some ts ∧ Balanced (text f ts) := by
  obtain ⟨ts, h5, h6⟩ := (print_nice (env := env) (m := m) (f := f) (linked_of_reachable hv htb hr) n).1 fuel d 0 nd hf hd
  exact ⟨ts, h5, h6.bal ⟨fun nd _ => h1 nd, fun nc _ => h2 nc, fun _ _ p _ => h3 p.1, fun _ _ p _ => h4 p.1⟩⟩

/-- C53.  Printing a chance node with depth `n` shows it, and for each of its children what printing the child with depth `n` shows. -/
theorem c53_chance_nodes (hv : alg.Valid) (htb : Leftover tb) (hr : Reachable env m alg k s0 dp tm tb st h) {c : Nat}
    {nc : CNode S A R Y} (hc : st.cn[c]? = some nc) (n : Nat) {fuel : Nat} (hf : 2 * n + 1 < fuel) :
    ∃ ts, prettyC env m f st fuel n c = some ts ∧
      (∀ e, e ∈ shownD ts ↔ ∃ o d, childD st c o = some d ∧ ∃ q ≤ n, After st q d e) ∧
      (m.useTable = false → (shownD ts).Nodup ∧ (shownC ts).Nodup) := by
  have L := linked_of_reachable hv htb hr
  obtain ⟨ts, h1, h2⟩ := (print_nice (env := env) (m := m) (f := f) L n).2 fuel c 0 nc hf hc
  refine ⟨ts, h1, ?_, ?_⟩
  · intro e
    rw [mem_shownD, h2.ids, mem_listed]
    constructor
    · rintro ⟨j, hj, hp⟩
      cases hp with
      | step h3 h4 =>
        obtain ⟨o, d, rfl, h5⟩ := (kids_c hv htb hr).1 h3
        obtain ⟨q, hq⟩ := (path_parity L h4).1 rfl
        subst hq
        exact ⟨o, d, h5, q, by omega, (path_after hv htb hr).1 h4⟩
    · rintro ⟨o, d, h5, q, hq, ha⟩
      exact ⟨2 * q + 1, by omega, .step ((kids_c hv htb hr).2 ⟨o, d, rfl, h5⟩) ((path_after hv htb hr).2 ha)⟩
  · intro ht
    apply shown_nodup
    rw [h2.ids]
    exact listed_nodup L (single_of_reachable hv htb hr ht) (l := 2 * nc.depth + 1) (by simp [lev, hc])

/-- C53.  A negative depth is no limit at all: printing terminates and shows everything below the node, cutting off nothing. -/
theorem c53_negative_depth (hv : alg.Valid) (htb : Leftover tb) (hr : Reachable env m alg k s0 dp tm tb st h) {d : Nat}
    {nd : DNode S A R X} (hd : st.dn[d]? = some nd) (n : Int) (hn : n < 0) :
    ∃ F, ∀ fuel, F ≤ fuel → ∃ ts, prettyD env m f st fuel n d = some ts ∧
      (∀ e, e ∈ shownD ts ↔ ∃ q, After st q d e) ∧ cutOff ts = [] := by
  have L := linked_of_reachable hv htb hr
  obtain ⟨top, htop⟩ : ∃ top : Int, ∀ x ∈ st.dn, x.depth ≤ top := by
    generalize st.dn = l
    induction l with
    | nil => exact ⟨0, by simp⟩
    | cons x l ih =>
      obtain ⟨t, ht⟩ := ih
      refine ⟨max t x.depth, ?_⟩
      intro y hy
      rcases List.mem_cons.1 hy with rfl | hy
      · omega
      · have := ht y hy; omega
  have htop' : ∀ (d : Nat) nd, st.dn[d]? = some nd → nd.depth ≤ top := fun d nd h => htop nd (List.mem_of_getElem? h)
  obtain ⟨j, hj⟩ : ∃ j : Nat, top - nd.depth ≤ j := ⟨(top - nd.depth).toNat, by omega⟩
  refine ⟨2 * j + 2, fun fuel hf => ?_⟩
  obtain ⟨ts, h1, h2⟩ := print_all (env := env) (m := m) (f := f) L htop' j fuel d 0 nd (2 * n) (by omega) (by omega) hd hj
  have hlev : ∀ q e, After st q d e → q ≤ j := by
    intro q e ha
    have h3 := lev_path L ((path_after hv htb hr).2 ha) (l := 2 * nd.depth) (by simp [lev, hd])
    simp only [lev, Option.map_eq_some_iff] at h3
    obtain ⟨ne, h4, h5⟩ := h3
    have := htop' _ _ h4
    push_cast at h5
    omega
  refine ⟨ts, h1, ?_, ?_⟩
  · intro e
    rw [mem_shownD, h2.ids, mem_listed]
    constructor
    · rintro ⟨i, hi, hp⟩
      obtain ⟨q, hq⟩ := (path_parity L hp).1 rfl
      subst hq
      exact ⟨q, (path_after hv htb hr).1 hp⟩
    · rintro ⟨q, ha⟩
      exact ⟨2 * q, by have := hlev q e ha; omega, (path_after hv htb hr).2 ha⟩
  · rw [h2.cut, List.eq_nil_iff_forall_not_mem]
    intro e he
    rw [mem_pend, show 2 * j + 2 = 2 * (j + 1) by omega, path_after hv htb hr] at he
    have := hlev _ _ he.1
    omega

end

/-- C53.  What the built-in state types and integer actions print contains no square brackets (so `c53_brackets_match` applies); a
`StringAction` prints its string, whatever it contains. -/
theorem c53_builtin_text (o : Types.Obs) (i : Int32) (s : String) :
    (∀ t, obsText o = .ok t → NoBrackets t) ∧ (∀ t, actText (.int i) = .ok t → NoBrackets t) ∧ actText (.string s) = .ok s.toList := by
  refine ⟨?_, ?_, rfl⟩
  · intro t ht
    cases o with
    | null b => cases ht
    | int i =>
      cases ht
      exact NoBrackets.append (NoBrackets.append (a := ['(']) (by decide) (noBrackets_decimal _)) (by decide)
    | pair a b =>
      cases ht
      exact NoBrackets.append (NoBrackets.append (a := '(' :: _) (NoBrackets.append (a := ['(']) (by decide) (noBrackets_decimal _))
        (NoBrackets.append (a := [',']) (by decide) (noBrackets_decimal _))) (by decide)
    | triple a b c =>
      cases ht
      exact NoBrackets.append (NoBrackets.append (NoBrackets.append (a := '(' :: _) (NoBrackets.append (a := ['(']) (by decide) (noBrackets_decimal _))
        (NoBrackets.append (a := [',']) (by decide) (noBrackets_decimal _))) (NoBrackets.append (a := [',']) (by decide) (noBrackets_decimal _))) (by decide)
  · intro t ht
    cases ht
    exact noBrackets_decimal _

/-! ## With a transposition table -/

/-- Numbers are printed in decimal, values not at all. -/
def toyFmt : Fmt Nat Nat Int Unit Unit := ⟨fun _ => [], fun _ => [], fun a => Context.digits a, fun o => Context.digits o⟩

/-- C53 is false with a transposition table: a node shared by two parents is printed below both. -/
theorem c53_table_repeats_false : ∃ st h, Reachable Toy.env (Toy.mgr false true 1) Toy.alg 2 0 0 0 [] st h ∧ Quiescent st ∧
    ∃ ts, prettyD Toy.env (Toy.mgr false true 1) toyFmt st 5 2 st.root = some ts ∧ ¬ (shownD ts).Nodup := by
  obtain ⟨st, h, h1, h2⟩ := Toy.run (mcts := false) (table := true) (mutexes := 1) (tb := []) Toy.sched
    (fun st _ => decide (st.ws = [.idle, .idle]) &&
      ((prettyD Toy.env (Toy.mgr false true 1) toyFmt st 5 2 st.root).any (fun ts => decide (¬ (shownD ts).Nodup)))) (by decide +kernel)
  simp only [Bool.and_eq_true, decide_eq_true_eq, Option.any_eq_true] at h2
  obtain ⟨h2, ts, h3, h4⟩ := h2
  refine ⟨st, h, h1, ?_, ts, h3, h4⟩
  intro w p hp
  rw [h2] at hp
  match w with
  | 0 => simpa using hp.symm
  | 1 => simpa using hp.symm
  | w + 2 => simp at hp

/-- The hypotheses are met by a tree with six decision nodes; at depth 1 three of them are shown and two are cut off. -/
example : ∃ st h, Reachable Toy.env (Toy.mgr false false 0) Toy.alg 2 0 0 0 [] st h ∧ st.dn.length = 7 ∧
    ∃ ts, prettyD Toy.env (Toy.mgr false false 0) toyFmt st 3 1 st.root = some ts ∧ (shownD ts).length = 3 ∧ (cutOff ts).length = 2 ∧
      Balanced (text toyFmt ts) := by
  obtain ⟨st, h, h1, h2⟩ := Toy.run (mcts := false) (table := false) (mutexes := 0) (tb := []) Toy.sched
    (fun st _ => decide (st.dn.length = 7) && decide (st.root = 0) &&
      ((prettyD Toy.env (Toy.mgr false false 0) toyFmt st 3 1 st.root).any (fun ts => decide ((shownD ts).length = 3 ∧ (cutOff ts).length = 2))))
    (by decide +kernel)
  simp only [Bool.and_eq_true, decide_eq_true_eq, Option.any_eq_true] at h2
  obtain ⟨⟨h2, h2'⟩, ts, h3, h4, h5⟩ := h2
  refine ⟨st, h, h1, h2, ts, h3, h4, h5, ?_⟩
  have hl : st.root < st.dn.length := by omega
  obtain ⟨ts', h6, h7⟩ := c53_brackets_match (f := toyFmt) Toy.alg_valid (by simp [Leftover]) h1
    (fun _ => by show NoBrackets []; decide) (fun _ => by show NoBrackets []; decide) (fun a => noBrackets_digits a) (fun a => noBrackets_digits a)
    (List.getElem?_eq_getElem hl) 1 (fuel := 3) (by omega)
  rw [show ((1 : Nat) : Int) = 1 from rfl, h3] at h6
  cases h6
  exact h7

end Verif.Print
