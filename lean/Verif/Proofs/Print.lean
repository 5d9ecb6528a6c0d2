import Verif.Spec.Print

set_option linter.unusedSectionVars false

namespace Verif.Print

open Verif.Search

instance (cs : List Char) : Decidable (NoBrackets cs) := inferInstanceAs (Decidable (_ ∧ _))

/-! ## Balanced brackets -/

theorem balanced_nil : Balanced [] := ⟨by intro p hp; simp_all, rfl⟩

theorem NoBrackets.balanced {cs : List Char} (h : NoBrackets cs) : Balanced cs := by
  refine ⟨?_, by rw [List.count_eq_zero.2 h.1, List.count_eq_zero.2 h.2]⟩
  intro p hp
  have : p.count ']' = 0 := List.count_eq_zero.2 (fun hm => h.2 (hp.subset hm))
  omega

theorem prefix_append_cases {α : Type} {p a b : List α} (h : p <+: a ++ b) : p <+: a ∨ ∃ q, q <+: b ∧ p = a ++ q := by
  obtain ⟨t, ht⟩ := h
  rw [List.append_eq_append_iff] at ht
  rcases ht with ⟨q, h1, h2⟩ | ⟨q, h1, h2⟩
  · exact .inl ⟨q, h1.symm⟩
  · exact .inr ⟨q, ⟨t, h2.symm⟩, h1⟩

theorem Balanced.append {a b : List Char} (ha : Balanced a) (hb : Balanced b) : Balanced (a ++ b) := by
  refine ⟨?_, by simp [ha.2, hb.2]⟩
  intro p hp
  rcases prefix_append_cases hp with h | ⟨q, h1, rfl⟩
  · exact ha.1 p h
  · have := hb.1 q h1
    have := ha.2
    simp only [List.count_append]; omega

theorem Balanced.wrap {a : List Char} (ha : Balanced a) : Balanced ('[' :: a ++ [']']) := by
  refine ⟨?_, by simp [ha.2]⟩
  intro p hp
  cases p with
  | nil => simp
  | cons x p =>
    rw [List.cons_append, List.cons_prefix_cons] at hp
    obtain ⟨rfl, hp⟩ := hp
    rcases prefix_append_cases hp with h | ⟨q, h1, rfl⟩
    · have := ha.1 p h
      simp; omega
    · have h2 : q.count ']' ≤ 1 := by
        have := h1.sublist.count_le ']'
        simpa using this
      have := ha.2
      simp; omega

theorem Balanced.flatMap {α : Type} {g : α → List Char} : ∀ {l : List α}, (∀ a ∈ l, Balanced (g a)) → Balanced (l.flatMap g)
  | [], _ => by simpa using balanced_nil
  | a :: l, h => by
    rw [List.flatMap_cons]
    exact (h a (by simp)).append (Balanced.flatMap (fun b hb => h b (by simp [hb])))

theorem NoBrackets.append {a b : List Char} (ha : NoBrackets a) (hb : NoBrackets b) : NoBrackets (a ++ b) := by
  simp only [NoBrackets, List.mem_append, not_or] at *
  exact ⟨⟨ha.1, hb.1⟩, ha.2, hb.2⟩

theorem noBrackets_digits (n : Nat) : NoBrackets (Context.digits n) := by
  have e : ∀ d, d < 10 → Char.ofNat (48 + d) ≠ '[' ∧ Char.ofNat (48 + d) ≠ ']' := by decide
  induction n using Nat.strongRecOn with
  | ind n ih =>
    unfold Context.digits
    split
    · next h =>
      have := e n h
      simp only [NoBrackets, List.mem_singleton]
      exact ⟨fun h => this.1 h.symm, fun h => this.2 h.symm⟩
    · apply NoBrackets.append (ih _ (by omega))
      have := e (n % 10) (by omega)
      simp only [NoBrackets, List.mem_singleton]
      exact ⟨fun h => this.1 h.symm, fun h => this.2 h.symm⟩

theorem noBrackets_decimal (i : Int) : NoBrackets (Context.decimal i) := by
  unfold Context.decimal
  split
  · exact NoBrackets.append (a := ['-']) (by decide) (noBrackets_digits _)
  · exact noBrackets_digits _

/-! ## Nodes and levels -/

variable {S A R X Y : Type} [DecidableEq S] [DecidableEq A]

/-- Child pointers are valid and go one level down. -/
structure Linked (st : St S A R X Y) : Prop where
  kD : ∀ (d : Nat) nd a c, st.dn[d]? = some nd → (a, c) ∈ nd.kids → ∃ nc, st.cn[c]? = some nc ∧ nc.depth = nd.depth
  kC : ∀ (c : Nat) nc o d, st.cn[c]? = some nc → (o, d) ∈ nc.kids → ∃ nd, st.dn[d]? = some nd ∧ nd.depth = nc.depth + 1

/-- No node has two parents, or is twice a child of the same one. -/
structure Single (st : St S A R X Y) : Prop where
  kD : ∀ (d d' : Nat) nd nd' a a' c, st.dn[d]? = some nd → st.dn[d']? = some nd' → (a, c) ∈ nd.kids → (a', c) ∈ nd'.kids → d = d' ∧ a = a'
  kC : ∀ (c c' : Nat) nc nc' o o' d, st.cn[c]? = some nc → st.cn[c']? = some nc' → (o, d) ∈ nc.kids → (o', d) ∈ nc'.kids → c = c' ∧ o = o'
  nD : ∀ (d : Nat) nd, st.dn[d]? = some nd → (nd.kids.map Prod.fst).Nodup
  nC : ∀ (c : Nat) nc, st.cn[c]? = some nc → (nc.kids.map Prod.fst).Nodup

/-- A node: is it a decision node, and its identity. -/
abbrev Nd := Bool × Nat

/-- The children of a node. -/
def kidsN (st : St S A R X Y) : Nd → List Nd
  | (true, d) => match st.dn[d]? with | some nd => nd.kids.map (fun p => (false, p.2)) | none => []
  | (false, c) => match st.cn[c]? with | some nc => nc.kids.map (fun p => (true, p.2)) | none => []

/-- The nodes at most `r` levels below a node, by traversal. -/
def listed (st : St S A R X Y) : Nat → Nd → List Nd
  | 0, x => [x]
  | r + 1, x => x :: (kidsN st x).flatMap (listed st r)

/-- `y` is `n` levels below `x`. -/
inductive Path (st : St S A R X Y) : Nat → Nd → Nd → Prop where
  | here {x} : Path st 0 x x
  | step {n x y z} (h : y ∈ kidsN st x) (h' : Path st n y z) : Path st (n + 1) x z

theorem mem_listed {st : St S A R X Y} {r : Nat} {x y : Nd} : y ∈ listed st r x ↔ ∃ n, n ≤ r ∧ Path st n x y := by
  induction r generalizing x with
  | zero =>
    simp only [listed, List.mem_singleton]
    constructor
    · rintro rfl; exact ⟨0, Nat.le_refl 0, .here⟩
    · rintro ⟨n, hn, h⟩
      cases h with
      | here => rfl
      | step => omega
  | succ r ih =>
    simp only [listed, List.mem_cons, List.mem_flatMap, ih]
    constructor
    · rintro (rfl | ⟨z, hz, n, hn, h⟩)
      · exact ⟨0, by omega, .here⟩
      · exact ⟨n + 1, by omega, .step hz h⟩
    · rintro ⟨n, hn, h⟩
      cases h with
      | here => exact .inl rfl
      | step h1 h2 => exact .inr ⟨_, h1, _, by omega, h2⟩

theorem Path.snoc_inv {st : St S A R X Y} {n : Nat} {x z : Nd} (h : Path st (n + 1) x z) : ∃ y, Path st n x y ∧ z ∈ kidsN st y := by
  induction n generalizing x with
  | zero =>
    cases h with
    | step h1 h2 => cases h2; exact ⟨x, .here, h1⟩
  | succ n ih =>
    cases h with
    | step h1 h2 =>
      obtain ⟨y, h3, h4⟩ := ih h2
      exact ⟨y, .step h1 h3, h4⟩

theorem kids_parent {st : St S A R X Y} (U : Single st) {x y z : Nd} (h1 : z ∈ kidsN st x) (h2 : z ∈ kidsN st y) : x = y := by
  obtain ⟨bx, i⟩ := x
  obtain ⟨by', j⟩ := y
  cases bx <;> cases by' <;> simp only [kidsN] at h1 h2 <;> split at h1 <;> split at h2 <;>
    simp only [List.mem_map, List.not_mem_nil] at h1 h2 <;> try (first | exact h1.elim | exact h2.elim)
  · next _ nc hc _ nc' hc' =>
    obtain ⟨⟨o, d⟩, h1, rfl⟩ := h1
    obtain ⟨⟨o', d'⟩, h2, h3⟩ := h2
    simp only [Prod.mk.injEq, true_and] at h3
    subst h3
    rw [(U.kC _ _ _ _ _ _ _ hc hc' h1 h2).1]
  · obtain ⟨p, _, rfl⟩ := h1
    obtain ⟨q, _, h3⟩ := h2
    cases h3
  · obtain ⟨p, _, rfl⟩ := h1
    obtain ⟨q, _, h3⟩ := h2
    cases h3
  · next _ nc hc _ nc' hc' =>
    obtain ⟨⟨o, d⟩, h1, rfl⟩ := h1
    obtain ⟨⟨o', d'⟩, h2, h3⟩ := h2
    simp only [Prod.mk.injEq, true_and] at h3
    subst h3
    rw [(U.kD _ _ _ _ _ _ _ hc hc' h1 h2).1]

theorem kids_nodup {st : St S A R X Y} (U : Single st) (x : Nd) : (kidsN st x).Nodup := by
  obtain ⟨b, i⟩ := x
  cases b <;> simp only [kidsN] <;> split
  · next nc hc =>
    have h0 := U.nC _ _ hc
    rw [List.Nodup, List.pairwise_map] at h0 ⊢
    refine List.Pairwise.imp_of_mem ?_ h0
    rintro ⟨o, d⟩ ⟨o', d'⟩ hp hq hne h
    simp only [Prod.mk.injEq, true_and] at h
    subst h
    exact hne (U.kC _ _ _ _ _ _ _ hc hc hp hq).2
  · simp
  · next nc hc =>
    have h0 := U.nD _ _ hc
    rw [List.Nodup, List.pairwise_map] at h0 ⊢
    refine List.Pairwise.imp_of_mem ?_ h0
    rintro ⟨o, d⟩ ⟨o', d'⟩ hp hq hne h
    simp only [Prod.mk.injEq, true_and] at h
    subst h
    exact hne (U.kD _ _ _ _ _ _ _ hc hc hp hq).2
  · simp

/-- The level of a node. -/
def lev (st : St S A R X Y) : Nd → Option Int
  | (true, d) => (st.dn[d]?).map (fun nd => 2 * nd.depth)
  | (false, c) => (st.cn[c]?).map (fun nc => 2 * nc.depth + 1)

theorem lev_kid {st : St S A R X Y} (L : Linked st) {x y : Nd} (h : y ∈ kidsN st x) :
    ∃ l, lev st x = some l ∧ lev st y = some (l + 1) := by
  obtain ⟨b, i⟩ := x
  cases b <;> simp only [kidsN] at h <;> split at h
  · next nc hc =>
    simp only [List.mem_map] at h
    obtain ⟨⟨o, d⟩, h1, rfl⟩ := h
    obtain ⟨nd, h2, h3⟩ := L.kC _ _ _ _ hc h1
    exact ⟨2 * nc.depth + 1, by simp [lev, hc], by simp [lev, h2, h3]; omega⟩
  · simp at h
  · next nd hd =>
    simp only [List.mem_map] at h
    obtain ⟨⟨o, d⟩, h1, rfl⟩ := h
    obtain ⟨nc, h2, h3⟩ := L.kD _ _ _ _ hd h1
    exact ⟨2 * nd.depth, by simp [lev, hd], by simp [lev, h2, h3]⟩
  · simp at h

theorem lev_path {st : St S A R X Y} (L : Linked st) {n : Nat} {x y : Nd} (h : Path st n x y) {l : Int} (hl : lev st x = some l) :
    lev st y = some (l + n) := by
  induction h generalizing l with
  | here => simpa using hl
  | step h1 h2 ih =>
    obtain ⟨l', h3, h4⟩ := lev_kid L h1
    rw [hl] at h3; simp at h3; subst h3
    rw [ih h4]; simp; omega

theorem path_unique {st : St S A R X Y} (U : Single st) {n : Nat} {x y z : Nd} (h1 : Path st n x z) (h2 : Path st n y z) : x = y := by
  induction n generalizing z with
  | zero => cases h1; cases h2; rfl
  | succ n ih =>
    obtain ⟨u, h3, h4⟩ := h1.snoc_inv
    obtain ⟨v, h5, h6⟩ := h2.snoc_inv
    have := kids_parent U h4 h6
    subst this
    exact ih h3 h5

theorem listed_nodup {st : St S A R X Y} (L : Linked st) (U : Single st) {r : Nat} {x : Nd} {l : Int} (hl : lev st x = some l) :
    (listed st r x).Nodup := by
  induction r generalizing x l with
  | zero => simp [listed]
  | succ r ih =>
    simp only [listed, List.nodup_cons, List.mem_flatMap]
    constructor
    · rintro ⟨y, h1, h2⟩
      obtain ⟨n, _, h3⟩ := mem_listed.1 h2
      have := lev_path L (.step h1 h3) hl
      rw [hl] at this
      simp at this; omega
    · rw [List.Nodup, List.pairwise_flatMap]
      constructor
      · intro y hy
        obtain ⟨l', _, h4⟩ := lev_kid L hy
        exact ih h4
      · refine List.Pairwise.imp_of_mem ?_ (kids_nodup U x)
        intro y y' hy hy' hne z hz z' hz' hzz
        subst hzz
        obtain ⟨n, _, h1⟩ := mem_listed.1 hz
        obtain ⟨n', _, h2⟩ := mem_listed.1 hz'
        have e1 := lev_path L (.step hy h1) hl
        have e2 := lev_path L (.step hy' h2) hl
        rw [e1] at e2
        have : n = n' := by simp at e2; omega
        subst this
        exact hne (path_unique U h1 h2)

/-! ## The output -/

/-- The nodes shown, in order. -/
def ids (ts : List (Tok S A)) : List Nd := ts.filterMap (fun t => match t with | .node b i _ _ => some (b, i) | _ => none)

theorem ids_append (a b : List (Tok S A)) : ids (a ++ b) = ids a ++ ids b := List.filterMap_append

theorem ids_flatMap {α : Type} (g : α → List (Tok S A)) (l : List α) : ids (l.flatMap g) = l.flatMap (fun a => ids (g a)) := by
  induction l with
  | nil => rfl
  | cons a l ih => simp only [List.flatMap_cons, ids_append, ih]

theorem ids_tabs (n : Nat) : ids (List.replicate n (Tok.tab : Tok S A)) = [] := by
  induction n with
  | zero => rfl
  | succ n ih => rw [List.replicate_succ]; exact ih

theorem cut_append (a b : List (Tok S A)) : cutOff (a ++ b) = cutOff a ++ cutOff b := List.filterMap_append

theorem cut_flatMap {α : Type} (g : α → List (Tok S A)) (l : List α) : cutOff (l.flatMap g) = l.flatMap (fun a => cutOff (g a)) := by
  induction l with
  | nil => rfl
  | cons a l ih => simp only [List.flatMap_cons, cut_append, ih]

theorem cut_tabs (n : Nat) : cutOff (List.replicate n (Tok.tab : Tok S A)) = [] := by
  induction n with
  | zero => rfl
  | succ n ih => rw [List.replicate_succ]; exact ih

theorem flatMap_congr_mem {α β : Type} {g g' : α → List β} {l : List α} (h : ∀ a ∈ l, g a = g' a) : l.flatMap g = l.flatMap g' := by
  induction l with
  | nil => rfl
  | cons a l ih => rw [List.flatMap_cons, List.flatMap_cons, h a (by simp), ih (fun b hb => h b (by simp [hb]))]

theorem text_append (f : Fmt S A R X Y) (a b : List (Tok S A)) : text f (a ++ b) = text f a ++ text f b := by
  simp [text, List.flatMap_append]

theorem text_flatMap {α : Type} (f : Fmt S A R X Y) (g : α → List (Tok S A)) (l : List α) :
    text f (l.flatMap g) = l.flatMap (fun a => text f (g a)) := by
  induction l with
  | nil => rfl
  | cons a l ih => simp only [List.flatMap_cons, text_append, ih]

theorem concatMap_some {α β : Type} {g : α → Option (List β)} {g' : α → List β} : ∀ {l : List α}, (∀ a ∈ l, g a = some (g' a)) →
    concatMap g l = some (l.flatMap g')
  | [], _ => rfl
  | a :: l, h => by
    unfold concatMap
    rw [h a (by simp), concatMap_some (fun b hb => h b (by simp [hb]))]
    rfl

theorem concatMap_ex {α β : Type} {g : α → Option (List β)} {Q : α → List β → Prop} {l : List α}
    (h : ∀ a ∈ l, ∃ x, g a = some x ∧ Q a x) : ∃ g' : α → List β, concatMap g l = some (l.flatMap g') ∧ ∀ a ∈ l, Q a (g' a) := by
  refine ⟨fun a => (g a).getD [], concatMap_some ?_, ?_⟩
  · intro a ha
    obtain ⟨x, h1, _⟩ := h a ha
    rw [h1]; rfl
  · intro a ha
    obtain ⟨x, h1, h2⟩ := h a ha
    simpa [h1] using h2

/-- The decision nodes exactly `r` levels below a node that are not leaves. -/
def pend (env : Env S A R) (m : Manager S R) (st : St S A R X Y) : Nat → Nd → List Nat
  | 0, (true, d) => match st.dn[d]? with | some nd => if !isLeaf env m nd then [d] else [] | none => []
  | 0, (false, _) => []
  | r + 1, x => (kidsN st x).flatMap (pend env m st r)

theorem mem_pend {env : Env S A R} {m : Manager S R} {st : St S A R X Y} {r : Nat} {x : Nd} {e : Nat} :
    e ∈ pend env m st r x ↔ Path st r x (true, e) ∧ ∃ nd, st.dn[e]? = some nd ∧ isLeaf env m nd = false := by
  induction r generalizing x with
  | zero =>
    obtain ⟨b, d⟩ := x
    cases b
    · simp only [pend, List.not_mem_nil, false_iff]
      rintro ⟨h, _⟩
      cases h
    · simp only [pend]
      split
      · next nd hd =>
        split
        · next hl =>
          simp only [List.mem_singleton]
          constructor
          · rintro rfl; exact ⟨.here, nd, hd, by simpa using hl⟩
          · rintro ⟨h, _⟩; cases h; rfl
        · next hl =>
          simp only [List.not_mem_nil, false_iff]
          rintro ⟨h, nd', h1, h2⟩
          cases h
          rw [hd] at h1; cases h1
          simp [h2] at hl
      · next hd =>
        simp only [List.not_mem_nil, false_iff]
        rintro ⟨h, nd', h1, h2⟩
        cases h
        rw [hd] at h1; cases h1
  | succ r ih =>
    simp only [pend, List.mem_flatMap, ih]
    constructor
    · rintro ⟨y, h1, h2, h3⟩; exact ⟨.step h1 h2, h3⟩
    · rintro ⟨h1, h2⟩
      cases h1 with
      | step h3 h4 => exact ⟨_, h3, h4, h2⟩

/-- The virtual print functions write no square brackets (on this tree). -/
structure Plain (f : Fmt S A R X Y) (st : St S A R X Y) : Prop where
  valD : ∀ nd ∈ st.dn, NoBrackets (f.valD nd)
  valC : ∀ nc ∈ st.cn, NoBrackets (f.valC nc)
  act : ∀ nd ∈ st.dn, ∀ p ∈ nd.kids, NoBrackets (f.act p.1)
  obs : ∀ nc ∈ st.cn, ∀ p ∈ nc.kids, NoBrackets (f.obs p.1)

/-- What is proved of every output: the nodes listed, matching brackets, and that the printed values are the nodes' own. -/
structure Nice (f : Fmt S A R X Y) (st : St S A R X Y) (ts : List (Tok S A)) (xs : List Nd) (ys : List Nat) : Prop where
  ids : ids ts = xs
  cut : cutOff ts = ys
  bal : Plain f st → Balanced (text f ts)
  own : ∀ b i v n, Tok.node b i v n ∈ ts →
    (b = true → ∃ nd, st.dn[i]? = some nd ∧ v = f.valD nd ∧ n = nd.visits) ∧
    (b = false → ∃ nc, st.cn[i]? = some nc ∧ v = f.valC nc ∧ n = nc.visits)

theorem bal_tabs (f : Fmt S A R X Y) (n : Nat) : Balanced (text f (List.replicate n (Tok.tab : Tok S A))) := by
  unfold text
  apply Balanced.flatMap
  intro t ht
  rw [List.eq_of_mem_replicate ht]
  exact NoBrackets.balanced (show NoBrackets ['|', '\t'] by decide)

/-- A node with its body is bracketed. -/
theorem bal_node {f : Fmt S A R X Y} {b : Bool} {i : Nat} {v : List Char} {n : Nat} {body : List (Tok S A)} (hv : NoBrackets v)
    (hb : Balanced (text f body)) : Balanced (text f (.node b i v n :: body ++ [.close])) := by
  have e : text f (.node b i v n :: body ++ [.close]) =
      (((if b then 'D' else 'C') :: "(vl=".toList ++ v ++ ",#v=".toList ++ Context.digits n ++ [')']) ++
        ('[' :: text f body ++ [']'])) ++ [','] := by
    rw [text_append]
    simp [text, Tok.text]
  rw [e]
  refine Balanced.append (Balanced.append (NoBrackets.balanced ?_) hb.wrap) (NoBrackets.balanced (by decide))
  refine NoBrackets.append (NoBrackets.append (NoBrackets.append (NoBrackets.append ?_ hv) (by decide)) (noBrackets_digits n)) (by decide)
  cases b <;> decide

theorem nice_node {f : Fmt S A R X Y} {st : St S A R X Y} {b : Bool} {i : Nat} {v : List Char} {n : Nat} {body : List (Tok S A)} {xs : List Nd} {ys : List Nat}
    (hv : Plain f st → NoBrackets v)
    (ho : (b = true → ∃ nd, st.dn[i]? = some nd ∧ v = f.valD nd ∧ n = nd.visits) ∧
      (b = false → ∃ nc, st.cn[i]? = some nc ∧ v = f.valC nc ∧ n = nc.visits))
    (h : Nice f st body xs ys) : Nice f st (.node b i v n :: body ++ [.close]) ((b, i) :: xs) ys := by
  refine ⟨?_, ?_, fun hp => bal_node (hv hp) (h.bal hp), ?_⟩
  · rw [ids_append]
    show (b, i) :: Print.ids body ++ [] = _
    rw [h.ids]; simp
  · rw [cut_append]
    show cutOff body ++ [] = _
    rw [h.cut]; simp
  · intro b' i' v' n' hm
    rw [List.mem_append, List.mem_cons] at hm
    rcases hm with (hm | hm) | hm
    · cases hm; exact ho
    · exact h.own _ _ _ _ hm
    · simp at hm

theorem nice_body {α : Type} {f : Fmt S A R X Y} {st : St S A R X Y} {l : List α} {g : α → List (Tok S A)} {xs : α → List Nd} {ys : α → List Nat} {tabs : Nat}
    (h : ∀ a ∈ l, Nice f st (g a) (xs a) (ys a)) :
    Nice f st (l.flatMap g ++ .newline :: List.replicate tabs .tab) (l.flatMap xs) (l.flatMap ys) := by
  refine ⟨?_, ?_, ?_, ?_⟩
  · rw [ids_append, ids_flatMap]
    show _ ++ Print.ids (List.replicate tabs Tok.tab) = _
    rw [ids_tabs, List.append_nil]
    exact flatMap_congr_mem (fun a ha => (h a ha).ids)
  · rw [cut_append, cut_flatMap]
    show _ ++ cutOff (List.replicate tabs Tok.tab) = _
    rw [cut_tabs, List.append_nil]
    exact flatMap_congr_mem (fun a ha => (h a ha).cut)
  · intro hp
    rw [text_append, text_flatMap]
    refine Balanced.append (Balanced.flatMap (fun a ha => (h a ha).bal hp)) ?_
    show Balanced (['\n'] ++ text f (List.replicate tabs Tok.tab))
    exact Balanced.append (NoBrackets.balanced (by decide)) (bal_tabs f tabs)
  · intro b i v n hm
    rw [List.mem_append, List.mem_flatMap, List.mem_cons] at hm
    rcases hm with ⟨a, ha, hm⟩ | hm | hm
    · exact (h a ha).own _ _ _ _ hm
    · cases hm
    · have := List.eq_of_mem_replicate hm; cases this

/-- A child's line. -/
theorem nice_line {f : Fmt S A R X Y} {st : St S A R X Y} {r : List (Tok S A)} {xs : List Nd} {ys : List Nat} {n : Nat} {key : Tok S A}
    (hk : (∃ a, key = .act a ∧ (Plain f st → NoBrackets (f.act a))) ∨ (∃ o, key = .obs o ∧ (Plain f st → NoBrackets (f.obs o))))
    (h : Nice f st r xs ys) : Nice f st (.newline :: List.replicate n .tab ++ key :: r) xs ys := by
  refine ⟨?_, ?_, ?_, ?_⟩
  · rw [ids_append]
    show Print.ids (List.replicate n Tok.tab) ++ _ = _
    rw [ids_tabs, List.nil_append]
    rcases hk with ⟨a, rfl, _⟩ | ⟨a, rfl, _⟩ <;> exact h.ids
  · rw [cut_append]
    show cutOff (List.replicate n Tok.tab) ++ _ = _
    rw [cut_tabs, List.nil_append]
    rcases hk with ⟨a, rfl, _⟩ | ⟨a, rfl, _⟩ <;> exact h.cut
  · intro hp
    have e : text f (.newline :: List.replicate n .tab ++ key :: r) =
        ['\n'] ++ text f (List.replicate n (Tok.tab : Tok S A)) ++ (Tok.text f key ++ text f r) := by
      rw [text_append]
      simp [text, Tok.text]
    rw [e]
    refine Balanced.append (Balanced.append (NoBrackets.balanced (by decide)) (bal_tabs f n)) (Balanced.append ?_ (h.bal hp))
    apply NoBrackets.balanced
    rcases hk with ⟨a, rfl, ha⟩ | ⟨a, rfl, ha⟩
    · exact NoBrackets.append (NoBrackets.append (a := ['"']) (by decide) (ha hp)) (by decide)
    · exact NoBrackets.append (NoBrackets.append (a := ['{']) (by decide) (ha hp)) (by decide)
  · intro b i v k hm
    rw [List.mem_append, List.mem_cons, List.mem_cons] at hm
    rcases hm with (hm | hm) | hm | hm
    · cases hm
    · have := List.eq_of_mem_replicate hm; cases this
    · rcases hk with ⟨a, rfl, _⟩ | ⟨a, rfl, _⟩ <;> cases hm
    · exact h.own _ _ _ _ hm

section
variable {env : Env S A R} {m : Manager S R} {f : Fmt S A R X Y} {st : St S A R X Y}

/-- One decision node, given its children. -/
theorem printD_step {fuel : Nat} {depth : Int} {d tabs : Nat} {nd : DNode S A R X} {xs : Nd → List Nd} {ys : Nd → List Nat} (hd : st.dn[d]? = some nd)
    (h0 : depth ≠ 0)
    (h : ∀ p ∈ nd.kids, ∃ ts, printC env m f st fuel (depth - 1) p.2 (tabs + 1) = some ts ∧ Nice f st ts (xs (false, p.2)) (ys (false, p.2))) :
    ∃ ts, printD env m f st (fuel + 1) depth d tabs = some ts ∧ Nice f st ts ((true, d) :: (kidsN st (true, d)).flatMap xs) ((kidsN st (true, d)).flatMap ys) := by
  have h1 : ∀ p ∈ nd.kids, ∃ ts, (printC env m f st fuel (depth - 1) p.2 (tabs + 1)).map
              (fun r => Tok.newline :: List.replicate (tabs + 1) .tab ++ .act p.1 :: r) = some ts ∧ Nice f st ts (xs (false, p.2)) (ys (false, p.2)) := by
    intro p hp
    obtain ⟨ts, h2, h3⟩ := h p hp
    refine ⟨_, by rw [h2]; rfl, nice_line (.inl ⟨p.1, rfl, fun hp' => hp'.act nd (List.mem_of_getElem? hd) p hp⟩) h3⟩
  obtain ⟨g', h2, h3⟩ := concatMap_ex h1
  refine ⟨.node true d (f.valD nd) nd.visits :: (nd.kids.flatMap g' ++ .newline :: List.replicate tabs .tab) ++ [.close], ?_, ?_⟩
  · unfold printD
    simp only [hd, if_neg h0, h2]
    simp
  · refine nice_node (fun hp => hp.valD nd (List.mem_of_getElem? hd)) ⟨fun _ => ⟨nd, hd, rfl, rfl⟩, by simp⟩ ?_
    have e : (kidsN st (true, d)).flatMap xs = nd.kids.flatMap (fun p => xs (false, p.2)) := by
      simp only [kidsN, hd, List.flatMap_map]
    have e' : (kidsN st (true, d)).flatMap ys = nd.kids.flatMap (fun p => ys (false, p.2)) := by
      simp only [kidsN, hd, List.flatMap_map]
    rw [e, e']
    exact nice_body h3

/-- One chance node, given its children. -/
theorem printC_step {fuel : Nat} {depth : Int} {c tabs : Nat} {nc : CNode S A R Y} {xs : Nd → List Nd} {ys : Nd → List Nat} (hc : st.cn[c]? = some nc)
    (h : ∀ p ∈ nc.kids, ∃ ts, printD env m f st fuel (depth - 1) p.2 (tabs + 1) = some ts ∧ Nice f st ts (xs (true, p.2)) (ys (true, p.2))) :
    ∃ ts, printC env m f st (fuel + 1) depth c tabs = some ts ∧ Nice f st ts ((false, c) :: (kidsN st (false, c)).flatMap xs) ((kidsN st (false, c)).flatMap ys) := by
  have h1 : ∀ p ∈ nc.kids, ∃ ts, (printD env m f st fuel (depth - 1) p.2 (tabs + 1)).map
              (fun r => Tok.newline :: List.replicate (tabs + 1) .tab ++ .obs p.1 :: r) = some ts ∧ Nice f st ts (xs (true, p.2)) (ys (true, p.2)) := by
    intro p hp
    obtain ⟨ts, h2, h3⟩ := h p hp
    refine ⟨_, by rw [h2]; rfl, nice_line (.inr ⟨p.1, rfl, fun hp' => hp'.obs nc (List.mem_of_getElem? hc) p hp⟩) h3⟩
  obtain ⟨g', h2, h3⟩ := concatMap_ex h1
  refine ⟨.node false c (f.valC nc) nc.visits :: (nc.kids.flatMap g' ++ .newline :: List.replicate tabs .tab) ++ [.close], ?_, ?_⟩
  · unfold printC
    simp only [hc, h2]
    simp
  · refine nice_node (fun hp => hp.valC nc (List.mem_of_getElem? hc)) ⟨by simp, fun _ => ⟨nc, hc, rfl, rfl⟩⟩ ?_
    have e : (kidsN st (false, c)).flatMap xs = nc.kids.flatMap (fun p => xs (true, p.2)) := by
      simp only [kidsN, hc, List.flatMap_map]
    have e' : (kidsN st (false, c)).flatMap ys = nc.kids.flatMap (fun p => ys (true, p.2)) := by
      simp only [kidsN, hc, List.flatMap_map]
    rw [e, e']
    exact nice_body h3

theorem print_nice (L : Linked st) (k : Nat) :
    (∀ (fuel d tabs : Nat) nd, 2 * k < fuel → st.dn[d]? = some nd →
      ∃ ts, printD env m f st fuel (2 * (k : Int)) d tabs = some ts ∧ Nice f st ts (listed st (2 * k) (true, d)) (pend env m st (2 * k) (true, d))) ∧
    (∀ (fuel c tabs : Nat) nc, 2 * k + 1 < fuel → st.cn[c]? = some nc →
      ∃ ts, printC env m f st fuel (2 * (k : Int) + 1) c tabs = some ts ∧ Nice f st ts (listed st (2 * k + 1) (false, c)) (pend env m st (2 * k + 1) (false, c))) := by
  have toC : ∀ k : Nat, (∀ (fuel d tabs : Nat) nd, 2 * k < fuel → st.dn[d]? = some nd →
      ∃ ts, printD env m f st fuel (2 * (k : Int)) d tabs = some ts ∧ Nice f st ts (listed st (2 * k) (true, d)) (pend env m st (2 * k) (true, d))) →
    (∀ (fuel c tabs : Nat) nc, 2 * k + 1 < fuel → st.cn[c]? = some nc →
      ∃ ts, printC env m f st fuel (2 * (k : Int) + 1) c tabs = some ts ∧ Nice f st ts (listed st (2 * k + 1) (false, c)) (pend env m st (2 * k + 1) (false, c))) := by
    intro k ih fuel c tabs nc hf hc
    obtain ⟨fuel, rfl⟩ : ∃ n, fuel = n + 1 := ⟨fuel - 1, by omega⟩
    refine printC_step (xs := listed st (2 * k)) (ys := pend env m st (2 * k)) hc ?_
    intro p hp
    obtain ⟨nd, h1, _⟩ := L.kC _ _ _ _ hc hp
    have := ih fuel p.2 (tabs + 1) nd (by omega) h1
    rwa [show (2 * (k : Int) + 1 - 1) = 2 * (k : Int) by omega]
  induction k with
  | zero =>
    have hz : ∀ (fuel d tabs : Nat) nd, 2 * 0 < fuel → st.dn[d]? = some nd →
        ∃ ts, printD env m f st fuel (2 * ((0 : Nat) : Int)) d tabs = some ts ∧ Nice f st ts (listed st (2 * 0) (true, d)) (pend env m st (2 * 0) (true, d)) := by
      intro fuel d tabs nd hf hd
      obtain ⟨fuel, rfl⟩ : ∃ n, fuel = n + 1 := ⟨fuel - 1, by omega⟩
      refine ⟨.node true d (f.valD nd) nd.visits :: (if !isLeaf env m nd then [.dots d] else []) ++ [.close], ?_, ?_⟩
      · unfold printD
        simp [hd]
      · refine nice_node (fun hp => hp.valD nd (List.mem_of_getElem? hd)) ⟨fun _ => ⟨nd, hd, rfl, rfl⟩, by simp⟩ ?_
        split
        · next hl =>
          refine ⟨rfl, ?_, fun _ => NoBrackets.balanced (by show NoBrackets "...".toList; decide), by simp⟩
          show _ = pend env m st 0 (true, d)
          simp only [pend, hd]
          rw [if_pos hl]; rfl
        · next hl =>
          refine ⟨rfl, ?_, fun _ => balanced_nil, by simp⟩
          show _ = pend env m st 0 (true, d)
          simp only [pend, hd]
          rw [if_neg hl]; rfl
    exact ⟨hz, toC 0 hz⟩
  | succ k ih =>
    have hs : ∀ (fuel d tabs : Nat) nd, 2 * (k + 1) < fuel → st.dn[d]? = some nd →
        ∃ ts, printD env m f st fuel (2 * ((k + 1 : Nat) : Int)) d tabs = some ts ∧ Nice f st ts (listed st (2 * (k + 1)) (true, d)) (pend env m st (2 * (k + 1)) (true, d)) := by
      intro fuel d tabs nd hf hd
      obtain ⟨fuel, rfl⟩ : ∃ n, fuel = n + 1 := ⟨fuel - 1, by omega⟩
      refine printD_step (xs := listed st (2 * k + 1)) (ys := pend env m st (2 * k + 1)) hd (by omega) ?_
      intro p hp
      obtain ⟨nc, h1, _⟩ := L.kD _ _ _ _ hd hp
      have := ih.2 fuel p.2 (tabs + 1) nc (by omega) h1
      rwa [show (2 * ((k + 1 : Nat) : Int) - 1) = 2 * (k : Int) + 1 by omega]
    exact ⟨hs, toC _ hs⟩

/-- With a negative depth everything below the node is printed.  `top` bounds the depth of all nodes. -/
theorem print_all (L : Linked st) {top : Int} (ht : ∀ (d : Nat) nd, st.dn[d]? = some nd → nd.depth ≤ top) (k : Nat) :
    ∀ (fuel d tabs : Nat) nd (depth : Int), 2 * k + 1 < fuel → depth < 0 → st.dn[d]? = some nd → top - nd.depth ≤ k →
      ∃ ts, printD env m f st fuel depth d tabs = some ts ∧ Nice f st ts (listed st (2 * k + 2) (true, d)) (pend env m st (2 * k + 2) (true, d)) := by
  induction k with
  | zero =>
    intro fuel d tabs nd depth hf hz hd hk
    obtain ⟨fuel, rfl⟩ : ∃ n, fuel = n + 1 := ⟨fuel - 1, by omega⟩
    refine printD_step (xs := listed st 1) (ys := pend env m st 1) hd (by omega) ?_
    intro p hp
    obtain ⟨nc, h1, h2⟩ := L.kD _ _ _ _ hd hp
    obtain ⟨fuel, rfl⟩ : ∃ n, fuel = n + 1 := ⟨fuel - 1, by omega⟩
    refine printC_step (xs := listed st 0) (ys := pend env m st 0) h1 ?_
    intro q hq
    obtain ⟨nd', h3, h4⟩ := L.kC _ _ _ _ h1 hq
    have := ht _ _ h3
    omega
  | succ k ih =>
    intro fuel d tabs nd depth hf hz hd hk
    obtain ⟨fuel, rfl⟩ : ∃ n, fuel = n + 1 := ⟨fuel - 1, by omega⟩
    refine printD_step (xs := listed st (2 * k + 3)) (ys := pend env m st (2 * k + 3)) hd (by omega) ?_
    intro p hp
    obtain ⟨nc, h1, h2⟩ := L.kD _ _ _ _ hd hp
    obtain ⟨fuel, rfl⟩ : ∃ n, fuel = n + 1 := ⟨fuel - 1, by omega⟩
    refine printC_step (xs := listed st (2 * k + 2)) (ys := pend env m st (2 * k + 2)) h1 ?_
    intro q hq
    obtain ⟨nd', h3, h4⟩ := L.kC _ _ _ _ h1 hq
    exact ih fuel q.2 _ nd' _ (by omega) (by omega) h3 (by omega)

end

end Verif.Print
