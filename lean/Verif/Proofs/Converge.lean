import Verif.Proofs.Explore
import Verif.Proofs.Flow
import Verif.Proofs.Game

/-! # Convergence of UCT in deterministic games -/

namespace Verif.Uct

open Verif.Search Verif.Backups

set_option linter.unusedSectionVars false

/-! ## Sums and deviations -/

theorem msum_abs_le {K : ℝ} (p : Multiset ℝ) (h : ∀ x ∈ p, |x| ≤ K) : |p.sum| ≤ p.card * K := by
  induction p using Multiset.induction with
  | empty => simp
  | cons a s ih =>
    have h1 := ih (fun x hx => h x (Multiset.mem_cons_of_mem hx))
    have h2 := h a (Multiset.mem_cons_self a s)
    rw [Multiset.sum_cons, Multiset.card_cons]
    push_cast
    have := abs_add_le a s.sum
    linarith

/-- Removing a few bounded values changes a sum's deviation from a multiple of `W` only a little. -/
theorem dev_transfer {s p t : Multiset ℝ} (h : s + p = t) {k : Nat} (hk : p.card ≤ k) {K W e c : ℝ} (he : 0 ≤ e) (hK : 0 ≤ K)
    (hp : ∀ x ∈ p, |x| ≤ K) (ht : |t.sum - t.card * W| ≤ e * t.card + c) :
    |s.sum - s.card * W| ≤ e * s.card + (e * k + c + k * (K + |W|)) := by
  subst h
  rw [Multiset.sum_add, Multiset.card_add] at ht
  push_cast at ht
  have h1 := msum_abs_le p hp
  have hkk : (p.card : ℝ) ≤ k := by exact_mod_cast hk
  have h2 : |(p.card : ℝ) * W| ≤ k * |W| := by
    rw [abs_mul, Nat.abs_cast]
    exact mul_le_mul_of_nonneg_right hkk (abs_nonneg _)
  have h3 : (p.card : ℝ) * K ≤ k * K := mul_le_mul_of_nonneg_right hkk hK
  have h4 : e * (p.card : ℝ) ≤ e * k := mul_le_mul_of_nonneg_left hkk he
  rw [abs_le] at ht h1 h2 ⊢
  constructor <;> nlinarith

theorem dev_shift {t : Multiset ℝ} {W r e c : ℝ} (ht : |t.sum - t.card * W| ≤ e * t.card + c) :
    |(t.map (· + r)).sum - (t.map (· + r)).card * (r + W)| ≤ e * (t.map (· + r)).card + c := by
  have : (t.map (· + r)).sum = t.sum + t.card * r := by
    rw [Multiset.sum_map_add]; simp
  rw [this, Multiset.card_map]
  have e1 : t.sum + t.card * r - t.card * (r + W) = t.sum - t.card * W := by ring
  rw [e1]; exact ht

theorem abs_list_sum {α : Type} (f : α → ℝ) (C : ℝ) (l : List α) (h : ∀ a ∈ l, |f a| ≤ C) : |(l.map f).sum| ≤ l.length * C := by
  induction l with
  | nil => simp
  | cons a l ih =>
    have h1 := ih (fun b hb => h b (List.mem_cons_of_mem _ hb))
    have h2 := h a (by simp)
    simp only [List.map_cons, List.sum_cons, List.length_cons]
    push_cast
    have := abs_add_le (f a) (l.map f).sum
    linarith

theorem coe_sum_list {α : Type} (f : α → Multiset ℝ) (l : List α) : ((l.map f).sum).sum = (l.map fun a => (f a).sum).sum := by
  induction l with
  | nil => simp
  | cons a l ih => simp only [List.map_cons, List.sum_cons, Multiset.sum_add, ih]

theorem coe_card_list {α : Type} (f : α → Multiset ℝ) (l : List α) : ((l.map f).sum).card = (l.map fun a => (f a).card).sum := by
  induction l with
  | nil => simp
  | cons a l ih => simp only [List.map_cons, List.sum_cons, Multiset.card_add, ih]

/-! ## Counting -/

section
variable {S A R X Y : Type} [DecidableEq S] [DecidableEq A] [AddMonoid R] {env : Env S A R} {m : Manager S R} {alg : Alg S A R X Y}
  {k : Nat} {s0 : S} {dp tm : Int} {tb : List ((Int × S) × Option Nat)} {st : St S A R X Y} {h : List (Event S A R)}

/-- A trial passes every chance node at most once. -/
theorem path_once (T : Tree env m s0 dp tm st) {ss : List (Step S A R)} {e : Nat} (B : Base env m st ss e) (c : Nat) :
    (pairs ss).countP (fun p => p.2 == c) ≤ 1 := by
  have hnd : (ss.map Step.c).Nodup := by
    rw [List.nodup_iff_getElem?_ne_getElem?]
    intro i j hij hj heq
    rw [List.getElem?_map, List.getElem?_map] at heq
    rw [List.length_map] at hj
    rw [List.getElem?_eq_getElem hj, List.getElem?_eq_getElem (by omega)] at heq
    simp only [Option.map_some, Option.some.injEq] at heq
    obtain ⟨nd1, g1, g2⟩ := (base_depth T B).2 i ss[i] (List.getElem?_eq_getElem (by omega))
    obtain ⟨nd2, g3, g4⟩ := (base_depth T B).2 j ss[j] (List.getElem?_eq_getElem hj)
    have p1 := (isPath_mem B.1 ss[i] (List.getElem_mem _)).1
    have p2 := (isPath_mem B.1 ss[j] (List.getElem_mem _)).1
    obtain ⟨n1, c1, q1, q2, _, _, _, q3, _⟩ := childC_facts T p1
    obtain ⟨n2, c2, r1, r2, _, _, _, r3, _⟩ := childC_facts T p2
    rw [g1] at q1; simp at q1; subst q1
    rw [g3] at r1; simp at r1; subst r1
    rw [heq, r2] at q2; simp at q2; subst q2
    omega
  have h1 := List.nodup_iff_count_le_one.1 hnd c
  rw [List.count, List.countP_map] at h1
  unfold pairs
  rw [List.countP_map]
  exact h1

theorem pendC_le (I : Inv env m s0 dp tm st h) {w : Nat} {p : Phase S A R} (hw : st.ws[w]? = some p) (c : Nat) : p.pendC c ≤ 1 := by
  have H := I.ws w p hw
  cases p with
  | idle => simp [Phase.pendC]
  | sel cur path rs new =>
    obtain ⟨h1, rfl, _⟩ := H
    exact path_once I.tree h1 c
  | samp cur a c' path rs new =>
    obtain ⟨h1, rfl, _⟩ := H
    exact path_once I.tree h1 c
  | back nodes before after ret tot =>
    obtain ⟨e, hv, j, _, _, h1, _, rfl, _⟩ := H
    exact ((List.take_sublist j _).countP_le).trans (path_once I.tree h1 c)
  | backD d nodes before after ret tot =>
    obtain ⟨e, hv, j, s, _, _, _, h1, _, rfl, _⟩ := H
    exact ((List.take_sublist j _).countP_le).trans (path_once I.tree h1 c)

/-- The backups of a chance node are its selections, up to the trials that are being made. -/
theorem returns_near (hv : alg.Valid) (htb : Leftover tb) (hr : Reachable env m alg k s0 dp tm tb st h) (c : Nat) :
    (returnsC c h).length ≤ h.countP (Event.selVia c) ∧ h.countP (Event.selVia c) ≤ (returnsC c h).length + 2 * k := by
  obtain ⟨I, C⟩ := reach_both hv htb hr
  obtain ⟨B, _⟩ := reach_bk hr
  have h1 := B.c c
  have h2 := C.v3 c
  have h3 := List.countP_le_length (p := Phase.inSamp c) (l := st.ws)
  have h4 := reach_len hr
  have h5 : (st.ws.map (Phase.pendC c)).sum ≤ st.ws.length * 1 := by
    apply sum_le_of
    intro p hp
    obtain ⟨i, hi⟩ := List.mem_iff_getElem?.1 hp
    exact pendC_le I hi c
  omega

end

/-! ## The best value -/

theorem bestOf_spec {opp : Bool} {l : List ℝ} (hl : l ≠ []) :
    bestOf opp l ∈ l ∧ ∀ x ∈ l, (if opp then -1 else 1) * x ≤ (if opp then -1 else 1) * bestOf opp l := by
  unfold bestOf
  cases opp with
  | true =>
    simp only [if_true]
    obtain ⟨v, hv⟩ : ∃ v, l.min? = some v := by
      cases hm : l.min? with
      | none => rw [List.min?_eq_none_iff] at hm; exact absurd hm hl
      | some v => exact ⟨v, rfl⟩
    rw [hv]
    obtain ⟨h1, h2⟩ := List.min?_eq_some_iff.1 hv
    exact ⟨h1, fun x hx => by have := h2 x hx; simp only [Option.getD_some]; linarith⟩
  | false =>
    simp only [Bool.false_eq_true, if_false]
    obtain ⟨v, hv⟩ : ∃ v, l.max? = some v := by
      cases hm : l.max? with
      | none => rw [List.max?_eq_none_iff] at hm; exact absurd hm hl
      | some v => exact ⟨v, rfl⟩
    rw [hv]
    obtain ⟨h1, h2⟩ := List.max?_eq_some_iff.1 hv
    exact ⟨h1, fun x hx => by have := h2 x hx; simp only [Option.getD_some]; linarith⟩

section
variable {S A : Type} [DecidableEq S] [DecidableEq A] {env : Env S A ℝ} {m : Manager S ℝ} {cfg : Cfg S A ℝ} {k : Nat} {dp : Int}
  {st : St S A ℝ (Stats ℝ) (Stats ℝ)} {h : List (Event S A ℝ)} {next : S → A → S} {lo hi : ℝ}

/-- A search of this configuration, from any root state. -/
def Run (env : Env S A ℝ) (m : Manager S ℝ) (cfg : Cfg S A ℝ) (k : Nat) (dp : Int) (st : St S A ℝ (Stats ℝ) (Stats ℝ))
    (h : List (Event S A ℝ)) : Prop :=
  ∃ s0 tm tb, Leftover tb ∧ Reachable env m (uct cfg m) k s0 dp tm tb st h

/-- The value of an action. -/
noncomputable def actValue (env : Env S A ℝ) (m : Manager S ℝ) (next : S → A → S) (n : Nat) (t : Int) (s : S) (a : A) : ℝ :=
  env.reward s a (next s a) + gameValue env m next n (t + 1) (next s a)

theorem ret_abs (hb : Bounded env m lo hi) (R : Run env m cfg k dp st h) (c : Nat) : ∀ x ∈ returnsC c h, |x| ≤ absBound m lo hi dp := by
  obtain ⟨s0, tm, tb, htb, hr⟩ := R
  intro x hx
  have I := reach_inv (uct_valid cfg m) htb hr
  obtain ⟨_, T⟩ := reach_bk hr
  unfold returnsC at hx
  rw [List.mem_filterMap] at hx
  obtain ⟨e, he, hx'⟩ := hx
  have hlt : c < st.cn.length := by
    apply T.c e he c
    cases e <;> simp at hx'
    simp [Event.touchesC, hx'.1]
  obtain ⟨nc, hc⟩ : ∃ nc, st.cn[c]? = some nc := ⟨_, List.getElem?_eq_getElem hlt⟩
  have h1 := (c40_returns_bounded hb (uct_valid cfg m) htb hr).2 c nc hc x (by
    unfold returnsC; rw [List.mem_filterMap]; exact ⟨e, he, hx'⟩)
  refine within_abs hb ?_ h1
  obtain ⟨i, ds, g1, g2⟩ := I.tree.heap.cPar c nc.skel (by simp [hc])
  simp at g1
  obtain ⟨nd, g1, rfl⟩ := g1
  obtain ⟨nd2, nc2, q1, q2, _, _, _, q3, _⟩ := childC_facts I.tree (childC_of_mem I.tree g1 g2)
  rw [hc] at q2; simp at q2; subst q2
  have := (I.tree.heap.dTime i nd2.skel (by simp [q1])).2
  simp only [DNode.skel] at this
  omega

theorem heur_abs (hb : Bounded env m lo hi) (s : S) (dp : Int) : |heurOf env m s| ≤ absBound m lo hi dp := by
  obtain ⟨h1, h2⟩ := hb.heur s
  have h0 : 0 ≤ max (-lo) hi := hb.hi0.trans (le_max_right _ _)
  have : |heurOf env m s| ≤ max (-lo) hi := by
    rw [abs_le]
    constructor
    · have := le_max_left (-lo) hi; linarith
    · exact h2.trans (le_max_right _ _)
  refine this.trans ?_
  unfold absBound
  have hn : (0:ℝ) ≤ remaining m dp := by positivity
  nlinarith

theorem below_abs (hb : Bounded env m lo hi) (R : Run env m cfg k dp st h) {d : Nat} {nd : DNode S A ℝ (Stats ℝ)}
    (hd : st.dn[d]? = some nd) : ∀ x ∈ below d nd h, |x| ≤ absBound m lo hi dp := by
  intro x hx
  unfold below at hx
  rw [Multiset.mem_add] at hx
  rcases hx with hx | hx
  · have : ∀ l : List (A × Nat), x ∈ (l.map fun p => (returnsC p.2 h : Multiset ℝ)).sum → ∃ p ∈ l, x ∈ returnsC p.2 h := by
      intro l
      induction l with
      | nil => simp
      | cons p l ih =>
        intro hx
        rw [List.map_cons, List.sum_cons, Multiset.mem_add] at hx
        rcases hx with hx | hx
        · exact ⟨p, by simp, by simpa using hx⟩
        · obtain ⟨q, h1, h2⟩ := ih hx
          exact ⟨q, by simp [h1], h2⟩
    obtain ⟨p, _, hp⟩ := this _ hx
    exact ret_abs hb R p.2 x hp
  · have := Multiset.eq_of_mem_replicate hx
    obtain ⟨s0, tm, tb, htb, hr⟩ := R
    have I := reach_inv (uct_valid cfg m) htb hr
    have hh : nd.heur = heurOf env m nd.state := I.tree.heap.dHeur d nd.skel (by simp [hd])
    rw [this, hh]
    exact heur_abs hb _ _

/-- The successor of a chance node in a deterministic environment. -/
theorem det_child (hdet : ∀ s a, a ∈ env.actions s → env.succ s a = [next s a]) (R : Run env m cfg k dp st h) {d c : Nat} {a : A}
    {nd : DNode S A ℝ (Stats ℝ)} (hd : st.dn[d]? = some nd) (hc : childC st d a = some c) :
    ∃ nc, st.cn[c]? = some nc ∧ nc.state = nd.state ∧ nc.action = a ∧ a ∈ env.actions nd.state ∧
      ((nc.kids = [] ∧ returnsC c h = []) ∨
       ∃ d' nd', nc.kids = [(next nd.state a, d')] ∧ st.dn[d']? = some nd' ∧ nd'.state = next nd.state a ∧ nd'.depth = nd.depth + 1 ∧
         nd'.time = nd.time + 1) := by
  obtain ⟨s0, tm, tb, htb, hr⟩ := R
  obtain ⟨I, C⟩ := reach_both (uct_valid cfg m) htb hr
  obtain ⟨B, _⟩ := reach_bk hr
  obtain ⟨nd1, nc, k1, k2, k3, k4, k5, k6, k7, k8⟩ := childC_facts I.tree hc
  rw [hd] at k1; simp at k1; subst k1
  refine ⟨nc, k2, k4, k5, k8, ?_⟩
  have hobs : ∀ p ∈ nc.kids, p.1 = next nd.state a := by
    rintro ⟨o, i⟩ hp
    have := I.tree.heap.cObs c nc.skel o i (by simp [k2]) hp
    simp only [CNode.skel] at this
    rw [k4, k5, hdet _ _ k8] at this
    simpa using this
  have hnd := I.tree.heap.cNodup c nc.skel (by simp [k2])
  simp only [CNode.skel] at hnd
  cases hk : nc.kids with
  | nil =>
    left
    refine ⟨rfl, ?_⟩
    have h1 := B.c c
    have h0 : h.countP (Event.stepVia c) = 0 := by
      apply countP_zero_of
      intro e he
      cases e <;> simp [Event.stepVia]
      rename_i w d1 a1 c1 o d' r g
      rintro rfl
      obtain ⟨nc', _, g1, _, g2, _⟩ := childD_facts I.tree (C.evStep w d1 a1 c1 o d' r g he).1
      rw [k2] at g1; simp at g1; subst g1
      rw [hk] at g2; simp at g2
    exact List.length_eq_zero_iff.1 (by omega)
  | cons p l =>
    right
    have hl : l = [] := by
      cases l with
      | nil => rfl
      | cons q l =>
        have e1 := hobs p (by rw [hk]; simp)
        have e2 := hobs q (by rw [hk]; simp)
        rw [hk] at hnd
        simp [e1, e2] at hnd
    subst hl
    obtain ⟨o, d'⟩ := p
    have e1 : o = next nd.state a := hobs (o, d') (by rw [hk]; simp)
    subst e1
    obtain ⟨nc', nd', g1, g2, g3, g4, g5, g6, _⟩ := 
      childD_facts I.tree (childD_of_mem I.tree k2 (o := next nd.state a) (d := d') (by rw [hk]; simp))
    rw [k2] at g1; simp at g1; subst g1
    exact ⟨d', nd', rfl, g2, g4, by omega, by omega⟩

/-- The values coming up to nodes of state `s` at time `t` with `n` moves to go are, but for a vanishing share, worth the game's
value. -/
def DevD (env : Env S A ℝ) (m : Manager S ℝ) (cfg : Cfg S A ℝ) (k : Nat) (dp : Int) (next : S → A → S) (n : Nat) (t : Int) (s : S) : Prop :=
  ∀ ε : ℝ, 0 < ε → ∃ K : ℝ, 0 ≤ K ∧ ∀ (st : St S A ℝ (Stats ℝ) (Stats ℝ)) (h : List (Event S A ℝ)), Run env m cfg k dp st h →
    ∀ (d : Nat) nd, st.dn[d]? = some nd → nd.state = s → nd.time = t → remaining m nd.depth = n →
      |(below d nd h).sum - (below d nd h).card * gameValue env m next n t s| ≤ ε * (below d nd h).card + K

/-- The same for the returns of the chance node of an action. -/
def DevC (env : Env S A ℝ) (m : Manager S ℝ) (cfg : Cfg S A ℝ) (k : Nat) (dp : Int) (next : S → A → S) (n : Nat) (t : Int) (s : S)
    (a : A) : Prop :=
  ∀ ε : ℝ, 0 < ε → ∃ K : ℝ, 0 ≤ K ∧ ∀ (st : St S A ℝ (Stats ℝ) (Stats ℝ)) (h : List (Event S A ℝ)), Run env m cfg k dp st h →
    ∀ (d : Nat) nd c, st.dn[d]? = some nd → nd.state = s → nd.time = t → remaining m nd.depth = n + 1 → childC st d a = some c →
      |(returnsC c h).sum - (returnsC c h).length * actValue env m next n t s a| ≤ ε * (returnsC c h).length + K

theorem devC_of (hdet : ∀ s a, a ∈ env.actions s → env.succ s a = [next s a]) (ht : m.useTable = false) (hb : Bounded env m lo hi)
    {n : Nat} {t : Int} {s : S} {a : A} (H : DevD env m cfg k dp next n (t + 1) (next s a)) : DevC env m cfg k dp next n t s a := by
  intro ε hε
  obtain ⟨K, hK, hD⟩ := H ε hε
  set r := env.reward s a (next s a) with hr0
  have hM0 := absBound_nonneg hb dp
  refine ⟨ε * k + K + k * ((absBound m lo hi dp + |r|) + |actValue env m next n t s a|), ?_, ?_⟩
  · have := abs_nonneg r
    have := abs_nonneg (actValue env m next n t s a)
    positivity
  intro st h R d nd c hd hs htm hrem hc
  obtain ⟨nc, k1, k2, k3, k4, hk⟩ := det_child hdet R hd hc
  rcases hk with ⟨_, hnil⟩ | ⟨d', nd', hk, hd', e1, e2, e3⟩
  · rw [hnil]
    have := abs_nonneg r
    have := abs_nonneg (actValue env m next n t s a)
    simp only [List.sum_nil, List.length_nil, Nat.cast_zero, zero_mul, sub_zero, abs_zero, mul_zero, zero_add]
    positivity
  · have h1 := hD st h R d' nd' hd' (by rw [e1, hs]) (by rw [e3, htm]) (by rw [e2]; unfold remaining at hrem ⊢; omega)
    have R' := R
    obtain ⟨s0, tm, tb, htb, hr⟩ := R
    obtain ⟨p, hp, heq⟩ := flow_chance (uct_valid cfg m) htb ht hr k1 hk hd'
    have hrr : env.reward nc.state nc.action (next nd.state a) = r := by rw [k2, k3, hs]
    rw [hrr] at heq
    have h2 := dev_shift (r := r) h1
    have hpb : ∀ x ∈ p, |x| ≤ absBound m lo hi dp + |r| := by
      intro x hx
      have hx' : x ∈ (below d' nd' h).map (· + r) := by rw [← heq]; exact Multiset.mem_add.2 (.inr hx)
      obtain ⟨y, hy, rfl⟩ := Multiset.mem_map.1 hx'
      exact (abs_add_le y r).trans (by have := below_abs hb R' hd' y hy; linarith)
    have h3 := dev_transfer heq hp hε.le (by have := abs_nonneg r; linarith) hpb h2
    simpa [actValue] using h3

/-! ## Suboptimal actions are rare -/

theorem run_sub {h1 h2 : List (Event S A ℝ)} {e : Event S A ℝ} (R : Run env m cfg k dp st h) (hh : h = h2 ++ e :: h1) :
    ∃ s1, Run env m cfg k dp s1 h1 := by
  obtain ⟨s0, tm, tb, htb, hr⟩ := R
  obtain ⟨s1, s2, w, g1, _⟩ := reach_prefix hr hh
  exact ⟨s1, s0, tm, tb, htb, g1⟩

/-- Every action is eventually backed up as often as one likes. -/
theorem backed_often (F : Fair env cfg) (hb : Bounded env m lo hi) (hg : Growing cfg.term) (k : Nat) (dp : Int) (s : S) (B : Nat) :
    ∃ N0 : Nat, ∀ (st : St S A ℝ (Stats ℝ) (Stats ℝ)) (h : List (Event S A ℝ)), Run env m cfg k dp st h → ∀ (d : Nat) nd,
      st.dn[d]? = some nd → nd.state = s → N0 ≤ trialsThrough d h → ∀ b ∈ env.actions s, B ≤ timesSelected d b h ∧
        (0 < B → ∃ c nc, childC st d b = some c ∧ st.cn[c]? = some nc ∧ B ≤ (returnsC c h).length + 2 * k ∧ B ≤ nc.visits + k) := by
  obtain ⟨K, hK⟩ := starve_bound F hb hg dp s B k
  refine ⟨(env.actions s).length * K + 1, ?_⟩
  intro st h R d nd hd hs hN b hbm
  obtain ⟨s0, tm, tb, htb, hr⟩ := R
  obtain ⟨I, C⟩ := reach_both (uct_valid cfg m) htb hr
  have hB : B ≤ timesSelected d b h := by
    by_contra hcon
    have h1 := hK s0 tm tb st h htb hr d nd hd hs b hbm (by omega)
    have h2 := sum_le_of (fun p : A × Nat => timesSelected d p.1 h) K nd.kids (fun p _ => h1 p.1)
    rw [← trials_sum I C hd] at h2
    have h3 := kids_le I hd
    rw [hs] at h3
    have := Nat.mul_le_mul_right K h3
    omega
  refine ⟨hB, fun hB0 => ?_⟩
  cases hc : childC st d b with
  | none => rw [timesSelected_none C hc] at hB; omega
  | some c =>
    obtain ⟨nd1, nc, g1, g2, _⟩ := childC_facts I.tree hc
    have h1 := (returns_near (uct_valid cfg m) htb hr c).2
    have h2 := timesSelected_eq I C hc
    have h3 := C.v2 c nc g2
    have h4 := C.v3 c
    have h5 := List.countP_le_length (p := Phase.inSamp c) (l := st.ws)
    have h6 := reach_len hr
    exact ⟨c, nc, rfl, g2, by omega, by omega⟩

/-- The average of a chance node that has been backed up often is close to the action's value. -/
theorem avg_close {n : Nat} {t : Int} {s : S} {a : A} (H : DevC env m cfg k dp next n t s a) {ε : ℝ} (hε : 0 < ε) :
    ∃ B : Nat, 0 < B ∧ ∀ (st : St S A ℝ (Stats ℝ) (Stats ℝ)) (h : List (Event S A ℝ)), Run env m cfg k dp st h → ∀ (d : Nat) nd c nc,
      st.dn[d]? = some nd → nd.state = s → nd.time = t → remaining m nd.depth = n + 1 → childC st d a = some c → st.cn[c]? = some nc →
      B ≤ (returnsC c h).length → |nc.y.avg - actValue env m next n t s a| ≤ ε := by
  obtain ⟨K, hK, hC⟩ := H (ε / 2) (by linarith)
  obtain ⟨B, hB⟩ := exists_nat_ge (K / (ε / 2))
  refine ⟨B + 1, by omega, ?_⟩
  intro st h R d nd c nc hd hs htm hrem hc hnc hBl
  have h1 := hC st h R d nd c hd hs htm hrem hc
  obtain ⟨s0, tm, tb, htb, hr⟩ := R
  have hne : returnsC c h ≠ [] := by intro h0; rw [h0] at hBl; simp at hBl
  rw [(c27_chance_average hr hnc).2 hne]
  have hl : (B : ℝ) + 1 ≤ (returnsC c h).length := by exact_mod_cast hBl
  have hl0 : (0 : ℝ) < (returnsC c h).length := by
    have : (0:ℝ) ≤ B := by positivity
    linarith
  have e1 : (returnsC c h).sum / ((returnsC c h).length : ℝ) - actValue env m next n t s a =
      ((returnsC c h).sum - (returnsC c h).length * actValue env m next n t s a) / (returnsC c h).length := by
    field_simp
  rw [e1, abs_div, Nat.abs_cast, div_le_iff₀ hl0]
  rw [div_le_iff₀ (by linarith)] at hB
  nlinarith

/-- A suboptimal action gets a vanishing share of the selections. -/
theorem rare (F : Fair env cfg) (hb : Bounded env m lo hi) (hg : Growing cfg.term) (hvn : Vanishing cfg.term) (ht : m.useTable = false)
    {n : Nat} {t : Int} {s : S} (H : ∀ a ∈ env.actions s, DevC env m cfg k dp next n t s a) {a b : A} (ha : a ∈ env.actions s)
    (hbm : b ∈ env.actions s)
    (hlt : (if isOpponent m t then -1 else 1) * actValue env m next n t s b <
      (if isOpponent m t then -1 else 1) * actValue env m next n t s a) {δ : ℝ} (hδ : 0 < δ) :
    ∃ K : ℝ, 0 ≤ K ∧ ∀ (st : St S A ℝ (Stats ℝ) (Stats ℝ)) (h : List (Event S A ℝ)), Run env m cfg k dp st h →
      ∀ (d : Nat) nd, st.dn[d]? = some nd → nd.state = s → nd.time = t → remaining m nd.depth = n + 1 →
        timesSelected d b h ≤ δ * trialsThrough d h + K := by
  obtain ⟨plo, phi, hp0, hp1, hp⟩ := list_bounds (priorOf cfg s) (env.actions s) (priorOf_pos F s)
  set M := absBound m lo hi dp with hMdef
  have hM0 : 0 ≤ M := absBound_nonneg hb dp
  set β0 : ℝ := if cfg.bias = -1 then 1 / 1000 else cfg.bias with hβ0def
  have hβ0 : 0 < β0 := bias0_pos F
  set β1 : ℝ := if cfg.bias = -1 then max (1 / 1000) M else cfg.bias with hβ1def
  set σ : ℝ := if isOpponent m t then -1 else 1 with hσ
  have hσabs : ∀ x : ℝ, |σ * x| = |x| := by
    intro x
    rw [hσ]
    split <;> simp
  set Δ := σ * actValue env m next n t s a - σ * actValue env m next n t s b with hΔ
  have hΔ0 : 0 < Δ := by linarith
  obtain ⟨Ba, hBa0, hBa⟩ := avg_close (H a ha) (ε := Δ / 4) (by linarith)
  obtain ⟨Bb, hBb0, hBb⟩ := avg_close (H b hbm) (ε := Δ / 4) (by linarith)
  obtain ⟨N0, hN0⟩ := backed_often F hb hg k dp s (max Ba Bb + 2 * k)
  have hβ01 : β0 ≤ β1 := by
    rw [hβ0def, hβ1def]
    split
    · exact le_max_left _ _
    · exact le_refl _
  have hβ1 : 0 < β1 := lt_of_lt_of_le hβ0 hβ01
  have hphi : 0 < phi := lt_of_lt_of_le hp0 hp1
  obtain ⟨N2, hN2⟩ := hvn (Δ / 2 / (phi * β1)) δ (by positivity) hδ
  set P : ℝ := ((uct cfg m).initVisits : ℝ) + 2 with hP
  have hP0 : 0 ≤ P := by positivity
  refine ⟨((max N0 N2 : Nat) : ℝ) + δ * P + k + 1, by positivity, ?_⟩
  intro st h R d nd hd hs htm hrem
  have R0 := R
  obtain ⟨s0, tm, tb, htb, hr⟩ := R
  have gen : ∀ h1 h2 : List (Event S A ℝ), h = h2 ++ h1 →
      (timesSelected d b h1 : ℝ) ≤ δ * trialsThrough d h1 + (((max N0 N2 : Nat) : ℝ) + δ * P + k + 1) := by
    intro h1
    induction h1 with
    | nil => intro h2 _; simp [timesSelected, trialsThrough]; positivity
    | cons e h1 ih =>
      intro h2 hh
      have ih' := ih (h2 ++ [e]) (by simp [hh])
      have hmono : trialsThrough d h1 ≤ trialsThrough d (e :: h1) := by
        unfold trialsThrough; rw [List.countP_cons]; omega
      have hmono' : δ * (trialsThrough d h1 : ℝ) ≤ δ * trialsThrough d (e :: h1) :=
        mul_le_mul_of_nonneg_left (by exact_mod_cast hmono) hδ.le
      by_cases he : ∃ w c, e = .selected w d b c
      · obtain ⟨w, c, rfl⟩ := he
        have hc : timesSelected d b (.selected w d b c :: h1) = timesSelected d b h1 + 1 := by
          unfold timesSelected; rw [List.countP_cons]; simp
        rw [hc, Nat.cast_add, Nat.cast_one]
        by_cases hn : max N0 N2 ≤ trialsThrough d h1
        · -- late enough: `b` must have few visits
          obtain ⟨s1, nd1, nd', r1, d1, d2, e1, e2, e3, hl, hact, hsc⟩ := selected_at F htb hr hh
          rw [hd] at d2; simp at d2; subst d2
          rw [hs] at e1; rw [htm] at e3
          have R1 : Run env m cfg k dp s1 h1 := ⟨s0, tm, tb, htb, r1⟩
          obtain ⟨I, C⟩ := reach_both (uct_valid cfg m) htb r1
          obtain ⟨vb1, vb2⟩ := visits_near htb r1 d1 (nd' := { nd1 with visits := nd1.visits + 1 }) rfl b
          rcases hsc _ rfl with ⟨_, _, hnone⟩ | hsc
          · rw [timesSelected_none C hnone]
            have : 0 ≤ δ * (trialsThrough d (.selected w d b c :: h1) : ℝ) := by positivity
            have : 0 ≤ δ * P := by positivity
            simp only [Nat.cast_zero]
            have : (0:ℝ) ≤ ((max N0 N2 : Nat) : ℝ) := by positivity
            have : (0:ℝ) ≤ k := by positivity
            linarith
          · set v := viewOf env m s1 { nd1 with visits := nd1.visits + 1 } with hvdef
            have hvis : v.visits = nd1.visits + 1 := rfl
            have hv1 := C.v1 d nd1 d1
            have hends := ends_le_one (uct_valid cfg m) htb ht r1 d1 hl
            rw [← trials_eq] at hv1
            have hvN : N2 ≤ v.visits := by omega
            have hsmall : (visitsOf v b : ℝ) < δ * v.visits := by
              by_contra hge
              have hterm := hN2 v.visits hvN (visitsOf v b) (not_lt.1 hge)
              have hscore := hsc a (by rw [← e1]; exact ha)
              unfold score at hscore
              have hopp : v.opp = isOpponent m t := by rw [hvdef, e3]; rfl
              rw [hopp, ← e1, ← hσ] at hscore
              have hrem1 : remaining m nd1.depth = n + 1 := by rw [← e2]; exact hrem
              have hof := fun x hx => (hN0 s1 h1 R1 d nd1 d1 e1.symm (le_trans (le_max_left _ _) hn) x hx).2 (by omega)
              obtain ⟨ca, nca, ga1, ga2, ga3, _⟩ := hof a ha
              obtain ⟨cb, ncb, gb1, gb2, gb3, _⟩ := hof b hbm
              have hA := hBa s1 h1 R1 d nd1 ca nca d1 e1.symm e3.symm hrem1 ga1 ga2 (by omega)
              have hB' := hBb s1 h1 R1 d nd1 cb ncb d1 e1.symm e3.symm hrem1 gb1 gb2 (by omega)
              have vA : avgOf v a = nca.y.avg := by
                rw [hvdef, (avgOf_view I.tree d1 (nd' := { nd1 with visits := nd1.visits + 1 }) rfl a).1, ga1]; simp [ga2]
              have vB : avgOf v b = ncb.y.avg := by
                rw [hvdef, (avgOf_view I.tree d1 (nd' := { nd1 with visits := nd1.visits + 1 }) rfl b).1, gb1]; simp [gb2]
              have hbias := bias_bounds F (v := v) (M := M)
                (fun a => avgOf_bound hb htb r1 d1 (nd' := { nd1 with visits := nd1.visits + 1 }) rfl a)
              rw [← hβ0def, ← hβ1def] at hbias
              rw [vA, vB] at hscore
              have sA : |σ * nca.y.avg - σ * actValue env m next n t s a| ≤ Δ / 4 := by rw [← mul_sub, hσabs]; exact hA
              have sB : |σ * ncb.y.avg - σ * actValue env m next n t s b| ≤ Δ / 4 := by rw [← mul_sub, hσabs]; exact hB'
              rw [abs_le] at sA sB
              have hta := hg.1 v.visits (visitsOf v a)
              have htb' := hg.1 v.visits (visitsOf v b)
              obtain ⟨pa1, pa2⟩ := hp a ha
              obtain ⟨pb1, pb2⟩ := hp b hbm
              have q1 : 0 ≤ priorOf cfg s a * biasOf cfg v * cfg.term v.visits (visitsOf v a) :=
                mul_nonneg (mul_nonneg (hp0.le.trans pa1) (hβ0.le.trans hbias.1)) hta
              have q2 : priorOf cfg s b * biasOf cfg v * cfg.term v.visits (visitsOf v b) < Δ / 2 := by
                have h0 : priorOf cfg s b * biasOf cfg v ≤ phi * β1 :=
                  mul_le_mul pb2 hbias.2 (hβ0.le.trans hbias.1) hphi.le
                calc _ ≤ phi * β1 * cfg.term v.visits (visitsOf v b) := mul_le_mul_of_nonneg_right h0 htb'
                  _ < phi * β1 * (Δ / 2 / (phi * β1)) := by
                    apply mul_lt_mul_of_pos_left hterm; positivity
                  _ = Δ / 2 := by field_simp
              linarith [sA.1, sB.2]
            have hvr : (v.visits : ℝ) ≤ trialsThrough d h1 + P := by
              have : v.visits ≤ trialsThrough d h1 + ((uct cfg m).initVisits + 2) := by omega
              rw [hP]; exact_mod_cast this
            have h5 : (timesSelected d b h1 : ℝ) ≤ visitsOf v b + k := by exact_mod_cast vb2
            have h6 : δ * (v.visits : ℝ) ≤ δ * (trialsThrough d h1 + P) := mul_le_mul_of_nonneg_left hvr hδ.le
            have : (0:ℝ) ≤ ((max N0 N2 : Nat) : ℝ) := by positivity
            nlinarith
        · have h7 : timesSelected d b h1 ≤ trialsThrough d h1 := by
            unfold timesSelected trialsThrough
            apply List.countP_mono_left
            intro e _
            cases e <;> simp
            intro h _; exact h
          have h8 : (timesSelected d b h1 : ℝ) ≤ ((max N0 N2 : Nat) : ℝ) := by exact_mod_cast (by omega)
          have : 0 ≤ δ * (trialsThrough d (.selected w d b c :: h1) : ℝ) := by positivity
          have : 0 ≤ δ * P := by positivity
          have : (0:ℝ) ≤ k := by positivity
          linarith
      · have hc : timesSelected d b (e :: h1) = timesSelected d b h1 := by
          unfold timesSelected
          rw [List.countP_cons, if_neg]
          · rfl
          · intro hx
            cases e <;> simp at hx
            obtain ⟨rfl, rfl⟩ := hx
            exact he ⟨_, _, rfl⟩
        rw [hc]
        linarith
  exact gen h [] (by simp)

/-! ## The induction -/

theorem uniformK {α : Type} (l : List α) (P : α → ℝ → Prop) (hmono : ∀ a K K', K ≤ K' → P a K → P a K')
    (H : ∀ a ∈ l, ∃ K : ℝ, 0 ≤ K ∧ P a K) : ∃ K : ℝ, 0 ≤ K ∧ ∀ a ∈ l, P a K := by
  induction l with
  | nil => exact ⟨0, le_refl _, by simp⟩
  | cons a l ih =>
    obtain ⟨K1, h1, h2⟩ := ih (fun b hb => H b (by simp [hb]))
    obtain ⟨K2, h3, h4⟩ := H a (by simp)
    refine ⟨max K1 K2, h1.trans (le_max_left _ _), ?_⟩
    intro b hb
    rcases List.mem_cons.1 hb with rfl | hb
    · exact hmono _ _ _ (le_max_right _ _) h4
    · exact hmono _ _ _ (le_max_left _ _) (h2 b hb)

theorem leaf_dev (R : Run env m cfg k dp st h) {d : Nat} {nd : DNode S A ℝ (Stats ℝ)} (hd : st.dn[d]? = some nd)
    (hl : isLeaf env m nd = true) : (below d nd h).sum - (below d nd h).card * heurOf env m nd.state = 0 := by
  obtain ⟨s0, tm, tb, htb, hr⟩ := R
  have I := reach_inv (uct_valid cfg m) htb hr
  have hk : nd.kids = [] := I.tree.heap.dLeaf d nd.skel (by simp [hd]) hl
  have hh : nd.heur = heurOf env m nd.state := I.tree.heap.dHeur d nd.skel (by simp [hd])
  unfold below
  rw [hk, hh]
  simp

theorem act_dev (F : Fair env cfg) (hb : Bounded env m lo hi) (hg : Growing cfg.term) (hvn : Vanishing cfg.term) (ht : m.useTable = false)
    {n : Nat} {t : Int} {s : S} (H : ∀ a ∈ env.actions s, DevC env m cfg k dp next n t s a) (hsink : env.isSink s = false)
    {b : A} (hbm : b ∈ env.actions s) {ε : ℝ} (hε : 0 < ε) :
    ∃ K : ℝ, 0 ≤ K ∧ ∀ (st : St S A ℝ (Stats ℝ) (Stats ℝ)) (h : List (Event S A ℝ)), Run env m cfg k dp st h →
      ∀ (d : Nat) nd c, st.dn[d]? = some nd → nd.state = s → nd.time = t → remaining m nd.depth = n + 1 → childC st d b = some c →
        |(returnsC c h).sum - (returnsC c h).length * gameValue env m next (n + 1) t s| ≤ ε * trialsThrough d h + K := by
  have hlen : ∀ (st : St S A ℝ (Stats ℝ) (Stats ℝ)) (h : List (Event S A ℝ)), Run env m cfg k dp st h → ∀ (d c : Nat),
      childC st d b = some c → (returnsC c h).length ≤ timesSelected d b h ∧ timesSelected d b h ≤ trialsThrough d h := by
    intro st h R d c hc
    obtain ⟨s0, tm, tb, htb, hr⟩ := R
    obtain ⟨I, C⟩ := reach_both (uct_valid cfg m) htb hr
    refine ⟨by rw [timesSelected_eq I C hc]; exact (returns_near (uct_valid cfg m) htb hr c).1, ?_⟩
    unfold timesSelected trialsThrough
    apply List.countP_mono_left
    intro e _
    cases e <;> simp
    intro h _; exact h
  have hV : gameValue env m next (n + 1) t s = bestOf (isOpponent m t) ((env.actions s).map fun a => actValue env m next n t s a) := by
    simp [gameValue, hsink, actValue]
  set V := gameValue env m next (n + 1) t s with hVdef
  by_cases hq : actValue env m next n t s b = V
  · obtain ⟨K, hK, hC⟩ := H b hbm ε hε
    refine ⟨K, hK, ?_⟩
    intro st h R d nd c hd hs htm hrem hc
    have h1 := hC st h R d nd c hd hs htm hrem hc
    obtain ⟨h2, h3⟩ := hlen st h R d c hc
    rw [hq] at h1
    have : ε * ((returnsC c h).length : ℝ) ≤ ε * trialsThrough d h := mul_le_mul_of_nonneg_left (by exact_mod_cast h2.trans h3) hε.le
    linarith
  · obtain ⟨hmem, hbest⟩ := bestOf_spec (opp := isOpponent m t) (l := (env.actions s).map fun a => actValue env m next n t s a)
      (by intro h0; rw [List.map_eq_nil_iff] at h0; rw [h0] at hbm; simp at hbm)
    rw [← hV] at hmem hbest
    obtain ⟨a, ha, haV⟩ := List.mem_map.1 hmem
    have hle := hbest _ (List.mem_map.2 ⟨b, hbm, rfl⟩)
    have hlt : (if isOpponent m t then -1 else 1) * actValue env m next n t s b <
        (if isOpponent m t then -1 else 1) * actValue env m next n t s a := by
      rw [haV]
      refine lt_of_le_of_ne hle ?_
      intro h0
      apply hq
      split at h0 <;> linarith
    set M := absBound m lo hi dp with hMdef
    have hM0 : 0 ≤ M := absBound_nonneg hb dp
    have hVa := abs_nonneg V
    have hden : 0 < M + |V| + 1 := by linarith
    obtain ⟨K, hK, hR⟩ := rare F hb hg hvn ht H ha hbm hlt (δ := ε / (M + |V| + 1)) (by positivity)
    refine ⟨K * (M + |V| + 1), by positivity, ?_⟩
    intro st h R d nd c hd hs htm hrem hc
    have h1 := hR st h R d nd hd hs htm hrem
    obtain ⟨h2, h3⟩ := hlen st h R d c hc
    have h4 : |(returnsC c h).sum| ≤ (returnsC c h).length * M := by
      have := msum_abs_le (K := M) (returnsC c h : Multiset ℝ) (fun x hx => ret_abs hb R c x (by simpa using hx))
      simpa using this
    have h5 : |(returnsC c h).sum - (returnsC c h).length * V| ≤ (returnsC c h).length * (M + |V| + 1) := by
      have h6 := abs_sub (returnsC c h).sum ((returnsC c h).length * V)
      rw [abs_mul, Nat.abs_cast] at h6
      have : (0:ℝ) ≤ (returnsC c h).length := by positivity
      nlinarith
    have h7 : ((returnsC c h).length : ℝ) ≤ timesSelected d b h := by exact_mod_cast h2
    calc _ ≤ ((returnsC c h).length : ℝ) * (M + |V| + 1) := h5
      _ ≤ (ε / (M + |V| + 1) * trialsThrough d h + K) * (M + |V| + 1) := mul_le_mul_of_nonneg_right (h7.trans h1) hden.le
      _ = ε * trialsThrough d h + K * (M + |V| + 1) := by field_simp

theorem dev_step (F : Fair env cfg) (hb : Bounded env m lo hi) (hg : Growing cfg.term) (hvn : Vanishing cfg.term) (ht : m.useTable = false)
    {n : Nat} {t : Int} {s : S} (H : ∀ a ∈ env.actions s, DevC env m cfg k dp next n t s a) :
    DevD env m cfg k dp next (n + 1) t s := by
  intro ε hε
  cases hsink : env.isSink s with
  | true =>
    refine ⟨0, le_refl _, ?_⟩
    intro st h R d nd hd hs htm hrem
    have h1 := leaf_dev R hd (by simp [isLeaf, hs, hsink])
    have h2 : heurOf env m nd.state = 0 := by
      rw [hs]; unfold heurOf; cases m.heuristic <;> simp [hsink]
    rw [h2] at h1
    have h3 : gameValue env m next (n + 1) t s = 0 := by simp [gameValue, hsink]
    rw [h3, h1]
    simp only [abs_zero, add_zero]
    positivity
  | false =>
    set V := gameValue env m next (n + 1) t s with hVdef
    set L := (env.actions s).length with hL
    set ε' := ε / (L + 1) with hε'
    have hε'0 : 0 < ε' := by positivity
    obtain ⟨K, hK, hA⟩ := uniformK (env.actions s) (fun b K => ∀ (st : St S A ℝ (Stats ℝ) (Stats ℝ)) (h : List (Event S A ℝ)),
        Run env m cfg k dp st h → ∀ (d : Nat) nd c, st.dn[d]? = some nd → nd.state = s → nd.time = t → remaining m nd.depth = n + 1 →
        childC st d b = some c → |(returnsC c h).sum - (returnsC c h).length * V| ≤ ε' * trialsThrough d h + K)
      (fun a K K' hKK hP st h R d nd c e1 e2 e3 e4 e5 => (hP st h R d nd c e1 e2 e3 e4 e5).trans (by linarith))
      (fun b hbm => act_dev F hb hg hvn ht H hsink hbm hε'0)
    refine ⟨ε * (2 * k * L) + L * K + |heurOf env m s - V|, by positivity, ?_⟩
    intro st h R d nd hd hs htm hrem
    have R0 := R
    obtain ⟨s0, tm, tb, htb, hr⟩ := R
    obtain ⟨I, C⟩ := reach_both (uct_valid cfg m) htb hr
    have hl : isLeaf env m nd = false := by
      unfold isLeaf
      rw [hs, hsink]
      simp only [Bool.false_or, decide_eq_false_iff_not]
      unfold remaining at hrem
      omega
    have hends := ends_le_one (uct_valid cfg m) htb ht hr hd hl
    have hheur : nd.heur = heurOf env m s := by
      have : nd.heur = heurOf env m nd.state := I.tree.heap.dHeur d nd.skel (by simp [hd])
      rw [this, hs]
    have hkl := kids_le I hd
    rw [hs, ← hL] at hkl
    have hkid : ∀ p ∈ nd.kids, childC st d p.1 = some p.2 ∧ p.1 ∈ env.actions s := by
      intro p hp
      have := childC_of_mem I.tree hd (show (p.1, p.2) ∈ nd.kids from hp)
      obtain ⟨nd1, nc, g1, g2, g3, g4, g5, g6, g7, g8⟩ := childC_facts I.tree this
      rw [hd] at g1; simp at g1; subst g1
      rw [hs] at g8
      exact ⟨this, g8⟩
    set T := trialsThrough d h with hT
    have hsum : (below d nd h).sum - (below d nd h).card * V =
        (nd.kids.map fun p => (returnsC p.2 h).sum - (returnsC p.2 h).length * V).sum +
          h.countP (Event.endAt d) * (heurOf env m s - V) := by
      unfold below
      rw [Multiset.sum_add, Multiset.card_add, coe_sum_list, coe_card_list, hheur]
      simp only [Multiset.sum_coe, Multiset.coe_card, Multiset.sum_replicate, Multiset.card_replicate, nsmul_eq_mul]
      have : ∀ l : List (A × Nat), (l.map fun p => (returnsC p.2 h).sum - (returnsC p.2 h).length * V).sum =
          (l.map fun p => (returnsC p.2 h).sum).sum - ((l.map fun p => (returnsC p.2 h).length).sum : Nat) * V := by
        intro l
        induction l with
        | nil => simp
        | cons p l ih => simp only [List.map_cons, List.sum_cons, ih]; push_cast; ring
      rw [this]
      push_cast
      ring
    have h1 : |(nd.kids.map fun p => (returnsC p.2 h).sum - (returnsC p.2 h).length * V).sum| ≤ L * (ε' * T + K) := by
      refine (abs_list_sum _ (ε' * T + K) nd.kids ?_).trans ?_
      · intro p hp
        obtain ⟨q1, q2⟩ := hkid p hp
        exact hA p.1 q2 st h R0 d nd p.2 hd hs htm hrem q1
      · exact mul_le_mul_of_nonneg_right (by exact_mod_cast hkl) (by positivity)
    have h2 : |(h.countP (Event.endAt d) : ℝ) * (heurOf env m s - V)| ≤ |heurOf env m s - V| := by
      rw [abs_mul, Nat.abs_cast]
      have : (h.countP (Event.endAt d) : ℝ) ≤ 1 := by exact_mod_cast hends
      have := abs_nonneg (heurOf env m s - V)
      nlinarith
    have h3 : T ≤ (below d nd h).card + 2 * k * L := by
      rw [hT, trials_sum I C hd]
      have : ∀ l : List (A × Nat), (∀ p ∈ l, childC st d p.1 = some p.2) →
          (l.map fun p => timesSelected d p.1 h).sum ≤ (l.map fun p => (returnsC p.2 h).length).sum + 2 * k * l.length := by
        intro l hl
        induction l with
        | nil => simp
        | cons p l ih =>
          have i1 := ih (fun q hq => hl q (by simp [hq]))
          have i2 := timesSelected_eq I C (hl p (by simp))
          have i3 := (returns_near (uct_valid cfg m) htb hr p.2).2
          simp only [List.map_cons, List.sum_cons, List.length_cons]
          have : 2 * k * (l.length + 1) = 2 * k * l.length + 2 * k := by ring
          omega
      have h4 := this nd.kids (fun p hp => (hkid p hp).1)
      have h5 : (below d nd h).card = (nd.kids.map fun p => (returnsC p.2 h).length).sum + h.countP (Event.endAt d) := by
        unfold below
        rw [Multiset.card_add, coe_card_list, Multiset.card_replicate]
        simp
      have h6 := Nat.mul_le_mul_left (2 * k) hkl
      omega
    have h3' : (T : ℝ) ≤ (below d nd h).card + 2 * k * L := by exact_mod_cast h3
    have h4 : L * (ε' * T) ≤ ε * T := by
      have : (L : ℝ) * ε' ≤ ε := by
        rw [hε', mul_div_assoc', div_le_iff₀ (by positivity)]
        nlinarith
      have hT0 : (0:ℝ) ≤ T := by positivity
      nlinarith
    have h5 : ε * (T : ℝ) ≤ ε * ((below d nd h).card + 2 * k * L) := mul_le_mul_of_nonneg_left h3' hε.le
    rw [hsum]
    refine (abs_add_le _ _).trans ?_
    nlinarith

/-- With every horizon, state and time. -/
theorem dev_all (hdet : ∀ s a, a ∈ env.actions s → env.succ s a = [next s a]) (F : Fair env cfg) (hb : Bounded env m lo hi)
    (hg : Growing cfg.term) (hvn : Vanishing cfg.term) (ht : m.useTable = false) (n : Nat) :
    ∀ (t : Int) (s : S), DevD env m cfg k dp next n t s := by
  induction n with
  | zero =>
    intro t s ε hε
    refine ⟨0, le_refl _, ?_⟩
    intro st h R d nd hd hs htm hrem
    have hl : isLeaf env m nd = true := by
      unfold isLeaf; unfold remaining at hrem
      simp only [Bool.or_eq_true, decide_eq_true_eq]
      right; omega
    have h1 := leaf_dev R hd hl
    rw [hs] at h1
    show |(below d nd h).sum - (below d nd h).card * heurOf env m s| ≤ _
    rw [h1]
    simp only [abs_zero, add_zero]
    positivity
  | succ n ih =>
    intro t s
    exact dev_step F hb hg hvn ht (fun a _ => devC_of hdet ht hb (ih (t + 1) (next s a)))

end

end Verif.Uct
