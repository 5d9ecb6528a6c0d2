import Verif.Proofs.SoftTree

/-! # Soft values of an exhausted search of a deterministic environment are close to the value of the game -/

namespace Verif.Ments

open Verif.Search Verif.Backups

set_option linter.unusedSimpArgs false
set_option linter.unusedSectionVars false

section
variable {A : Type}

theorem bestOf_le {opp : Bool} {f g : A → ℝ} {l : List A} {ε : ℝ} (hl : l ≠ []) (h : ∀ a ∈ l, f a ≤ g a + ε) :
    bestOf opp (l.map f) ≤ bestOf opp (l.map g) + ε := by
  have hf : l.map f ≠ [] := by simpa using hl
  have hg : l.map g ≠ [] := by simpa using hl
  unfold bestOf
  cases opp
  · simp only [Bool.false_eq_true, if_false]
    obtain ⟨x, hx⟩ := Option.ne_none_iff_exists'.1 (mt List.max?_eq_none_iff.1 hf)
    obtain ⟨y, hy⟩ := Option.ne_none_iff_exists'.1 (mt List.max?_eq_none_iff.1 hg)
    rw [hx, hy]
    obtain ⟨h1, _⟩ := List.max?_eq_some_iff.1 hx
    obtain ⟨_, h2⟩ := List.max?_eq_some_iff.1 hy
    obtain ⟨a, ha, rfl⟩ := List.mem_map.1 h1
    have := h2 (g a) (List.mem_map_of_mem ha)
    have := h a ha
    simp only [Option.getD_some]
    linarith
  · simp only [if_true]
    obtain ⟨x, hx⟩ := Option.ne_none_iff_exists'.1 (mt List.min?_eq_none_iff.1 hf)
    obtain ⟨y, hy⟩ := Option.ne_none_iff_exists'.1 (mt List.min?_eq_none_iff.1 hg)
    rw [hx, hy]
    obtain ⟨_, h1⟩ := List.min?_eq_some_iff.1 hx
    obtain ⟨h2, _⟩ := List.min?_eq_some_iff.1 hy
    obtain ⟨a, ha, rfl⟩ := List.mem_map.1 h2
    have := h1 (f a) (List.mem_map_of_mem ha)
    have := h a ha
    simp only [Option.getD_some]
    linarith

theorem bestOf_close {opp : Bool} {f g : A → ℝ} {l : List A} {ε : ℝ} (hl : l ≠ []) (h : ∀ a ∈ l, |f a - g a| ≤ ε) :
    |bestOf opp (l.map f) - bestOf opp (l.map g)| ≤ ε := by
  rw [abs_sub_le_iff]
  constructor
  · have := bestOf_le (opp := opp) (f := f) (g := g) hl (fun a ha => by have := (abs_sub_le_iff.1 (h a ha)).1; linarith)
    linarith
  · have := bestOf_le (opp := opp) (f := g) (g := f) hl (fun a ha => by have := (abs_sub_le_iff.1 (h a ha)).2; linarith)
    linarith

theorem softmax_bounds {temp : ℝ} (ht : 0 < temp) {Q : A → ℝ} {l : List A} {M : ℝ} (hM : IsGreatest {y | ∃ a ∈ l, y = Q a} M) :
    M ≤ softmax temp Q l ∧ softmax temp Q l ≤ M + temp * Real.log l.length := by
  obtain ⟨⟨a, ha, hMa⟩, hub⟩ := hM
  have hne : l ≠ [] := List.ne_nil_of_mem ha
  have hlen : (0 : ℝ) < l.length := by exact_mod_cast List.length_pos_of_ne_nil hne
  have hpos : ∀ x ∈ l.map fun a => Real.exp (Q a / temp), 0 ≤ x := by
    intro x hx; obtain ⟨b, _, rfl⟩ := List.mem_map.1 hx; positivity
  have h1 : Real.exp (M / temp) ≤ (l.map fun a => Real.exp (Q a / temp)).sum := by
    rw [hMa]
    exact List.single_le_sum hpos _ (List.mem_map.2 ⟨a, ha, rfl⟩)
  have h2 : (l.map fun a => Real.exp (Q a / temp)).sum ≤ l.length * Real.exp (M / temp) := by
    have := List.sum_le_card_nsmul (l.map fun a => Real.exp (Q a / temp)) (Real.exp (M / temp)) (by
      intro x hx
      obtain ⟨b, hb, rfl⟩ := List.mem_map.1 hx
      exact Real.exp_le_exp.2 (div_le_div_of_nonneg_right (hub ⟨b, hb, rfl⟩) ht.le))
    simpa using this
  have hs : 0 < (l.map fun a => Real.exp (Q a / temp)).sum := lt_of_lt_of_le (Real.exp_pos _) h1
  unfold softmax
  constructor
  · have := Real.log_le_log (Real.exp_pos _) h1
    rw [Real.log_exp] at this
    calc M = temp * (M / temp) := by field_simp
      _ ≤ _ := mul_le_mul_of_nonneg_left this ht.le
  · have := Real.log_le_log hs h2
    rw [Real.log_mul hlen.ne' (Real.exp_pos _).ne', Real.log_exp] at this
    calc temp * Real.log (l.map fun a => Real.exp (Q a / temp)).sum ≤ temp * (Real.log l.length + M / temp) := mul_le_mul_of_nonneg_left this ht.le
      _ = _ := by field_simp; ring

theorem softmax_close {temp : ℝ} (ht : 0 < temp) (opp : Bool) (q : A → ℝ) {l : List A} (hl : l ≠ []) :
    |sgn opp * softmax temp (fun a => sgn opp * q a) l - bestOf opp (l.map q)| ≤ temp * Real.log l.length := by
  have hlen : (1 : ℝ) ≤ l.length := by exact_mod_cast List.length_pos_of_ne_nil hl
  have hlog : 0 ≤ temp * Real.log l.length := mul_nonneg ht.le (Real.log_nonneg hlen)
  have hf : l.map q ≠ [] := by simpa using hl
  unfold bestOf sgn
  cases opp
  · simp only [Bool.false_eq_true, if_false, one_mul]
    obtain ⟨x, hx⟩ := Option.ne_none_iff_exists'.1 (mt List.max?_eq_none_iff.1 hf)
    rw [hx]
    obtain ⟨h1, h2⟩ := List.max?_eq_some_iff.1 hx
    obtain ⟨a, ha, hxa⟩ := List.mem_map.1 h1
    obtain ⟨b1, b2⟩ := softmax_bounds (Q := q) (l := l) (M := x) ht ⟨⟨a, ha, hxa.symm⟩, by
      rintro _ ⟨b, hb, rfl⟩
      exact h2 _ (List.mem_map_of_mem hb)⟩
    simp only [Option.getD_some]
    rw [abs_sub_le_iff]
    constructor <;> linarith
  · simp only [if_true]
    obtain ⟨x, hx⟩ := Option.ne_none_iff_exists'.1 (mt List.min?_eq_none_iff.1 hf)
    rw [hx]
    obtain ⟨h1, h2⟩ := List.min?_eq_some_iff.1 hx
    obtain ⟨a, ha, hxa⟩ := List.mem_map.1 h1
    obtain ⟨b1, b2⟩ := softmax_bounds (Q := fun a => -1 * q a) (l := l) (M := -x) ht ⟨⟨a, ha, by rw [hxa]; ring⟩, by
      rintro _ ⟨b, hb, rfl⟩
      have := h2 _ (List.mem_map_of_mem (f := q) hb)
      linarith⟩
    simp only [Option.getD_some]
    rw [abs_sub_le_iff]
    constructor <;> linarith

end

variable {S A X Y : Type} [DecidableEq S] [DecidableEq A]
  {env : Env S A ℝ} {m : Manager S ℝ} {alg : Alg S A ℝ X Y} {px : X → Soft} {py : Y → Soft} {lr : S → A → ℝ} {cfg : Cfg S A}
  {k : Nat} {s0 : S} {dp tm : Int} {tb : List ((Int × S) × Option Nat)} {st st' : St S A ℝ X Y} {h : List (Event S A ℝ)}
  {next : S → A → S}

theorem softWeight_pos {𝕜 : Type} [Field 𝕜] [LinearOrder 𝕜] [IsStrictOrderedRing 𝕜] {env : Env S A 𝕜} {m : Manager S 𝕜} {alg : Alg S A 𝕜 X Y}
    {st : St S A 𝕜 X Y} {h : List (Event S A 𝕜)} (hne : ∀ s, env.isSink s = false → env.actions s ≠ [])
    (hv : alg.Valid) (htb : Leftover tb) (hr : Reachable env m alg k s0 dp tm tb st h) (hq : Quiescent st) (hx : Exhausted env m st)
    {d c d' : Nat} {a : A} {o : S} {nc : CNode S A 𝕜 Y} (hc : childC st d a = some c) (hnc : st.cn[c]? = some nc) (hk : nc.kids = [(o, d')]) :
    softWeight env m st h d' ≠ 0 := by
  obtain ⟨I, C⟩ := reach_both hv htb hr
  obtain ⟨B, _⟩ := reach_bk hr
  obtain ⟨_, nd', g1, g2, _⟩ := childD_facts I.tree (childD_of_mem I.tree hnc (show (o, d') ∈ nc.kids by rw [hk]; simp))
  have hth : trialsThrough d' h = h.countP (Event.selAt d') := by
    unfold trialsThrough
    congr 1
    funext e
    cases e <;> rfl
  have hte : trialsEndedAt d' h = h.countP (Event.endAt d') := by
    unfold trialsEndedAt
    congr 1
  have hrc := (c39_children_backed hv htb hr hq hc).2
  have h5 := B.c c
  have hpos : 0 < h.countP (Event.stepVia c) := by
    have := List.length_pos_iff.2 hrc
    omega
  obtain ⟨e, he, hs⟩ := List.countP_pos_iff.1 hpos
  have hinto : 0 < h.countP (Event.stepInto d') := by
    cases e with
    | stepped w d1 a1 c1 o1 d1' r g =>
      have hcc : c1 = c := by simpa [Event.stepVia] using hs
      subst hcc
      have hcd := (C.evStep w d1 a1 c1 o1 d1' r g he).1
      obtain ⟨nc2, _, f1, _, f3, _⟩ := childD_facts I.tree hcd
      rw [hnc] at f1
      obtain rfl := Option.some.inj f1
      rw [hk] at f3
      have : d1' = d' := by simpa using (congrArg Prod.snd (List.mem_singleton.1 f3))
      subst this
      exact List.countP_pos_iff.2 ⟨_, he, by simp [Event.stepInto]⟩
    | _ => simp [Event.stepVia] at hs
  unfold softWeight
  rw [g2]
  simp only [hth, hte]
  cases hl : isLeaf env m nd' with
  | true =>
    simp only [if_true]
    have z : st.ws.countP (Phase.inSel d') = 0 := by
      rw [List.countP_eq_zero]
      intro p hp
      obtain ⟨w, hw⟩ := List.mem_iff_getElem?.1 hp
      rw [hq w p hw]
      simp [Phase.inSel]
    have := C.v4 d'
    omega
  | false =>
    have hsink : env.isSink nd'.state = false := by
      simp [isLeaf] at hl
      exact hl.1
    obtain ⟨a0, ha0⟩ := List.exists_mem_of_ne_nil _ (hne _ hsink)
    obtain ⟨c0, hc0⟩ := hx d' nd' g2 hl a0 ha0
    have := (c39_children_backed hv htb hr hq hc0).1
    have := List.length_pos_iff.2 this
    rw [returns_through hr hq, hth] at this
    simp only [Bool.false_eq_true, if_false]
    omega

theorem chanceSoft_det (hdet : ∀ s a, a ∈ env.actions s → env.succ s a = [next s a])
    (hlr : ∀ s a, a ∈ env.actions s → lr s a = env.reward s a (next s a)) (hne : ∀ s, env.isSink s = false → env.actions s ≠ [])
    (hv : alg.Valid) (htb : Leftover tb) (hr : Reachable env m alg k s0 dp tm tb st h) (hq : Quiescent st) (hx : Exhausted env m st)
    {n : Nat} {ε : ℝ} (ih : ∀ (d : Nat) nd, st.dn[d]? = some nd → (m.maxDepth - nd.depth).toNat = n →
      |softTree cfg env m lr st h n d - gameValue env m next n nd.time nd.state| ≤ ε)
    {d c : Nat} {a : A} {nd : DNode S A ℝ X} {nc : CNode S A ℝ Y} (hd : st.dn[d]? = some nd) (hc : childC st d a = some c)
    (hnc : st.cn[c]? = some nc) (hn : (m.maxDepth - nd.depth).toNat = n + 1) :
    |chanceSoft env m lr st h (softTree cfg env m lr st h n) nc -
      (env.reward nd.state a (next nd.state a) + gameValue env m next n (nd.time + 1) (next nd.state a))| ≤ ε := by
  obtain ⟨nd2, nc2, d', nd', k1, k2, k3, k4, k5, k6, k7, k8, k9, k10⟩ := det_kid hdet hv htb hr hq hc
  rw [hd] at k1
  obtain rfl := Option.some.inj k1
  rw [hnc] at k2
  obtain rfl := Option.some.inj k2
  rw [chanceSoft, k6, k3, k4, hlr _ _ k5]
  simp only [List.map_cons, List.map_nil]
  rw [wmean_single _ _ (softWeight_pos hne hv htb hr hq hx hc hnc k6), add_sub_add_left_eq_sub]
  have := ih d' nd' k7 (by omega)
  rw [k8, k10] at this
  exact this

theorem soft_game (hdet : ∀ s a, a ∈ env.actions s → env.succ s a = [next s a])
    (hlr : ∀ s a, a ∈ env.actions s → lr s a = env.reward s a (next s a)) (hne : ∀ s, env.isSink s = false → env.actions s ≠ [])
    (hv : alg.Valid) (htb : Leftover tb) (hr : Reachable env m alg k s0 dp tm tb st h) (hq : Quiescent st) (hx : Exhausted env m st)
    (ht : 0 < cfg.temp) {B : Nat} (hB : ∀ s, (env.actions s).length ≤ B) :
    ∀ (n d : Nat) nd, st.dn[d]? = some nd → (m.maxDepth - nd.depth).toNat = n →
      |softTree cfg env m lr st h n d - gameValue env m next n nd.time nd.state| ≤ n * (cfg.temp * Real.log B) := by
  have I := reach_inv hv htb hr
  have hlog : 0 ≤ cfg.temp * Real.log B := mul_nonneg ht.le (Real.log_natCast_nonneg B)
  have leafKids : ∀ (d : Nat) nd, st.dn[d]? = some nd → isLeaf env m nd = true → nd.kids = [] := by
    intro d nd hd hl
    rw [isLeaf_skel] at hl
    exact I.tree.heap.dLeaf d nd.skel (by simp [hd]) hl
  have hheur : ∀ (d : Nat) nd, st.dn[d]? = some nd → nd.heur = heurOf env m nd.state := by
    intro d nd hd
    exact I.tree.heap.dHeur d nd.skel (by simp [hd])
  intro n
  induction n with
  | zero =>
    intro d nd hd hn
    simp [softTree, hd, gameValue, hheur d nd hd]
  | succ n ih =>
    intro d nd hd hn
    simp only [softTree, hd, Option.elim_some, gameValue]
    by_cases hs : env.isSink nd.state = true
    · have hk := leafKids d nd hd (by simp [isLeaf, hs])
      rw [if_pos hk, if_pos hs, hheur d nd hd]
      have : heurOf env m nd.state = 0 := by
        unfold heurOf
        split
        · rfl
        · simp [hs]
      rw [this]
      simp only [sub_zero, abs_zero]
      positivity
    · have hs' : env.isSink nd.state = false := by simpa using hs
      have hl : isLeaf env m nd = false := by
        simp [isLeaf, hs']
        omega
      obtain ⟨a0, ha0⟩ := List.exists_mem_of_ne_nil _ (hne _ hs')
      obtain ⟨c0, hc0⟩ := hx d nd hd hl a0 ha0
      obtain ⟨nd1, _, f1, _, f3, _⟩ := childC_facts I.tree hc0
      rw [hd] at f1
      obtain rfl := Option.some.inj f1
      rw [if_neg (List.ne_nil_of_mem f3), if_neg hs]
      let q : A → ℝ := fun a => (find? a nd.kids).elim 0 fun c => (st.cn[c]?).elim 0 (chanceSoft env m lr st h (softTree cfg env m lr st h n))
      have hfind : ∀ a ∈ env.actions nd.state, ∃ c, find? a nd.kids = some c ∧ childC st d a = some c := by
        intro a ha
        obtain ⟨c, hc⟩ := hx d nd hd hl a ha
        have : find? a nd.kids = some c := by simpa [childC, hd] using hc
        exact ⟨c, this, hc⟩
      have hcong : softmax cfg.temp
          (fun a => (find? a nd.kids).elim (untriedValue cfg (isOpponent m nd.time) nd.state a) fun c =>
            sgn (isOpponent m nd.time) * (st.cn[c]?).elim 0 (chanceSoft env m lr st h (softTree cfg env m lr st h n)))
          (env.actions nd.state) = softmax cfg.temp (fun a => sgn (isOpponent m nd.time) * q a) (env.actions nd.state) := by
        unfold softmax
        congr 3
        refine List.map_congr_left fun a ha => ?_
        obtain ⟨c, hc, _⟩ := hfind a ha
        simp [q, hc]
      rw [hcong]
      have e1 := softmax_close ht (isOpponent m nd.time) q (hne _ hs')
      have e2 := bestOf_close (opp := isOpponent m nd.time) (f := q)
        (g := fun a => env.reward nd.state a (next nd.state a) + gameValue env m next n (nd.time + 1) (next nd.state a))
        (ε := n * (cfg.temp * Real.log B)) (hne _ hs') (by
          intro a ha
          obtain ⟨c, h1, h2⟩ := hfind a ha
          obtain ⟨_, nc, _, g2, _⟩ := childC_facts I.tree h2
          have := chanceSoft_det hdet hlr hne hv htb hr hq hx ih hd h2 g2 hn
          simpa [q, h1, g2] using this)
      have e3 : cfg.temp * Real.log (env.actions nd.state).length ≤ cfg.temp * Real.log B := by
        refine mul_le_mul_of_nonneg_left (Real.log_le_log ?_ ?_) ht.le
        · exact_mod_cast List.length_pos_of_ne_nil (hne _ hs')
        · exact_mod_cast hB _
      have e4 := abs_sub_le (sgn (isOpponent m nd.time) * softmax cfg.temp (fun a => sgn (isOpponent m nd.time) * q a) (env.actions nd.state))
        (bestOf (isOpponent m nd.time) ((env.actions nd.state).map q))
        (bestOf (isOpponent m nd.time) ((env.actions nd.state).map fun a => env.reward nd.state a (next nd.state a) + gameValue env m next n (nd.time + 1) (next nd.state a)))
      push_cast
      linarith

end Verif.Ments
