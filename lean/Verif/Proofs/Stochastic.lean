import Verif.Proofs.RandomDev
import Verif.Proofs.SoftGame
import Verif.Proofs.Flow
import Verif.Props.Random
import Verif.Spec.RandomSearch
import Mathlib.Data.List.Perm.Subperm

/-! # Searches of stochastic environments: how the errors add up (C90) -/

set_option linter.unusedSectionVars false
set_option linter.unusedSimpArgs false

namespace Verif.Random

open Verif.Search Verif.Eval Verif.Spec Verif.Backups Verif.Ments

/-! ## Weighted means -/

section wmean
variable {ι : Type}

theorem sum_map_sub' (l : List ι) (f g : ι → ℝ) : (l.map fun q => f q - g q).sum = (l.map f).sum - (l.map g).sum := by
  induction l with
  | nil => simp
  | cons q l ih => simp only [List.map_cons, List.sum_cons, ih]; ring

theorem abs_sum_le {l : List ι} {f b : ι → ℝ} (h : ∀ q ∈ l, |f q| ≤ b q) : |(l.map f).sum| ≤ (l.map b).sum := by
  induction l with
  | nil => simp
  | cons q l ih =>
    simp only [List.map_cons, List.sum_cons]
    have h1 := h q (List.mem_cons_self ..)
    have h2 := ih fun q hq => h q (List.mem_cons_of_mem _ hq)
    exact le_trans (abs_add_le _ _) (add_le_add h1 h2)

/-- How far a weighted mean of approximate values is from the expectation. -/
theorem wmean_close {l : List ι} {w n : ι → Nat} {v f : ι → ℝ} {μ V η ε : ℝ} {K M : Nat} (hV : 0 ≤ V) (hη : 0 ≤ η) (hK0 : 0 < K)
    (hK : l.length ≤ K) (hM : 2 * K ≤ M) (hn : M ≤ (l.map n).sum)
    (hw : ∀ q ∈ l, w q ≤ n q + 1 ∧ n q ≤ w q + 1) (hf : ∀ q ∈ l, |f q - μ| ≤ 2 * V) (hv : ∀ q ∈ l, |v q - f q| ≤ ε)
    (hdev : |(l.map fun q => (n q : ℝ) * (f q - μ)).sum| ≤ η * ((l.map n).sum : ℕ)) :
    |wmean (l.map fun q => (w q, v q)) - μ| ≤ ε + (2 * η + 4 * K * V / M) := by
  set n0 : ℝ := (((l.map n).sum : ℕ) : ℝ) with hn0
  set W : ℝ := (l.map fun q => (w q : ℝ)).sum with hW
  have hKr : (0 : ℝ) < K := by exact_mod_cast hK0
  have hMr : (2 : ℝ) * K ≤ M := by exact_mod_cast hM
  have hnr : (M : ℝ) ≤ n0 := by rw [hn0]; exact_mod_cast hn
  have e0 : n0 = (l.map fun q => (n q : ℝ)).sum := by
    rw [hn0]
    clear_value n0 W
    clear hnr hdev hv hf hw hn hK hW hn0
    induction l with
    | nil => simp
    | cons q l ih => simp [ih]
  have hWn : n0 - K ≤ W := by
    have : (l.map fun q => (n q : ℝ) - w q).sum ≤ (l.map fun _ => (1 : ℝ)).sum := List.sum_le_sum (fun q hq => by
      have : (n q : ℝ) ≤ w q + 1 := by exact_mod_cast (hw q hq).2
      linarith)
    rw [sum_map_sub', ← e0, ← hW] at this
    have h2 : (l.map fun _ => (1 : ℝ)).sum = l.length := by simp
    rw [h2] at this
    have h3 : (l.length : ℝ) ≤ K := by exact_mod_cast hK
    linarith
  have hW2 : n0 / 2 ≤ W := by linarith
  have hn0p : 0 < n0 := by linarith
  have hWp : 0 < W := by linarith
  have e1 : wmean (l.map fun q => (w q, v q)) - μ = (l.map fun q => (w q : ℝ) * (v q - μ)).sum / W := by
    have : (l.map fun q => (w q : ℝ) * (v q - μ)).sum = (l.map fun q => (w q : ℝ) * v q).sum - W * μ := by
      rw [hW, ← List.sum_map_mul_right, ← sum_map_sub']
      congr 1
      exact List.map_congr_left fun q _ => by ring
    rw [this, sub_div, mul_div_cancel_left₀ _ hWp.ne']
    simp only [wmean, List.map_map, Function.comp_def, ← hW]
  rw [e1, abs_div, abs_of_pos hWp, div_le_iff₀ hWp]
  have e2 : (l.map fun q => (w q : ℝ) * (v q - μ)).sum = (l.map fun q => (w q : ℝ) * (v q - f q)).sum +
      ((l.map fun q => (n q : ℝ) * (f q - μ)).sum + (l.map fun q => ((w q : ℝ) - n q) * (f q - μ)).sum) := by
    rw [← List.sum_map_add, ← List.sum_map_add]
    congr 1
    exact List.map_congr_left fun q _ => by ring
  have a1 : |(l.map fun q => (w q : ℝ) * (v q - f q)).sum| ≤ ε * W := by
    refine le_trans (abs_sum_le (b := fun q => ε * (w q : ℝ)) fun q hq => ?_) (le_of_eq ?_)
    · rw [abs_mul, Nat.abs_cast, mul_comm]
      exact mul_le_mul_of_nonneg_right (hv q hq) (Nat.cast_nonneg _)
    · rw [List.sum_map_mul_left]
  have a3 : |(l.map fun q => ((w q : ℝ) - n q) * (f q - μ)).sum| ≤ K * (2 * V) := by
    refine le_trans (abs_sum_le (b := fun _ => 2 * V) fun q hq => ?_) ?_
    · have hd : |(w q : ℝ) - n q| ≤ 1 := by
        have h1 : (w q : ℝ) ≤ n q + 1 := by exact_mod_cast (hw q hq).1
        have h2 : (n q : ℝ) ≤ w q + 1 := by exact_mod_cast (hw q hq).2
        rw [abs_sub_le_iff]
        constructor <;> linarith
      rw [abs_mul]
      calc _ ≤ 1 * (2 * V) := mul_le_mul hd (hf q hq) (abs_nonneg _) zero_le_one
        _ = _ := one_mul _
    · have h3 : (l.length : ℝ) ≤ K := by exact_mod_cast hK
      simp only [List.map_const', List.sum_replicate, nsmul_eq_mul]
      exact mul_le_mul_of_nonneg_right h3 (by linarith)
  have a4 : |(l.map fun q => (w q : ℝ) * (v q - μ)).sum| ≤ ε * W + (η * n0 + K * (2 * V)) := by
    rw [e2]
    exact le_trans (abs_add_le _ _) (add_le_add a1 (le_trans (abs_add_le _ _) (add_le_add hdev a3)))
  have b1 : η * n0 ≤ 2 * η * W := by nlinarith
  have hMp : (0 : ℝ) < M := by linarith
  have b2 : K * (2 * V) ≤ 4 * K * V / M * W := by
    have : 4 * K * V / M * (M / 2) ≤ 4 * K * V / M * W := mul_le_mul_of_nonneg_left (by linarith) (by positivity)
    have e : 4 * (K : ℝ) * V / M * (M / 2) = K * (2 * V) := by field_simp; ring
    linarith
  calc _ ≤ _ := a4
    _ ≤ ε * W + (2 * η * W + 4 * K * V / M * W) := by linarith
    _ = _ := by ring

theorem sum_single [DecidableEq ι] {l : List ι} (hl : l.Nodup) {q0 : ι} (hq : q0 ∈ l) (x : ι → ℝ) : (l.map fun q => if q = q0 then x q else 0).sum = x q0 := by
  induction l with
  | nil => cases hq
  | cons q l ih =>
    obtain ⟨h1, h2⟩ := List.nodup_cons.1 hl
    simp only [List.map_cons, List.sum_cons]
    rcases List.mem_cons.1 hq with rfl | hq
    · have : (l.map fun q => if q = q0 then x q else 0).sum = 0 := List.sum_eq_zero (by
        intro y hy
        obtain ⟨q', hq', rfl⟩ := List.mem_map.1 hy
        rw [if_neg]
        rintro rfl
        exact h1 hq')
      rw [if_pos rfl, this, add_zero]
    · rw [if_neg (by rintro rfl; exact h1 hq), ih h2 hq, zero_add]

end wmean

section
variable {S A X Y : Type} [DecidableEq S] [DecidableEq A]
  {env : Env S A ℝ} {m : Manager S ℝ} {alg : Alg S A ℝ X Y} {lr : S → A → ℝ} {k : Nat} {s0 : S} {dp tm : Int}
  {tb : List ((Int × S) × Option Nat)} {st : St S A ℝ X Y} {h : List (Event S A ℝ)} {obs : S → A → List (S × ℝ)} {K M : Nat} {V η po : ℝ}

/-! ## The samples of a chance node and the visits of its children -/

/-- The samples of a chance node, sorted by outcome. -/
theorem sampleSum_kids (hv : alg.Valid) (htb : Leftover tb) (hu : m.useTable = false) (hr : Reachable env m alg k s0 dp tm tb st h)
    {c : Nat} {nc : CNode S A ℝ Y} (hc : st.cn[c]? = some nc) (g : S → ℝ) :
    sampleSum g c h = (nc.kids.map fun q => (h.countP (Event.stepInto q.2) : ℝ) * g q.1).sum := by
  obtain ⟨I, C⟩ := reach_both hv htb hr
  obtain ⟨_, _, _, P4⟩ := c14_parents hv htb hr
  have hnd : nc.kids.Nodup := (I.tree.heap.cNodup c nc.skel (by simp [hc])).of_map
  have key : ∀ l : List (Event S A ℝ), (∀ e ∈ l, e ∈ h) →
      sampleSum g c l = (nc.kids.map fun q => (l.countP (Event.stepInto q.2) : ℝ) * g q.1).sum := by
    intro l
    induction l with
    | nil => intro _; simp [sampleSum]
    | cons e l ih =>
      intro hl
      have h0 := ih fun e he => hl e (List.mem_cons_of_mem _ he)
      have hm := hl e (List.mem_cons_self ..)
      have split : (nc.kids.map fun q => ((e :: l).countP (Event.stepInto q.2) : ℝ) * g q.1).sum =
          (nc.kids.map fun q => (l.countP (Event.stepInto q.2) : ℝ) * g q.1).sum + (nc.kids.map fun q => if Event.stepInto q.2 e then g q.1 else 0).sum := by
        rw [← List.sum_map_add]
        congr 1
        refine List.map_congr_left fun q _ => ?_
        rw [List.countP_cons]
        split <;> push_cast <;> ring
      rw [split, ← h0]
      have zero : (∀ q ∈ nc.kids, Event.stepInto q.2 e = false) → (nc.kids.map fun q => if Event.stepInto q.2 e then g q.1 else 0).sum = 0 := fun hz =>
        List.sum_eq_zero (by
          intro y hy
          obtain ⟨q, hq, rfl⟩ := List.mem_map.1 hy
          simp [hz q hq])
      cases e with
      | stepped w d a c' o d' r gr =>
        have hcd := (C.evStep _ _ _ _ _ _ _ _ hm).1
        by_cases hcc : c' = c
        · subst hcc
          obtain ⟨nc2, _, f1, _, f3, _⟩ := childD_facts I.tree hcd
          rw [hc] at f1
          obtain rfl := Option.some.inj f1
          simp only [sampleSum, if_true]
          congr 1
          rw [← sum_single hnd f3 fun q => g q.1]
          congr 1
          refine List.map_congr_left fun q hq => ?_
          have : Event.stepInto q.2 (.stepped w d a c' o d' r gr : Event S A ℝ) = true ↔ q = (o, d') := by
            simp only [Event.stepInto, beq_iff_eq]
            constructor
            · intro hd
              have h1 := childD_of_mem I.tree hc (show (q.1, q.2) ∈ nc.kids from hq)
              rw [← hd] at h1
              have := (P4 hu _ _ _ _ _ h1 hcd).2
              exact Prod.ext this hd.symm
            · rintro rfl; rfl
          by_cases hq0 : q = (o, d')
          · rw [if_pos (this.2 hq0), if_pos hq0]
          · rw [if_neg (mt this.1 hq0), if_neg hq0]
        · rw [zero]
          · simp [sampleSum, hcc]
          · intro q hq
            simp only [Event.stepInto, beq_eq_false_iff_ne, ne_eq]
            intro hd
            have h1 := childD_of_mem I.tree hc (show (q.1, q.2) ∈ nc.kids from hq)
            rw [← hd] at h1
            exact hcc (P4 hu _ _ _ _ _ hcd h1).1
      | _ =>
        rw [zero (fun q _ => by simp [Event.stepInto])]
        simp [sampleSum]
  exact key h fun _ h => h

theorem sampleSum_one (c : Nat) (h : List (Event S A ℝ)) : sampleSum (fun _ => 1) c h = (h.countP (Event.stepVia c) : ℝ) := by
  induction h with
  | nil => simp [sampleSum]
  | cons e h ih =>
    rw [List.countP_cons]
    cases e with
    | stepped w d a c' o d' r g =>
      by_cases hc : c' = c <;> simp [sampleSum, ih, Event.stepVia, hc]
    | _ => simpa [sampleSum, Event.stepVia] using ih

theorem visits_kids (hv : alg.Valid) (htb : Leftover tb) (hu : m.useTable = false) (hr : Reachable env m alg k s0 dp tm tb st h)
    {c : Nat} {nc : CNode S A ℝ Y} (hc : st.cn[c]? = some nc) :
    h.countP (Event.stepVia c) = (nc.kids.map fun q => h.countP (Event.stepInto q.2)).sum := by
  have := sampleSum_kids hv htb hu hr hc (fun _ => 1)
  rw [sampleSum_one] at this
  simp only [mul_one] at this
  have e : ∀ l : List (S × Nat), (l.map fun q => (h.countP (Event.stepInto q.2) : ℝ)).sum = ((l.map fun q => h.countP (Event.stepInto q.2)).sum : ℕ) := by
    intro l
    induction l with
    | nil => simp
    | cons q l ih => simp [ih]
  rw [e] at this
  exact_mod_cast this

/-- The weights of C66 and C68 differ by at most one from the number of samples. -/
theorem weights_close (hv : alg.Valid) (htb : Leftover tb) (hu : m.useTable = false) (hr : Reachable env m alg k s0 dp tm tb st h) (hq : Quiescent st)
    {c d' : Nat} {o : S} (hc : childD st c o = some d') :
    (weightD env m st h d' ≤ h.countP (Event.stepInto d') + 1 ∧ h.countP (Event.stepInto d') ≤ weightD env m st h d' + 1) ∧
    (softWeight env m st h d' ≤ h.countP (Event.stepInto d') + 1 ∧ h.countP (Event.stepInto d') ≤ softWeight env m st h d' + 1) := by
  obtain ⟨I, C⟩ := reach_both hv htb hr
  obtain ⟨nc, nd', g1, g2, g3, g4, g5, _⟩ := childD_facts I.tree hc
  have hnr : d' ≠ st.root := by
    rintro rfl
    obtain ⟨nr, r1, r2, r3, _⟩ := root_node I.tree
    rw [g2] at r1
    obtain rfl := Option.some.inj r1
    obtain ⟨_, P2, _⟩ := c14_parents hv htb hr
    obtain ⟨d, hd⟩ := P2 c nc g1
    obtain ⟨nd, nc2, f1, f2, _, _, _, f6, _⟩ := childC_facts I.tree hd
    rw [g1] at f2
    obtain rfl := Option.some.inj f2
    have := (I.tree.heap.dTime d nd.skel (by simp [f1])).2
    simp only [DNode.skel] at this
    omega
  have hth : trialsThrough d' h = h.countP (Event.selAt d') := by
    unfold trialsThrough
    congr 1
    funext e
    cases e <;> rfl
  have hte : trialsEndedAt d' h = h.countP (Event.endAt d') := by
    unfold trialsEndedAt
    congr 1
  have z : st.ws.countP (Phase.inSel d') = 0 := by
    rw [List.countP_eq_zero]
    intro p hp
    obtain ⟨w, hw⟩ := List.mem_iff_getElem?.1 hp
    rw [hq w p hw]
    simp [Phase.inSel]
  have h4 := C.v4 d'
  rw [if_neg hnr, z] at h4
  unfold weightD softWeight
  rw [g2]
  simp only [hth, hte]
  cases hl : isLeaf env m nd' with
  | true => simp only [if_true]; omega
  | false =>
    have := ends_le_one hv htb hu hr g2 hl
    simp only [Bool.false_eq_true, if_false]
    omega

/-! ## Well sampled trees -/

variable (env m obs) in
/-- The value of the sampled successor minus its expectation. -/
noncomputable def excess (s : S) (a : A) (dep tim : Int) (o : S) : ℝ :=
  expValue env m obs (remaining m (dep + 1)) (tim + 1) o - mean1 (obs s a) fun o => expValue env m obs (remaining m (dep + 1)) (tim + 1) o

/-- Every play has been followed often and the samples of every chance node are close to their expectation. -/
structure Sampled (env : Env S A ℝ) (m : Manager S ℝ) (obs : S → A → List (S × ℝ)) (s0 : S) (dp : Int) (M : Nat) (η : ℝ)
    (st : St S A ℝ X Y) (h : List (Event S A ℝ)) : Prop where
  often : ∀ play ∈ plays env (m.maxDepth - dp).toNat s0, play ≠ [] → ∃ e, Leads st st.root play e ∧ M ≤ h.countP (Event.stepInto e)
  close : ∀ (c : Nat) nc, st.cn[c]? = some nc → |sampleSum (excess env m obs nc.state nc.action nc.depth nc.time) c h| ≤ η * h.countP (Event.stepVia c)

theorem Sampled.explored (W : Sampled env m obs s0 dp M η st h) : ∀ play ∈ plays env (m.maxDepth - dp).toNat s0, Explored st play := by
  intro play hp
  by_cases h0 : play = []
  · subst h0
    exact ⟨st.root, .nil _⟩
  · obtain ⟨e, he, _⟩ := W.often play hp h0
    exact ⟨e, he⟩

theorem mean1_abs {α : Type} {d : List (α × ℝ)} (hd : IsDistr d) {f : α → ℝ} {V : ℝ} (hf : ∀ x, |f x| ≤ V) : |mean1 d f| ≤ V := by
  rw [abs_le]
  constructor
  · rw [← mean1_const hd (-V)]
    exact mean1_le hd.nonneg fun x _ _ => (abs_le.1 (hf x.1)).1
  · rw [← mean1_const hd V]
    exact mean1_le hd.nonneg fun x _ _ => (abs_le.1 (hf x.1)).2

theorem via_often (hl : env.Live) (hv : alg.Valid) (htb : Leftover tb) (hu : m.useTable = false) (hr : Reachable env m alg k s0 dp tm tb st h)
    (often : ∀ play ∈ plays env (m.maxDepth - dp).toNat s0, play ≠ [] → ∃ e, Leads st st.root play e ∧ M ≤ h.countP (Event.stepInto e))
    {d c : Nat} {a : A} {nd : DNode S A ℝ X} (hd : st.dn[d]? = some nd) (hc : childC st d a = some c) (hleaf : isLeaf env m nd = false) :
    M ≤ h.countP (Event.stepVia c) := by
  obtain ⟨I, C⟩ := reach_both hv htb hr
  obtain ⟨nd2, nc, f1, hnc, f3, f4, f5, f6, f7, f8⟩ := childC_facts I.tree hc
  rw [hd] at f1
  obtain rfl := Option.some.inj f1
  have hdep := (I.tree.heap.dTime d nd.skel (by simp [hd])).2
  simp only [DNode.skel] at hdep
  simp only [isLeaf, Bool.or_eq_false_iff, decide_eq_false_iff_not] at hleaf
  obtain ⟨hs, hlt⟩ := hleaf
  obtain ⟨nr, r1, r2, r3, _⟩ := root_node I.tree
  obtain ⟨l, k1, k2, k3⟩ := every_node hv htb hr (nd.depth - dp).toNat d nd hd (by omega)
  obtain ⟨nd', q1, q2, _⟩ := k1.node I.tree r1
  rw [hd] at q1
  obtain rfl := Option.some.inj q1
  rw [r2] at q2
  obtain ⟨o, ho⟩ := List.exists_mem_of_ne_nil _ (hl.succs nd.state hs a f8)
  obtain ⟨e, he, hM'⟩ := often (l ++ [(a, o)]) (mem_plays.2 ⟨validPlay_snoc k2 (by rw [← q2]; exact hs) (by rw [← q2]; exact f8) (by rw [← q2]; exact ho), by
    simp [k3]; omega⟩) (by simp)
  obtain ⟨e1, c1, h1, h2, h3⟩ := he.unsnoc
  obtain rfl := k1.unique h1
  rw [hc] at h2
  obtain rfl := Option.some.inj h2
  obtain ⟨nc3, _, g1, _, g3, _⟩ := childD_facts I.tree h3
  rw [hnc] at g1
  obtain rfl := Option.some.inj g1
  rw [visits_kids hv htb hu hr hnc]
  exact le_trans hM' (List.single_le_sum (by simp) _ (List.mem_map.2 ⟨_, g3, rfl⟩))

theorem chance_close (hl : env.Live) (hv : alg.Valid) (htb : Leftover tb) (hu : m.useTable = false) (hr : Reachable env m alg k s0 dp tm tb st h)
    (hobs : Transitions env obs po) (hlr : ∀ s a, env.isSink s = false → a ∈ env.actions s → lr s a = mean1 (obs s a) fun o => env.reward s a o)
    (hV0 : 0 ≤ V) (hV : ∀ n t s, n ≤ (m.maxDepth - dp).toNat → |expValue env m obs n t s| ≤ V) (hη : 0 ≤ η)
    (hK0 : 0 < K) (hK : ∀ s a, (env.succ s a).length ≤ K) (hM : 2 * K ≤ M) (W : Sampled env m obs s0 dp M η st h)
    {w : Nat → Nat} (hw : ∀ c o d', childD st c o = some d' → w d' ≤ h.countP (Event.stepInto d') + 1 ∧ h.countP (Event.stepInto d') ≤ w d' + 1)
    {below : Nat → ℝ} {n : Nat} {ε : ℝ}
    (ih : ∀ (d : Nat) nd, st.dn[d]? = some nd → (m.maxDepth - nd.depth).toNat = n → |below d - expValue env m obs n nd.time nd.state| ≤ ε)
    {d c : Nat} {a : A} {nd : DNode S A ℝ X} {nc : CNode S A ℝ Y} (hd : st.dn[d]? = some nd) (hc : childC st d a = some c)
    (hnc : st.cn[c]? = some nc) (hn : (m.maxDepth - nd.depth).toNat = n + 1) (hs : env.isSink nd.state = false) :
    M ≤ h.countP (Event.stepVia c) ∧
    |lr nc.state nc.action + wmean (nc.kids.map fun q => (w q.2, below q.2)) - actionValue env m obs n nd.time nd.state a| ≤ ε + sampleError V η K M := by
  obtain ⟨I, C⟩ := reach_both hv htb hr
  obtain ⟨nd2, nc2, f1, f2, f3, f4, f5, f6, f7, f8⟩ := childC_facts I.tree hc
  rw [hd] at f1
  obtain rfl := Option.some.inj f1
  rw [hnc] at f2
  obtain rfl := Option.some.inj f2
  have hdep := (I.tree.heap.dTime d nd.skel (by simp [hd])).2
  simp only [DNode.skel] at hdep
  have hleaf : isLeaf env m nd = false := by
    simp [isLeaf, hs]
    omega
  have hrem : remaining m (nc.depth + 1) = n := by
    unfold remaining
    omega
  obtain ⟨x1, x2, x3⟩ := hobs nd.state a hs f8
  have hkid : ∀ q ∈ nc.kids, childD st c q.1 = some q.2 := fun q hq => childD_of_mem I.tree hnc (show (q.1, q.2) ∈ nc.kids from hq)
  have hvia : M ≤ h.countP (Event.stepVia c) := via_often hl hv htb hu hr W.often hd hc hleaf
  refine ⟨hvia, ?_⟩
  set f : S → ℝ := fun o => expValue env m obs n (nd.time + 1) o with hf
  set μ := mean1 (obs nd.state a) f with hμ
  have hfV : ∀ o, |f o| ≤ V := fun o => hV n (nd.time + 1) o (by omega)
  have hμV : |μ| ≤ V := mean1_abs x1 hfV
  have hklen : nc.kids.length ≤ K := by
    have hnd : (nc.kids.map Prod.fst).Nodup := I.tree.heap.cNodup c nc.skel (by simp [hnc])
    have hsub : nc.kids.map Prod.fst ⊆ env.succ nc.state nc.action := by
      intro o ho
      obtain ⟨q, hq, rfl⟩ := List.mem_map.1 ho
      obtain ⟨nc3, _, g1, _, _, _, _, _, g7⟩ := childD_facts I.tree (hkid q hq)
      rw [hnc] at g1
      obtain rfl := Option.some.inj g1
      exact g7
    have := (List.subperm_of_subset hnd hsub).length_le
    rw [List.length_map] at this
    exact le_trans this (hK _ _)
  have hsum := visits_kids hv htb hu hr hnc
  have hdev := W.close c nc hnc
  rw [sampleSum_kids hv htb hu hr hnc, hsum] at hdev
  have main := wmean_close (l := nc.kids) (w := fun q => w q.2) (n := fun q => h.countP (Event.stepInto q.2)) (v := fun q => below q.2)
    (f := fun q => f q.1) (μ := μ) (V := V) (η := η) (ε := ε) (K := K) (M := M) hV0 hη hK0 hklen hM (by rw [← hsum]; exact hvia)
    (fun q hq => hw c q.1 q.2 (hkid q hq))
    (fun q _ => by
      have := abs_sub (f q.1) μ
      linarith [hfV q.1])
    (fun q hq => by
      obtain ⟨nc3, nd', g1, g2, _, g4, g5, g6, _⟩ := childD_facts I.tree (hkid q hq)
      rw [hnc] at g1
      obtain rfl := Option.some.inj g1
      have := ih q.2 nd' g2 (by omega)
      rw [g4, g6, f7] at this
      exact this)
    (by
      refine le_trans (le_of_eq ?_) hdev
      congr 2
      refine List.map_congr_left fun q _ => ?_
      simp only [excess, hrem, f4, f5, f7, hμ, hf])
  unfold actionValue sampleError
  rw [f4, f5, hlr _ _ hs f8, add_sub_add_left_eq_sub]
  exact main

/-- The DP values of a well sampled tree are close to the value of the game. -/
theorem dp_close (hl : env.Live) (hv : alg.Valid) (htb : Leftover tb) (hu : m.useTable = false) (hr : Reachable env m alg k s0 dp tm tb st h) (hq : Quiescent st)
    (hobs : Transitions env obs po) (hlr : ∀ s a, env.isSink s = false → a ∈ env.actions s → lr s a = mean1 (obs s a) fun o => env.reward s a o)
    (hV0 : 0 ≤ V) (hV : ∀ n t s, n ≤ (m.maxDepth - dp).toNat → |expValue env m obs n t s| ≤ V) (hη : 0 ≤ η)
    (hK0 : 0 < K) (hK : ∀ s a, (env.succ s a).length ≤ K) (hM : 2 * K ≤ M) (W : Sampled env m obs s0 dp M η st h) :
    ∀ (n d : Nat) nd, st.dn[d]? = some nd → (m.maxDepth - nd.depth).toNat = n →
      |treeValue env m lr st h n d - expValue env m obs n nd.time nd.state| ≤ n * sampleError V η K M := by
  have I := reach_inv hv htb hr
  have hse : 0 ≤ sampleError V η K M := by unfold sampleError; positivity
  have leafKids : ∀ (d : Nat) nd, st.dn[d]? = some nd → isLeaf env m nd = true → nd.kids = [] := by
    intro d nd hd hl
    rw [isLeaf_skel] at hl
    exact I.tree.heap.dLeaf d nd.skel (by simp [hd]) hl
  have hheur : ∀ (d : Nat) nd, st.dn[d]? = some nd → nd.heur = heurOf env m nd.state := by
    intro d nd hd
    exact I.tree.heap.dHeur d nd.skel (by simp [hd])
  intro n
  induction n with
  | zero =>
    intro d nd hd hn
    simp [treeValue, hd, expValue, hheur d nd hd]
  | succ n ih =>
    intro d nd hd hn
    simp only [treeValue, hd, Option.elim_some, expValue]
    by_cases hs : env.isSink nd.state = true
    · have hk := leafKids d nd hd (by simp [isLeaf, hs])
      rw [if_pos hk, if_pos hs, hheur d nd hd]
      have : heurOf env m nd.state = 0 := by
        unfold heurOf
        split
        · rfl
        · simp [hs]
      rw [this]
      simp only [sub_zero, abs_zero]
      positivity
    · have hs' : env.isSink nd.state = false := by simpa using hs
      have hleaf : isLeaf env m nd = false := by
        simp [isLeaf, hs']
        omega
      have hex : ∀ a ∈ env.actions nd.state, ∃ c, childC st d a = some c := fun a ha => by
        obtain ⟨c, hc, _⟩ := c77_complete hl hv htb hr W.explored hd hleaf ha
        exact ⟨c, hc⟩
      obtain ⟨a0, ha0⟩ := List.exists_mem_of_ne_nil _ (hl.acts _ hs')
      obtain ⟨c0, hc0⟩ := hex a0 ha0
      obtain ⟨nd1, _, f1, _, f3, _⟩ := childC_facts I.tree hc0
      rw [hd] at f1
      obtain rfl := Option.some.inj f1
      rw [if_neg (List.ne_nil_of_mem f3), if_neg hs]
      let q : A → ℝ := fun a => (find? a nd.kids).elim 0 fun c => (st.cn[c]?).elim 0 (chanceValue env m lr st h (treeValue env m lr st h n))
      have hq1 : ∀ a c, childC st d a = some c → q a = (st.cn[c]?).elim 0 (chanceValue env m lr st h (treeValue env m lr st h n)) := by
        intro a c hc
        have : find? a nd.kids = some c := by simpa [childC, hd] using hc
        simp [q, this]
      have e0 : bestOf (isOpponent m nd.time) (nd.kids.map fun p => (st.cn[p.2]?).elim 0 (chanceValue env m lr st h (treeValue env m lr st h n))) =
          bestOf (isOpponent m nd.time) ((env.actions nd.state).map q) := by
        apply bestOf_congr
        intro x
        simp only [List.mem_map]
        constructor
        · rintro ⟨⟨a, c⟩, hac, rfl⟩
          have hcc := childC_of_mem I.tree hd hac
          obtain ⟨nd2, _, k1, _, _, _, _, _, _, k8⟩ := childC_facts I.tree hcc
          rw [hd] at k1
          obtain rfl := Option.some.inj k1
          exact ⟨a, k8, hq1 a c hcc⟩
        · rintro ⟨a, ha, rfl⟩
          obtain ⟨c, hc⟩ := hex a ha
          obtain ⟨nd2, _, k1, _, k3, _⟩ := childC_facts I.tree hc
          rw [hd] at k1
          obtain rfl := Option.some.inj k1
          exact ⟨(a, c), k3, (hq1 a c hc).symm⟩
      rw [e0]
      refine bestOf_close (hl.acts _ hs') fun a ha => ?_
      obtain ⟨c, hc⟩ := hex a ha
      obtain ⟨_, nc, _, g2, _⟩ := childC_facts I.tree hc
      have := (chance_close hl hv htb hu hr hobs hlr hV0 hV hη hK0 hK hM W (w := weightD env m st h)
        (fun c o d' hcd => (weights_close hv htb hu hr hq hcd).1) ih hd hc g2 hn hs').2
      rw [hq1 a c hc, g2, Option.elim_some]
      push_cast
      rw [add_mul, one_mul]
      exact this

/-- The soft values of a well sampled tree are close to the value of the game. -/
theorem soft_close {cfg : Cfg S A} (ht : 0 < cfg.temp) {B : Nat} (hB : ∀ s, (env.actions s).length ≤ B)
    (hl : env.Live) (hv : alg.Valid) (htb : Leftover tb) (hu : m.useTable = false) (hr : Reachable env m alg k s0 dp tm tb st h) (hq : Quiescent st)
    (hobs : Transitions env obs po) (hlr : ∀ s a, env.isSink s = false → a ∈ env.actions s → lr s a = mean1 (obs s a) fun o => env.reward s a o)
    (hV0 : 0 ≤ V) (hV : ∀ n t s, n ≤ (m.maxDepth - dp).toNat → |expValue env m obs n t s| ≤ V) (hη : 0 ≤ η)
    (hK0 : 0 < K) (hK : ∀ s a, (env.succ s a).length ≤ K) (hM : 2 * K ≤ M) (W : Sampled env m obs s0 dp M η st h) :
    ∀ (n d : Nat) nd, st.dn[d]? = some nd → (m.maxDepth - nd.depth).toNat = n →
      |softTree cfg env m lr st h n d - expValue env m obs n nd.time nd.state| ≤ n * (cfg.temp * Real.log B + sampleError V η K M) := by
  have I := reach_inv hv htb hr
  have hse : 0 ≤ sampleError V η K M := by unfold sampleError; positivity
  have hlog : 0 ≤ cfg.temp * Real.log B := mul_nonneg ht.le (Real.log_natCast_nonneg B)
  have leafKids : ∀ (d : Nat) nd, st.dn[d]? = some nd → isLeaf env m nd = true → nd.kids = [] := by
    intro d nd hd hl
    rw [isLeaf_skel] at hl
    exact I.tree.heap.dLeaf d nd.skel (by simp [hd]) hl
  have hheur : ∀ (d : Nat) nd, st.dn[d]? = some nd → nd.heur = heurOf env m nd.state := by
    intro d nd hd
    exact I.tree.heap.dHeur d nd.skel (by simp [hd])
  intro n
  induction n with
  | zero =>
    intro d nd hd hn
    simp [softTree, hd, expValue, hheur d nd hd]
  | succ n ih =>
    intro d nd hd hn
    simp only [softTree, hd, Option.elim_some, expValue]
    by_cases hs : env.isSink nd.state = true
    · have hk := leafKids d nd hd (by simp [isLeaf, hs])
      rw [if_pos hk, if_pos hs, hheur d nd hd]
      have : heurOf env m nd.state = 0 := by
        unfold heurOf
        split
        · rfl
        · simp [hs]
      rw [this]
      simp only [sub_zero, abs_zero]
      positivity
    · have hs' : env.isSink nd.state = false := by simpa using hs
      have hleaf : isLeaf env m nd = false := by
        simp [isLeaf, hs']
        omega
      have hfind : ∀ a ∈ env.actions nd.state, ∃ c, find? a nd.kids = some c ∧ childC st d a = some c := by
        intro a ha
        obtain ⟨c, hc, _⟩ := c77_complete hl hv htb hr W.explored hd hleaf ha
        have : find? a nd.kids = some c := by simpa [childC, hd] using hc
        exact ⟨c, this, hc⟩
      obtain ⟨a0, ha0⟩ := List.exists_mem_of_ne_nil _ (hl.acts _ hs')
      obtain ⟨c0, _, hc0⟩ := hfind a0 ha0
      obtain ⟨nd1, _, f1, _, f3, _⟩ := childC_facts I.tree hc0
      rw [hd] at f1
      obtain rfl := Option.some.inj f1
      rw [if_neg (List.ne_nil_of_mem f3), if_neg hs]
      let q : A → ℝ := fun a => (find? a nd.kids).elim 0 fun c => (st.cn[c]?).elim 0 (chanceSoft env m lr st h (softTree cfg env m lr st h n))
      have hcong : softmax cfg.temp
          (fun a => (find? a nd.kids).elim (untriedValue cfg (isOpponent m nd.time) nd.state a) fun c =>
            sgn (isOpponent m nd.time) * (st.cn[c]?).elim 0 (chanceSoft env m lr st h (softTree cfg env m lr st h n)))
          (env.actions nd.state) = softmax cfg.temp (fun a => sgn (isOpponent m nd.time) * q a) (env.actions nd.state) := by
        unfold softmax
        congr 3
        refine List.map_congr_left fun a ha => ?_
        obtain ⟨c, hc, _⟩ := hfind a ha
        simp [q, hc]
      rw [hcong]
      have e1 := softmax_close ht (isOpponent m nd.time) q (hl.acts _ hs')
      have e2 := bestOf_close (opp := isOpponent m nd.time) (f := q) (g := fun a => actionValue env m obs n nd.time nd.state a)
        (ε := n * (cfg.temp * Real.log B + sampleError V η K M) + sampleError V η K M) (hl.acts _ hs') (by
          intro a ha
          obtain ⟨c, h1, h2⟩ := hfind a ha
          obtain ⟨_, nc, _, g2, _⟩ := childC_facts I.tree h2
          have := (chance_close hl hv htb hu hr hobs hlr hV0 hV hη hK0 hK hM W (w := softWeight env m st h)
            (fun c o d' hcd => (weights_close hv htb hu hr hq hcd).2) ih hd h2 g2 hn hs').2
          simpa [q, h1, g2, chanceSoft] using this)
      have e3 : cfg.temp * Real.log (env.actions nd.state).length ≤ cfg.temp * Real.log B := by
        refine mul_le_mul_of_nonneg_left (Real.log_le_log ?_ ?_) ht.le
        · exact_mod_cast List.length_pos_of_ne_nil (hl.acts _ hs')
        · exact_mod_cast hB _
      have e4 := abs_sub_le (sgn (isOpponent m nd.time) * softmax cfg.temp (fun a => sgn (isOpponent m nd.time) * q a) (env.actions nd.state))
        (bestOf (isOpponent m nd.time) ((env.actions nd.state).map q))
        (bestOf (isOpponent m nd.time) ((env.actions nd.state).map fun a => actionValue env m obs n nd.time nd.state a))
      refine le_trans e4 ?_
      push_cast
      linarith

end

end Verif.Random
