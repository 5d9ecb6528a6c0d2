import Verif.Spec.UctStoch
import Verif.Props.Converge
import Verif.Proofs.FlowAll
import Verif.Proofs.Ville

/-! # Convergence of UCT in stochastic games (C102): searches whose samples are typical -/

namespace Verif.Uct

open Verif.Search Verif.Backups Verif.Random

set_option linter.unusedSectionVars false
set_option linter.unusedSimpArgs false

section
variable {S A : Type} [DecidableEq S] [DecidableEq A] {env : Env S A ℝ} {m : Manager S ℝ} {cfg : Cfg S A ℝ} {k : Nat} {dp : Int}
  {st : St S A ℝ (Stats ℝ) (Stats ℝ)} {h : List (Event S A ℝ)} {obs : S → A → List (S × ℝ)} {lo hi : ℝ}

/-- How much better a sampled observation is than the expectation. -/
noncomputable def surplus (env : Env S A ℝ) (m : Manager S ℝ) (obs : S → A → List (S × ℝ)) (s : S) (a : A) (dep tim : Int) (o : S) : ℝ :=
  env.reward s a o + expValue env m obs (remaining m (dep + 1)) (tim + 1) o - actionValue env m obs (remaining m (dep + 1)) tim s a

/-- A search whose samples were at all times close to their expectations. -/
def Typ (env : Env S A ℝ) (m : Manager S ℝ) (cfg : Cfg S A ℝ) (k : Nat) (dp : Int) (obs : S → A → List (S × ℝ)) (η K0 : ℝ)
    (st : St S A ℝ (Stats ℝ) (Stats ℝ)) (h : List (Event S A ℝ)) : Prop :=
  Run env m cfg k dp st h ∧ ∀ c, ¬ EverFar (surplus env m obs) η K0 c st h

/-- The values coming up to nodes of state `s` at time `t` with `n` moves to go are worth the game's value, up to `ε` on average. -/
def DevDS (env : Env S A ℝ) (m : Manager S ℝ) (cfg : Cfg S A ℝ) (k : Nat) (dp : Int) (obs : S → A → List (S × ℝ)) (η ε : ℝ) (n : Nat) (t : Int)
    (s : S) : Prop :=
  ∀ K0 : ℝ, 0 ≤ K0 → ∃ K : ℝ, 0 ≤ K ∧ ∀ (st : St S A ℝ (Stats ℝ) (Stats ℝ)) (h : List (Event S A ℝ)), Typ env m cfg k dp obs η K0 st h →
    ∀ (d : Nat) nd, st.dn[d]? = some nd → nd.state = s → nd.time = t → remaining m nd.depth = n →
      |(below d nd h).sum - (below d nd h).card * expValue env m obs n t s| ≤ ε * (below d nd h).card + K

/-- The same for the returns of the chance node of an action. -/
def DevCS (env : Env S A ℝ) (m : Manager S ℝ) (cfg : Cfg S A ℝ) (k : Nat) (dp : Int) (obs : S → A → List (S × ℝ)) (η ε : ℝ) (n : Nat) (t : Int)
    (s : S) (a : A) : Prop :=
  ∀ K0 : ℝ, 0 ≤ K0 → ∃ K : ℝ, 0 ≤ K ∧ ∀ (st : St S A ℝ (Stats ℝ) (Stats ℝ)) (h : List (Event S A ℝ)), Typ env m cfg k dp obs η K0 st h →
    ∀ (d : Nat) nd c, st.dn[d]? = some nd → nd.state = s → nd.time = t → remaining m nd.depth = n + 1 → childC st d a = some c →
      |(returnsC c h).sum - (returnsC c h).length * actionValue env m obs n t s a| ≤ ε * (returnsC c h).length + K

theorem DevCS.mono {η ε ε' : ℝ} {n : Nat} {t : Int} {s : S} {a : A} (hε : ε ≤ ε') (H : DevCS env m cfg k dp obs η ε n t s a) :
    DevCS env m cfg k dp obs η ε' n t s a := by
  intro K0 hK0
  obtain ⟨K, h1, h2⟩ := H K0 hK0
  refine ⟨K, h1, fun st h R d nd c e1 e2 e3 e4 e5 => (h2 st h R d nd c e1 e2 e3 e4 e5).trans ?_⟩
  have : ε * ((returnsC c h).length : ℝ) ≤ ε' * (returnsC c h).length := mul_le_mul_of_nonneg_right hε (by positivity)
  linarith

/-! ## Chance nodes -/

/-- What came up to a decision node is what went down to it, up to the trials that are being made. -/
theorem below_near (R : Run env m cfg k dp st h) {d : Nat} {nd : DNode S A ℝ (Stats ℝ)} (hd : st.dn[d]? = some nd) (hroot : d ≠ st.root) :
    (below d nd h).card ≤ h.countP (Event.stepInto d) ∧
      h.countP (Event.stepInto d) ≤ (below d nd h).card + (2 * k * (env.actions nd.state).length + k) := by
  obtain ⟨s0, tm, tb, htb, hr⟩ := R
  obtain ⟨I, C⟩ := reach_both (uct_valid cfg m) htb hr
  have h0 := trials_sum I C hd
  have hup : ∀ l : List (A × Nat), (∀ p ∈ l, childC st d p.1 = some p.2) →
      (l.map fun p => timesSelected d p.1 h).sum ≤ (l.map fun p => (returnsC p.2 h).length).sum + 2 * k * l.length ∧
      (l.map fun p => (returnsC p.2 h).length).sum ≤ (l.map fun p => timesSelected d p.1 h).sum := by
    intro l hl
    induction l with
    | nil => simp
    | cons p l ih =>
      have i1 := ih (fun q hq => hl q (by simp [hq]))
      have i2 := timesSelected_eq I C (hl p (by simp))
      have i3 := returns_near (uct_valid cfg m) htb hr p.2
      simp only [List.map_cons, List.sum_cons, List.length_cons]
      have : 2 * k * (l.length + 1) = 2 * k * l.length + 2 * k := by ring
      omega
  have h4 := hup nd.kids (fun p hp => childC_of_mem I.tree hd (show (p.1, p.2) ∈ nd.kids from hp))
  have h5 : (below d nd h).card = (nd.kids.map fun p => (returnsC p.2 h).length).sum + h.countP (Event.endAt d) := by
    unfold below
    rw [Multiset.card_add, coe_card_list, Multiset.card_replicate]
    simp
  have h6 := Nat.mul_le_mul_left (2 * k) (kids_le I hd)
  have h7 := C.v4 d
  rw [if_neg hroot] at h7
  rw [trials_eq] at h0
  have h8 := List.countP_le_length (p := Event.endAt d) (l := h)
  have h9 := List.countP_le_length (p := Phase.inSel d) (l := st.ws)
  have h10 := reach_len hr
  omega

theorem list_sum_abs {α : Type} (f : α → ℝ) (g : α → ℝ) (l : List α) (h : ∀ a ∈ l, |f a| ≤ g a) : |(l.map f).sum| ≤ (l.map g).sum := by
  induction l with
  | nil => simp
  | cons a l ih =>
    simp only [List.map_cons, List.sum_cons]
    exact (abs_add_le _ _).trans (add_le_add (h a (by simp)) (ih fun b hb => h b (by simp [hb])))

theorem mem_list_sum {α : Type} (f : α → Multiset ℝ) (l : List α) {x : ℝ} (h : x ∈ (l.map f).sum) : ∃ a ∈ l, x ∈ f a := by
  induction l with
  | nil => simp at h
  | cons a l ih =>
    rw [List.map_cons, List.sum_cons, Multiset.mem_add] at h
    rcases h with h | h
    · exact ⟨a, by simp, h⟩
    · obtain ⟨b, h1, h2⟩ := ih h
      exact ⟨b, by simp [h1], h2⟩

theorem devCS_of (ht : m.useTable = false) (hb : Bounded env m lo hi) {η ε : ℝ} (hε : 0 < ε) (hη0 : 0 ≤ η) (hη : η ≤ ε / 2)
    {n : Nat} {t : Int} {s : S} {a : A} (H : ∀ o ∈ env.succ s a, DevDS env m cfg k dp obs η (ε / 2) n (t + 1) o) :
    DevCS env m cfg k dp obs η ε n t s a := by
  intro K0 hK0
  set Q := actionValue env m obs n t s a with hQ
  set sur : S → ℝ := fun o => env.reward s a o + expValue env m obs n (t + 1) o - Q with hsur
  obtain ⟨K1, hK1, hD⟩ := uniformK (env.succ s a) (fun o K => ∀ (st : St S A ℝ (Stats ℝ) (Stats ℝ)) (h : List (Event S A ℝ)),
      Typ env m cfg k dp obs η K0 st h → ∀ (d : Nat) nd, st.dn[d]? = some nd → nd.state = o → nd.time = t + 1 → remaining m nd.depth = n →
        |(below d nd h).sum - (below d nd h).card * expValue env m obs n (t + 1) o| ≤ ε / 2 * (below d nd h).card + K)
    (fun o K K' hKK hP st h R d nd e1 e2 e3 e4 => (hP st h R d nd e1 e2 e3 e4).trans (by linarith))
    (fun o ho => H o ho K0 hK0)
  obtain ⟨b, hb0, hbs⟩ := uniformK (env.succ s a) (fun o K => |sur o| ≤ K ∧ |env.reward s a o| ≤ K ∧
      ((2 * k * (env.actions o).length + k : Nat) : ℝ) ≤ K)
    (fun o K K' hKK hP => ⟨hP.1.trans hKK, hP.2.1.trans hKK, hP.2.2.trans hKK⟩)
    (fun o ho => ⟨|sur o| + |env.reward s a o| + ((2 * k * (env.actions o).length + k : Nat) : ℝ), by positivity, by
      have := abs_nonneg (sur o); have := abs_nonneg (env.reward s a o)
      have : (0 : ℝ) ≤ ((2 * k * (env.actions o).length + k : Nat) : ℝ) := by positivity
      refine ⟨by linarith, by linarith, by linarith⟩⟩)
  have hM0 := absBound_nonneg hb dp
  set L := (env.succ s a).length with hL
  set c0 : ℝ := L * K1 + (η * (2 * k) + K0) + L * (b * b) with hc0
  have hQa := abs_nonneg Q
  refine ⟨ε * k + c0 + k * ((absBound m lo hi dp + b) + |Q|), by positivity, ?_⟩
  intro st h R d nd c hd hs htm hrem hc
  have R0 := R.1
  obtain ⟨s0, tm, tb, htb, hr⟩ := R.1
  have I := reach_inv (uct_valid cfg m) htb hr
  have C := (reach_both (uct_valid cfg m) htb hr).2
  obtain ⟨nd1, nc, k1, k2, k3, k4, k5, k6, k7, k8⟩ := childC_facts I.tree hc
  rw [hd] at k1; simp at k1; subst k1
  have hrem' : remaining m (nc.depth + 1) = n := by rw [k6]; unfold remaining at hrem ⊢; omega
  obtain ⟨p, hp, heq⟩ := flow_chance_all (uct_valid cfg m) htb ht hr k2
  have hkid : ∀ q ∈ nc.kids, q.1 ∈ env.succ s a ∧ ∃ nd', st.dn[q.2]? = some nd' ∧ nd'.state = q.1 ∧ nd'.time = t + 1 ∧
      remaining m nd'.depth = n ∧ q.2 ≠ st.root := by
    intro q hq
    obtain ⟨nc', nd', g1, g2, _, g4, g5, g6, g7⟩ := childD_facts I.tree (childD_of_mem I.tree k2 (show (q.1, q.2) ∈ nc.kids from hq))
    rw [k2] at g1; simp at g1; subst g1
    refine ⟨by rw [k4, k5, hs] at g7; exact g7, nd', g2, g4, by rw [g6, k7, htm], by rw [g5]; exact hrem', ?_⟩
    intro hx
    obtain ⟨r, hr', _, hdr, _⟩ := root_node I.tree
    rw [hx, hr'] at g2
    obtain rfl := Option.some.inj g2
    have := (I.tree.heap.dTime d nd.skel (by simp [hd])).2
    simp [DNode.skel] at this
    omega
  have hlen : nc.kids.length ≤ L := by
    have h1 := I.tree.heap.cNodup c nc.skel (by simp [k2])
    simp only [CNode.skel] at h1
    have : (nc.kids.map Prod.fst).length ≤ (env.succ s a).length := by
      apply List.Subperm.length_le
      apply List.Nodup.subperm h1
      intro o ho
      obtain ⟨q, hq, rfl⟩ := List.mem_map.1 ho
      exact (hkid q hq).1
    simpa using this
  rw [k4, k5, hs] at heq
  set T := (nc.kids.map fun q => (belowAt st q.2 h).map (· + env.reward s a q.1)).sum with hT
  -- the deviation splits
  have hsum : T.sum - T.card * Q = (nc.kids.map fun q => (belowAt st q.2 h).sum - (belowAt st q.2 h).card * expValue env m obs n (t + 1) q.1).sum +
      (nc.kids.map fun q => ((h.countP (Event.stepInto q.2) : ℝ)) * sur q.1).sum +
      (nc.kids.map fun q => (((belowAt st q.2 h).card : ℝ) - h.countP (Event.stepInto q.2)) * sur q.1).sum := by
    rw [hT, coe_sum_list, coe_card_list]
    have : ∀ l : List (S × Nat), (l.map fun q => ((belowAt st q.2 h).map (· + env.reward s a q.1)).sum).sum -
        ((l.map fun q => ((belowAt st q.2 h).map (· + env.reward s a q.1)).card).sum : Nat) * Q =
        (l.map fun q => (belowAt st q.2 h).sum - (belowAt st q.2 h).card * expValue env m obs n (t + 1) q.1).sum +
        (l.map fun q => ((h.countP (Event.stepInto q.2) : ℝ)) * sur q.1).sum +
        (l.map fun q => (((belowAt st q.2 h).card : ℝ) - h.countP (Event.stepInto q.2)) * sur q.1).sum := by
      intro l
      induction l with
      | nil => simp
      | cons q l ih =>
        simp only [List.map_cons, List.sum_cons]
        have e : ((belowAt st q.2 h).map (· + env.reward s a q.1)).sum = (belowAt st q.2 h).sum + (belowAt st q.2 h).card * env.reward s a q.1 := by
          rw [Multiset.sum_map_add]; simp
        rw [e, Multiset.card_map]
        push_cast at ih ⊢
        rw [hsur] at ih ⊢
        linear_combination ih
    exact this nc.kids
  have hcardT : (T.card : ℝ) = (nc.kids.map fun q => ((belowAt st q.2 h).card : ℝ)).sum := by
    rw [hT, coe_card_list]
    have : ∀ l : List (S × Nat), (((l.map fun q => ((belowAt st q.2 h).map (· + env.reward s a q.1)).card).sum : Nat) : ℝ) =
        (l.map fun q => ((belowAt st q.2 h).card : ℝ)).sum := by
      intro l
      induction l with
      | nil => simp
      | cons q l ih => simp only [List.map_cons, List.sum_cons, Multiset.card_map] at ih ⊢; rw [Nat.cast_add, ih]
    exact this nc.kids
  have d1 : |(nc.kids.map fun q => (belowAt st q.2 h).sum - (belowAt st q.2 h).card * expValue env m obs n (t + 1) q.1).sum| ≤
      ε / 2 * T.card + L * K1 := by
    refine (list_sum_abs _ (fun q => ε / 2 * ((belowAt st q.2 h).card : ℝ) + K1) _ ?_).trans ?_
    · intro q hq
      obtain ⟨h1, nd', h2, h3, h4, h5, _⟩ := hkid q hq
      rw [belowAt_some h2]
      exact hD q.1 h1 st h R q.2 nd' h2 h3 h4 h5
    · have : ∀ l : List (S × Nat), (l.map fun q => ε / 2 * ((belowAt st q.2 h).card : ℝ) + K1).sum =
          ε / 2 * (l.map fun q => ((belowAt st q.2 h).card : ℝ)).sum + l.length * K1 := by
        intro l
        induction l with
        | nil => simp
        | cons q l ih => simp only [List.map_cons, List.sum_cons, List.length_cons, ih]; push_cast; ring
      rw [this, ← hcardT]
      have : (nc.kids.length : ℝ) * K1 ≤ L * K1 := mul_le_mul_of_nonneg_right (by exact_mod_cast hlen) hK1
      linarith
  have hret : h.countP (Event.stepVia c) ≤ (returnsC c h).length + 2 * k := by
    have h1 := (returns_near (uct_valid cfg m) htb hr c).2
    have h2 := C.v3 c
    omega
  have hTr : (returnsC c h).length ≤ T.card := by
    rw [← heq, Multiset.card_add, Multiset.coe_card]; omega
  have d2 : |(nc.kids.map fun q => ((h.countP (Event.stepInto q.2) : ℝ)) * sur q.1).sum| ≤ ε / 2 * T.card + (η * (2 * k) + K0) := by
    have hno := R.2 c
    have h1 := sampleSum_kids (uct_valid cfg m) htb ht hr k2 (surplus env m obs nc.state nc.action nc.depth nc.time)
    have h2 : surplus env m obs nc.state nc.action nc.depth nc.time = sur := by
      funext o
      simp only [surplus, hrem', k4, k5, k7, hs, htm, hsur, hQ]
    rw [h2] at h1
    rw [← h1]
    have h3 : |sampleSum sur c h| ≤ η * h.countP (Event.stepVia c) + K0 := by
      by_contra hx
      exact hno ⟨nc, k2, h, List.suffix_refl _, by rw [h2]; exact not_le.1 hx⟩
    have h4 : (h.countP (Event.stepVia c) : ℝ) ≤ T.card + 2 * k := by exact_mod_cast hret.trans (by omega)
    have h5 : η * (h.countP (Event.stepVia c) : ℝ) ≤ η * (T.card + 2 * k) := mul_le_mul_of_nonneg_left h4 hη0
    have h6 : η * (T.card : ℝ) ≤ ε / 2 * T.card := mul_le_mul_of_nonneg_right hη (by positivity)
    linarith
  have d3 : |(nc.kids.map fun q => (((belowAt st q.2 h).card : ℝ) - h.countP (Event.stepInto q.2)) * sur q.1).sum| ≤ L * (b * b) := by
    refine (abs_list_sum _ (b * b) nc.kids ?_).trans (mul_le_mul_of_nonneg_right (by exact_mod_cast hlen) (by positivity))
    intro q hq
    obtain ⟨h1, nd', h2, h3, h4, h5, h6⟩ := hkid q hq
    obtain ⟨b1, b2, b3⟩ := hbs q.1 h1
    rw [belowAt_some h2, abs_mul]
    obtain ⟨n1, n2⟩ := below_near R0 h2 h6
    rw [h3] at n2
    have n1' : ((below q.2 nd' h).card : ℝ) ≤ h.countP (Event.stepInto q.2) := by exact_mod_cast n1
    have n2' : (h.countP (Event.stepInto q.2) : ℝ) ≤ (below q.2 nd' h).card + ((2 * k * (env.actions q.1).length + k : Nat) : ℝ) := by exact_mod_cast n2
    have : |((below q.2 nd' h).card : ℝ) - h.countP (Event.stepInto q.2)| ≤ b := by
      rw [abs_le]
      constructor <;> linarith
    exact mul_le_mul this b1 (abs_nonneg _) hb0
  have hdev : |T.sum - T.card * Q| ≤ ε * T.card + c0 := by
    rw [hsum]
    refine (abs_add_three _ _ _).trans ?_
    rw [hc0]
    linarith
  have hpb : ∀ x ∈ p, |x| ≤ absBound m lo hi dp + b := by
    intro x hx
    have hx' : x ∈ T := by rw [← heq]; exact Multiset.mem_add.2 (.inr hx)
    obtain ⟨q, hq, hxq⟩ := mem_list_sum _ _ hx'
    obtain ⟨y, hy, rfl⟩ := Multiset.mem_map.1 hxq
    obtain ⟨h1, nd', h2, _⟩ := hkid q hq
    rw [belowAt_some h2] at hy
    have := below_abs hb R0 h2 y hy
    have := (hbs q.1 h1).2.1
    exact (abs_add_le _ _).trans (by linarith)
  have := dev_transfer heq hp hε.le (by linarith) hpb hdev
  simpa using this

/-! ## Suboptimal actions are rare -/

theorem Typ.sub {η K0 : ℝ} (R : Typ env m cfg k dp obs η K0 st h) {s0 : S} {tm : Int} {tb : List ((Int × S) × Option Nat)} (htb : Leftover tb)
    {s1 : St S A ℝ (Stats ℝ) (Stats ℝ)} {h1 : List (Event S A ℝ)} (hr : Reachable env m (uct cfg m) k s0 dp tm tb s1 h1) (L : Le s1 st)
    (hh : h1 <:+ h) : Typ env m cfg k dp obs η K0 s1 h1 :=
  ⟨⟨s0, tm, tb, htb, hr⟩, fun c hx => R.2 c (everFar_mono L hh hx)⟩

/-- `selected_at`, with the state before the selection. -/
theorem selected_le (F : Fair env cfg) {s0 : S} {tm : Int} {tb : List ((Int × S) × Option Nat)} (htb : Leftover tb) (hr : Reachable env m (uct cfg m) k s0 dp tm tb st h)
    {h2 h1 : List (Event S A ℝ)} {w d c : Nat} {a : A} (hh : h = h2 ++ .selected w d a c :: h1) :
    ∃ s1 nd nd', Reachable env m (uct cfg m) k s0 dp tm tb s1 h1 ∧ Le s1 st ∧ s1.dn[d]? = some nd ∧ st.dn[d]? = some nd' ∧
      nd'.state = nd.state ∧ nd'.depth = nd.depth ∧ nd'.time = nd.time ∧ isLeaf env m nd = false ∧ a ∈ env.actions nd.state ∧
      ∀ v : View S A (Stats ℝ) (Stats ℝ), v = viewOf env m s1 { nd with visits := nd.visits + 1 } →
        (visitsOf v a = 0 ∧ cfg.prior = none ∧ childC s1 d a = none) ∨
         ∀ b ∈ env.actions nd.state, score cfg.term (priorOf cfg nd.state) (biasOf cfg v) v b ≤
           score cfg.term (priorOf cfg nd.state) (biasOf cfg v) v a := by
  obtain ⟨s1, s2, w', g1, _, E, g2, L⟩ := reach_prefix hr hh
  have I := reach_inv (uct_valid cfg m) htb g1
  have L' : Le s1 st := (le_eff E).trans L
  have hex : ∃ nd : DNode S A ℝ (Stats ℝ), s1.dn[d]? = some nd ∧ isLeaf env m nd = false ∧
      selectable cfg (viewOf env m s1 { nd with visits := nd.visits + 1 }) a = true := by
    cases E with
    | @selOld cur path rs new nd a c hw hd hl hm ha hf => exact ⟨nd, hd, hl, ha⟩
    | @selNew cur path rs new nd a hw hd hl hm ha hf => exact ⟨nd, hd, hl, ha⟩
  obtain ⟨nd, hd, hl, hs⟩ := hex
  obtain ⟨nd', k1, k2, k3, k4, _⟩ := L'.d d nd hd
  obtain ⟨q1, q2⟩ := selectable_spec F.eps hs
  refine ⟨s1, nd, nd', g1, L', hd, k1, k2, k3, k4, hl, q1, ?_⟩
  rintro v rfl
  rcases q2 with ⟨q2, q3⟩ | q2
  · left
    have hn : childC s1 d a = none := by
      cases hc : childC s1 d a with
      | none => rfl
      | some c =>
        refine absurd ?_ q3
        unfold Tried viewOf
        rw [mem_kidsY_keys I.tree hd (nd' := { nd with visits := nd.visits + 1 }) rfl]
        exact ⟨c, by simpa [childC, hd] using hc⟩
    refine ⟨?_, q2, hn⟩
    rw [(avgOf_view I.tree hd (nd' := { nd with visits := nd.visits + 1 }) rfl a).2, hn]
    simp
  · right
    exact q2 _ _ (priorOf_is F s1 { nd with visits := nd.visits + 1 }) (bias_spec cfg _)

/-- The average of a chance node that has been backed up often is close to the action's value. -/
theorem avg_closeS {η ε K0 : ℝ} {n : Nat} {t : Int} {s : S} {a : A} (H : DevCS env m cfg k dp obs η ε n t s a) (hε : 0 < ε) (hK0 : 0 ≤ K0) :
    ∃ B : Nat, 0 < B ∧ ∀ (st : St S A ℝ (Stats ℝ) (Stats ℝ)) (h : List (Event S A ℝ)), Typ env m cfg k dp obs η K0 st h → ∀ (d : Nat) nd c nc,
      st.dn[d]? = some nd → nd.state = s → nd.time = t → remaining m nd.depth = n + 1 → childC st d a = some c → st.cn[c]? = some nc →
      B ≤ (returnsC c h).length → |nc.y.avg - actionValue env m obs n t s a| ≤ 2 * ε := by
  obtain ⟨K, hK, hC⟩ := H K0 hK0
  obtain ⟨B, hB⟩ := exists_nat_ge (K / ε)
  refine ⟨B + 1, by omega, ?_⟩
  intro st h R d nd c nc hd hs htm hrem hc hnc hBl
  have h1 := hC st h R d nd c hd hs htm hrem hc
  obtain ⟨s0, tm, tb, htb, hr⟩ := R.1
  have hne : returnsC c h ≠ [] := by intro h0; rw [h0] at hBl; simp at hBl
  rw [(c27_chance_average hr hnc).2 hne]
  have hl : (B : ℝ) + 1 ≤ (returnsC c h).length := by exact_mod_cast hBl
  have hl0 : (0 : ℝ) < (returnsC c h).length := by
    have : (0:ℝ) ≤ B := by positivity
    linarith
  have e1 : (returnsC c h).sum / ((returnsC c h).length : ℝ) - actionValue env m obs n t s a =
      ((returnsC c h).sum - (returnsC c h).length * actionValue env m obs n t s a) / (returnsC c h).length := by
    field_simp
  rw [e1, abs_div, Nat.abs_cast, div_le_iff₀ hl0]
  rw [div_le_iff₀ (by linarith)] at hB
  nlinarith

/-- A suboptimal action gets a vanishing share of the selections. -/
theorem rareS {η K0 : ℝ} (hK0 : 0 ≤ K0) (F : Fair env cfg) (hb : Bounded env m lo hi) (hg : Growing cfg.term) (hvn : Vanishing cfg.term) (ht : m.useTable = false)
    {n : Nat} {t : Int} {s : S} {a b : A} (ha : a ∈ env.actions s)
    (hbm : b ∈ env.actions s) {Δ : ℝ} (Ha : DevCS env m cfg k dp obs η (Δ / 8) n t s a) (Hb : DevCS env m cfg k dp obs η (Δ / 8) n t s b) (hΔ0 : 0 < Δ)
    (hΔ : (if isOpponent m t then -1 else 1) * actionValue env m obs n t s a - (if isOpponent m t then -1 else 1) * actionValue env m obs n t s b = Δ) {δ : ℝ} (hδ : 0 < δ) :
    ∃ K : ℝ, 0 ≤ K ∧ ∀ (st : St S A ℝ (Stats ℝ) (Stats ℝ)) (h : List (Event S A ℝ)), Typ env m cfg k dp obs η K0 st h →
      ∀ (d : Nat) nd, st.dn[d]? = some nd → nd.state = s → nd.time = t → remaining m nd.depth = n + 1 →
        timesSelected d b h ≤ δ * trialsThrough d h + K := by
  obtain ⟨plo, phi, hp0, hp1, hp⟩ := list_bounds (priorOf cfg s) (env.actions s) (priorOf_pos F s)
  set M := absBound m lo hi dp with hMdef
  have hM0 : 0 ≤ M := absBound_nonneg hb dp
  set β0 : ℝ := if cfg.bias = -1 then 1 / 1000 else cfg.bias with hβ0def
  have hβ0 : 0 < β0 := bias0_pos F
  set β1 : ℝ := if cfg.bias = -1 then max (1 / 1000) M else cfg.bias with hβ1def
  set σ : ℝ := if isOpponent m t then -1 else 1 with hσ
  have hσabs : ∀ x : ℝ, |σ * x| = |x| := by
    intro x
    rw [hσ]
    split <;> simp
  obtain ⟨Ba, hBa0, hBa⟩ := avg_closeS Ha (by linarith) hK0
  obtain ⟨Bb, hBb0, hBb⟩ := avg_closeS Hb (by linarith) hK0
  obtain ⟨N0, hN0⟩ := backed_often F hb hg k dp s (max Ba Bb + 2 * k)
  have hβ01 : β0 ≤ β1 := by
    rw [hβ0def, hβ1def]
    split
    · exact le_max_left _ _
    · exact le_refl _
  have hβ1 : 0 < β1 := lt_of_lt_of_le hβ0 hβ01
  have hphi : 0 < phi := lt_of_lt_of_le hp0 hp1
  obtain ⟨N2, hN2⟩ := hvn (Δ / 2 / (phi * β1)) δ (by positivity) hδ
  set P : ℝ := ((uct cfg m).initVisits : ℝ) + 2 with hP
  have hP0 : 0 ≤ P := by positivity
  refine ⟨((max N0 N2 : Nat) : ℝ) + δ * P + k + 1, by positivity, ?_⟩
  intro st h R d nd hd hs htm hrem
  have R0 := R
  obtain ⟨s0, tm, tb, htb, hr⟩ := R.1
  have gen : ∀ h1 h2 : List (Event S A ℝ), h = h2 ++ h1 →
      (timesSelected d b h1 : ℝ) ≤ δ * trialsThrough d h1 + (((max N0 N2 : Nat) : ℝ) + δ * P + k + 1) := by
    intro h1
    induction h1 with
    | nil => intro h2 _; simp [timesSelected, trialsThrough]; positivity
    | cons e h1 ih =>
      intro h2 hh
      have ih' := ih (h2 ++ [e]) (by simp [hh])
      have hmono : trialsThrough d h1 ≤ trialsThrough d (e :: h1) := by
        unfold trialsThrough; rw [List.countP_cons]; omega
      have hmono' : δ * (trialsThrough d h1 : ℝ) ≤ δ * trialsThrough d (e :: h1) :=
        mul_le_mul_of_nonneg_left (by exact_mod_cast hmono) hδ.le
      by_cases he : ∃ w c, e = .selected w d b c
      · obtain ⟨w, c, rfl⟩ := he
        have hc : timesSelected d b (.selected w d b c :: h1) = timesSelected d b h1 + 1 := by
          unfold timesSelected; rw [List.countP_cons]; simp
        rw [hc, Nat.cast_add, Nat.cast_one]
        by_cases hn : max N0 N2 ≤ trialsThrough d h1
        · -- late enough: `b` must have few visits
          obtain ⟨s1, nd1, nd', r1, hle, d1, d2, e1, e2, e3, hl, hact, hsc⟩ := selected_le F htb hr hh
          rw [hd] at d2; simp at d2; subst d2
          rw [hs] at e1; rw [htm] at e3
          have R1 : Typ env m cfg k dp obs η K0 s1 h1 := R0.sub htb r1 hle ⟨h2 ++ [.selected w d b c], by simp [hh]⟩
          obtain ⟨I, C⟩ := reach_both (uct_valid cfg m) htb r1
          obtain ⟨vb1, vb2⟩ := visits_near htb r1 d1 (nd' := { nd1 with visits := nd1.visits + 1 }) rfl b
          rcases hsc _ rfl with ⟨_, _, hnone⟩ | hsc
          · rw [timesSelected_none C hnone]
            have : 0 ≤ δ * (trialsThrough d (.selected w d b c :: h1) : ℝ) := by positivity
            have : 0 ≤ δ * P := by positivity
            simp only [Nat.cast_zero]
            have : (0:ℝ) ≤ ((max N0 N2 : Nat) : ℝ) := by positivity
            have : (0:ℝ) ≤ k := by positivity
            linarith
          · set v := viewOf env m s1 { nd1 with visits := nd1.visits + 1 } with hvdef
            have hvis : v.visits = nd1.visits + 1 := rfl
            have hv1 := C.v1 d nd1 d1
            have hends := ends_le_one (uct_valid cfg m) htb ht r1 d1 hl
            rw [← trials_eq] at hv1
            have hvN : N2 ≤ v.visits := by omega
            have hsmall : (visitsOf v b : ℝ) < δ * v.visits := by
              by_contra hge
              have hterm := hN2 v.visits hvN (visitsOf v b) (not_lt.1 hge)
              have hscore := hsc a (by rw [← e1]; exact ha)
              unfold score at hscore
              have hopp : v.opp = isOpponent m t := by rw [hvdef, e3]; rfl
              rw [hopp, ← e1, ← hσ] at hscore
              have hrem1 : remaining m nd1.depth = n + 1 := by rw [← e2]; exact hrem
              have hof := fun x hx => (hN0 s1 h1 R1.1 d nd1 d1 e1.symm (le_trans (le_max_left _ _) hn) x hx).2 (by omega)
              obtain ⟨ca, nca, ga1, ga2, ga3, _⟩ := hof a ha
              obtain ⟨cb, ncb, gb1, gb2, gb3, _⟩ := hof b hbm
              have hA := (hBa s1 h1 R1 d nd1 ca nca d1 e1.symm e3.symm hrem1 ga1 ga2 (by omega)).trans (by linarith : 2 * (Δ / 8) ≤ Δ / 4)
              have hB' := (hBb s1 h1 R1 d nd1 cb ncb d1 e1.symm e3.symm hrem1 gb1 gb2 (by omega)).trans (by linarith : 2 * (Δ / 8) ≤ Δ / 4)
              have vA : avgOf v a = nca.y.avg := by
                rw [hvdef, (avgOf_view I.tree d1 (nd' := { nd1 with visits := nd1.visits + 1 }) rfl a).1, ga1]; simp [ga2]
              have vB : avgOf v b = ncb.y.avg := by
                rw [hvdef, (avgOf_view I.tree d1 (nd' := { nd1 with visits := nd1.visits + 1 }) rfl b).1, gb1]; simp [gb2]
              have hbias := bias_bounds F (v := v) (M := M)
                (fun a => avgOf_bound hb htb r1 d1 (nd' := { nd1 with visits := nd1.visits + 1 }) rfl a)
              rw [← hβ0def, ← hβ1def] at hbias
              rw [vA, vB] at hscore
              have sA : |σ * nca.y.avg - σ * actionValue env m obs n t s a| ≤ Δ / 4 := by rw [← mul_sub, hσabs]; exact hA
              have sB : |σ * ncb.y.avg - σ * actionValue env m obs n t s b| ≤ Δ / 4 := by rw [← mul_sub, hσabs]; exact hB'
              rw [abs_le] at sA sB
              have hta := hg.1 v.visits (visitsOf v a)
              have htb' := hg.1 v.visits (visitsOf v b)
              obtain ⟨pa1, pa2⟩ := hp a ha
              obtain ⟨pb1, pb2⟩ := hp b hbm
              have q1 : 0 ≤ priorOf cfg s a * biasOf cfg v * cfg.term v.visits (visitsOf v a) :=
                mul_nonneg (mul_nonneg (hp0.le.trans pa1) (hβ0.le.trans hbias.1)) hta
              have q2 : priorOf cfg s b * biasOf cfg v * cfg.term v.visits (visitsOf v b) < Δ / 2 := by
                have h0 : priorOf cfg s b * biasOf cfg v ≤ phi * β1 :=
                  mul_le_mul pb2 hbias.2 (hβ0.le.trans hbias.1) hphi.le
                calc _ ≤ phi * β1 * cfg.term v.visits (visitsOf v b) := mul_le_mul_of_nonneg_right h0 htb'
                  _ < phi * β1 * (Δ / 2 / (phi * β1)) := by
                    apply mul_lt_mul_of_pos_left hterm; positivity
                  _ = Δ / 2 := by field_simp
              linarith [sA.1, sB.2]
            have hvr : (v.visits : ℝ) ≤ trialsThrough d h1 + P := by
              have : v.visits ≤ trialsThrough d h1 + ((uct cfg m).initVisits + 2) := by omega
              rw [hP]; exact_mod_cast this
            have h5 : (timesSelected d b h1 : ℝ) ≤ visitsOf v b + k := by exact_mod_cast vb2
            have h6 : δ * (v.visits : ℝ) ≤ δ * (trialsThrough d h1 + P) := mul_le_mul_of_nonneg_left hvr hδ.le
            have : (0:ℝ) ≤ ((max N0 N2 : Nat) : ℝ) := by positivity
            nlinarith
        · have h7 : timesSelected d b h1 ≤ trialsThrough d h1 := by
            unfold timesSelected trialsThrough
            apply List.countP_mono_left
            intro e _
            cases e <;> simp
            intro h _; exact h
          have h8 : (timesSelected d b h1 : ℝ) ≤ ((max N0 N2 : Nat) : ℝ) := by exact_mod_cast (by omega)
          have : 0 ≤ δ * (trialsThrough d (.selected w d b c :: h1) : ℝ) := by positivity
          have : 0 ≤ δ * P := by positivity
          have : (0:ℝ) ≤ k := by positivity
          linarith
      · have hc : timesSelected d b (e :: h1) = timesSelected d b h1 := by
          unfold timesSelected
          rw [List.countP_cons, if_neg]
          · rfl
          · intro hx
            cases e <;> simp at hx
            obtain ⟨rfl, rfl⟩ := hx
            exact he ⟨_, _, rfl⟩
        rw [hc]
        linarith
  exact gen h [] (by simp)

/-! ## The induction -/

theorem uniformE {α : Type} (l : List α) (P : α → ℝ → Prop) (hmono : ∀ a e e', e' ≤ e → P a e → P a e')
    (H : ∀ a ∈ l, ∃ e : ℝ, 0 < e ∧ P a e) : ∃ e : ℝ, 0 < e ∧ ∀ a ∈ l, P a e := by
  induction l with
  | nil => exact ⟨1, one_pos, by simp⟩
  | cons a l ih =>
    obtain ⟨e1, h1, h2⟩ := ih (fun b hb => H b (by simp [hb]))
    obtain ⟨e2, h3, h4⟩ := H a (by simp)
    refine ⟨min e1 e2, lt_min h1 h3, ?_⟩
    intro b hb
    rcases List.mem_cons.1 hb with rfl | hb
    · exact hmono _ _ _ (min_le_right _ _) h4
    · exact hmono _ _ _ (min_le_left _ _) (h2 b hb)

theorem act_devS (F : Fair env cfg) (hb : Bounded env m lo hi) (hg : Growing cfg.term) (hvn : Vanishing cfg.term) (ht : m.useTable = false)
    {n : Nat} {t : Int} {s : S} (hsink : env.isSink s = false)
    {b : A} (hbm : b ∈ env.actions s) {ε : ℝ} (hε : 0 < ε) :
    ∃ ε1 : ℝ, 0 < ε1 ∧ ∀ η : ℝ, (∀ a ∈ env.actions s, DevCS env m cfg k dp obs η ε1 n t s a) → ∀ K0 : ℝ, 0 ≤ K0 → ∃ K : ℝ, 0 ≤ K ∧
      ∀ (st : St S A ℝ (Stats ℝ) (Stats ℝ)) (h : List (Event S A ℝ)), Typ env m cfg k dp obs η K0 st h →
      ∀ (d : Nat) nd c, st.dn[d]? = some nd → nd.state = s → nd.time = t → remaining m nd.depth = n + 1 → childC st d b = some c →
        |(returnsC c h).sum - (returnsC c h).length * expValue env m obs (n + 1) t s| ≤ ε * trialsThrough d h + K := by
  have hlen : ∀ (st : St S A ℝ (Stats ℝ) (Stats ℝ)) (h : List (Event S A ℝ)), Run env m cfg k dp st h → ∀ (d c : Nat),
      childC st d b = some c → (returnsC c h).length ≤ timesSelected d b h ∧ timesSelected d b h ≤ trialsThrough d h := by
    intro st h R d c hc
    obtain ⟨s0, tm, tb, htb, hr⟩ := R
    obtain ⟨I, C⟩ := reach_both (uct_valid cfg m) htb hr
    refine ⟨by rw [timesSelected_eq I C hc]; exact (returns_near (uct_valid cfg m) htb hr c).1, ?_⟩
    unfold timesSelected trialsThrough
    apply List.countP_mono_left
    intro e _
    cases e <;> simp
    intro h _; exact h
  have hV : expValue env m obs (n + 1) t s = bestOf (isOpponent m t) ((env.actions s).map fun a => actionValue env m obs n t s a) := by
    simp [expValue, hsink, actionValue]
  set V := expValue env m obs (n + 1) t s with hVdef
  by_cases hq : actionValue env m obs n t s b = V
  · refine ⟨ε, hε, fun η H K0 hK0 => ?_⟩
    obtain ⟨K, hK, hC⟩ := H b hbm K0 hK0
    refine ⟨K, hK, ?_⟩
    intro st h R d nd c hd hs htm hrem hc
    have h1 := hC st h R d nd c hd hs htm hrem hc
    obtain ⟨h2, h3⟩ := hlen st h R.1 d c hc
    rw [hq] at h1
    have : ε * ((returnsC c h).length : ℝ) ≤ ε * trialsThrough d h := mul_le_mul_of_nonneg_left (by exact_mod_cast h2.trans h3) hε.le
    linarith
  · obtain ⟨hmem, hbest⟩ := bestOf_spec (opp := isOpponent m t) (l := (env.actions s).map fun a => actionValue env m obs n t s a)
      (by intro h0; rw [List.map_eq_nil_iff] at h0; rw [h0] at hbm; simp at hbm)
    rw [← hV] at hmem hbest
    obtain ⟨a, ha, haV⟩ := List.mem_map.1 hmem
    have hle := hbest _ (List.mem_map.2 ⟨b, hbm, rfl⟩)
    have hlt : (if isOpponent m t then -1 else 1) * actionValue env m obs n t s b <
        (if isOpponent m t then -1 else 1) * actionValue env m obs n t s a := by
      rw [haV]
      refine lt_of_le_of_ne hle ?_
      intro h0
      apply hq
      split at h0 <;> linarith
    set Δ := (if isOpponent m t then -1 else 1) * actionValue env m obs n t s a - (if isOpponent m t then -1 else 1) * actionValue env m obs n t s b with hΔ
    have hΔ0 : 0 < Δ := by linarith
    refine ⟨Δ / 8, by linarith, fun η H K0 hK0 => ?_⟩
    set M := absBound m lo hi dp with hMdef
    have hM0 : 0 ≤ M := absBound_nonneg hb dp
    have hVa := abs_nonneg V
    have hden : 0 < M + |V| + 1 := by linarith
    obtain ⟨K, hK, hR⟩ := rareS hK0 F hb hg hvn ht ha hbm (H a ha) (H b hbm) hΔ0 hΔ.symm (δ := ε / (M + |V| + 1)) (by positivity)
    refine ⟨K * (M + |V| + 1), by positivity, ?_⟩
    intro st h R d nd c hd hs htm hrem hc
    have h1 := hR st h R d nd hd hs htm hrem
    obtain ⟨h2, h3⟩ := hlen st h R.1 d c hc
    have h4 : |(returnsC c h).sum| ≤ (returnsC c h).length * M := by
      have := msum_abs_le (K := M) (returnsC c h : Multiset ℝ) (fun x hx => ret_abs hb R.1 c x (by simpa using hx))
      simpa using this
    have h5 : |(returnsC c h).sum - (returnsC c h).length * V| ≤ (returnsC c h).length * (M + |V| + 1) := by
      have h6 := abs_sub (returnsC c h).sum ((returnsC c h).length * V)
      rw [abs_mul, Nat.abs_cast] at h6
      have : (0:ℝ) ≤ (returnsC c h).length := by positivity
      nlinarith
    have h7 : ((returnsC c h).length : ℝ) ≤ timesSelected d b h := by exact_mod_cast h2
    calc _ ≤ ((returnsC c h).length : ℝ) * (M + |V| + 1) := h5
      _ ≤ (ε / (M + |V| + 1) * trialsThrough d h + K) * (M + |V| + 1) := mul_le_mul_of_nonneg_right (h7.trans h1) hden.le
      _ = ε * trialsThrough d h + K * (M + |V| + 1) := by field_simp

theorem dev_stepS (F : Fair env cfg) (hb : Bounded env m lo hi) (hg : Growing cfg.term) (hvn : Vanishing cfg.term) (ht : m.useTable = false)
    {n : Nat} {t : Int} {s : S} {ε : ℝ} (hε : 0 < ε) :
    ∃ ε1 : ℝ, 0 < ε1 ∧ ∀ η : ℝ, (∀ a ∈ env.actions s, DevCS env m cfg k dp obs η ε1 n t s a) → DevDS env m cfg k dp obs η ε (n + 1) t s := by
  cases hsink : env.isSink s with
  | true =>
    refine ⟨1, one_pos, fun η _ K0 hK0 => ⟨0, le_refl _, ?_⟩⟩
    intro st h R d nd hd hs htm hrem
    have h1 := leaf_dev R.1 hd (by simp [isLeaf, hs, hsink])
    have h2 : heurOf env m nd.state = 0 := by
      rw [hs]; unfold heurOf; cases m.heuristic <;> simp [hsink]
    rw [h2] at h1
    have h3 : expValue env m obs (n + 1) t s = 0 := by simp [expValue, hsink]
    rw [h3, h1]
    simp only [abs_zero, add_zero]
    positivity
  | false =>
    set V := expValue env m obs (n + 1) t s with hVdef
    set L := (env.actions s).length with hL
    set ε' := ε / (L + 1) with hε'
    have hε'0 : 0 < ε' := by positivity
    obtain ⟨ε1, hε1, hact⟩ := uniformE (env.actions s) (fun b e => ∀ η : ℝ, (∀ a ∈ env.actions s, DevCS env m cfg k dp obs η e n t s a) → ∀ K0 : ℝ, 0 ≤ K0 →
        ∃ K : ℝ, 0 ≤ K ∧ ∀ (st : St S A ℝ (Stats ℝ) (Stats ℝ)) (h : List (Event S A ℝ)),
        Typ env m cfg k dp obs η K0 st h → ∀ (d : Nat) nd c, st.dn[d]? = some nd → nd.state = s → nd.time = t → remaining m nd.depth = n + 1 →
        childC st d b = some c → |(returnsC c h).sum - (returnsC c h).length * V| ≤ ε' * trialsThrough d h + K)
      (fun b e e' hee hP η H => hP η fun a ha => (H a ha).mono hee) (fun b hbm => act_devS F hb hg hvn ht hsink hbm hε'0)
    refine ⟨ε1, hε1, fun η H K0 hK0 => ?_⟩
    obtain ⟨K, hK, hA⟩ := uniformK (env.actions s) (fun b K => ∀ (st : St S A ℝ (Stats ℝ) (Stats ℝ)) (h : List (Event S A ℝ)),
        Typ env m cfg k dp obs η K0 st h → ∀ (d : Nat) nd c, st.dn[d]? = some nd → nd.state = s → nd.time = t → remaining m nd.depth = n + 1 →
        childC st d b = some c → |(returnsC c h).sum - (returnsC c h).length * V| ≤ ε' * trialsThrough d h + K)
      (fun a K K' hKK hP st h R d nd c e1 e2 e3 e4 e5 => (hP st h R d nd c e1 e2 e3 e4 e5).trans (by linarith))
      (fun b hbm => hact b hbm η H K0 hK0)
    refine ⟨ε * (2 * k * L) + L * K + |heurOf env m s - V|, by positivity, ?_⟩
    intro st h R d nd hd hs htm hrem
    have R0 := R
    obtain ⟨s0, tm, tb, htb, hr⟩ := R.1
    obtain ⟨I, C⟩ := reach_both (uct_valid cfg m) htb hr
    have hl : isLeaf env m nd = false := by
      unfold isLeaf
      rw [hs, hsink]
      simp only [Bool.false_or, decide_eq_false_iff_not]
      unfold remaining at hrem
      omega
    have hends := ends_le_one (uct_valid cfg m) htb ht hr hd hl
    have hheur : nd.heur = heurOf env m s := by
      have : nd.heur = heurOf env m nd.state := I.tree.heap.dHeur d nd.skel (by simp [hd])
      rw [this, hs]
    have hkl := kids_le I hd
    rw [hs, ← hL] at hkl
    have hkid : ∀ p ∈ nd.kids, childC st d p.1 = some p.2 ∧ p.1 ∈ env.actions s := by
      intro p hp
      have := childC_of_mem I.tree hd (show (p.1, p.2) ∈ nd.kids from hp)
      obtain ⟨nd1, nc, g1, g2, g3, g4, g5, g6, g7, g8⟩ := childC_facts I.tree this
      rw [hd] at g1; simp at g1; subst g1
      rw [hs] at g8
      exact ⟨this, g8⟩
    set T := trialsThrough d h with hT
    have hsum : (below d nd h).sum - (below d nd h).card * V =
        (nd.kids.map fun p => (returnsC p.2 h).sum - (returnsC p.2 h).length * V).sum +
          h.countP (Event.endAt d) * (heurOf env m s - V) := by
      unfold below
      rw [Multiset.sum_add, Multiset.card_add, coe_sum_list, coe_card_list, hheur]
      simp only [Multiset.sum_coe, Multiset.coe_card, Multiset.sum_replicate, Multiset.card_replicate, nsmul_eq_mul]
      have : ∀ l : List (A × Nat), (l.map fun p => (returnsC p.2 h).sum - (returnsC p.2 h).length * V).sum =
          (l.map fun p => (returnsC p.2 h).sum).sum - ((l.map fun p => (returnsC p.2 h).length).sum : Nat) * V := by
        intro l
        induction l with
        | nil => simp
        | cons p l ih => simp only [List.map_cons, List.sum_cons, ih]; push_cast; ring
      rw [this]
      push_cast
      ring
    have h1 : |(nd.kids.map fun p => (returnsC p.2 h).sum - (returnsC p.2 h).length * V).sum| ≤ L * (ε' * T + K) := by
      refine (abs_list_sum _ (ε' * T + K) nd.kids ?_).trans ?_
      · intro p hp
        obtain ⟨q1, q2⟩ := hkid p hp
        exact hA p.1 q2 st h R0 d nd p.2 hd hs htm hrem q1
      · exact mul_le_mul_of_nonneg_right (by exact_mod_cast hkl) (by positivity)
    have h2 : |(h.countP (Event.endAt d) : ℝ) * (heurOf env m s - V)| ≤ |heurOf env m s - V| := by
      rw [abs_mul, Nat.abs_cast]
      have : (h.countP (Event.endAt d) : ℝ) ≤ 1 := by exact_mod_cast hends
      have := abs_nonneg (heurOf env m s - V)
      nlinarith
    have h3 : T ≤ (below d nd h).card + 2 * k * L := by
      rw [hT, trials_sum I C hd]
      have : ∀ l : List (A × Nat), (∀ p ∈ l, childC st d p.1 = some p.2) →
          (l.map fun p => timesSelected d p.1 h).sum ≤ (l.map fun p => (returnsC p.2 h).length).sum + 2 * k * l.length := by
        intro l hl
        induction l with
        | nil => simp
        | cons p l ih =>
          have i1 := ih (fun q hq => hl q (by simp [hq]))
          have i2 := timesSelected_eq I C (hl p (by simp))
          have i3 := (returns_near (uct_valid cfg m) htb hr p.2).2
          simp only [List.map_cons, List.sum_cons, List.length_cons]
          have : 2 * k * (l.length + 1) = 2 * k * l.length + 2 * k := by ring
          omega
      have h4 := this nd.kids (fun p hp => (hkid p hp).1)
      have h5 : (below d nd h).card = (nd.kids.map fun p => (returnsC p.2 h).length).sum + h.countP (Event.endAt d) := by
        unfold below
        rw [Multiset.card_add, coe_card_list, Multiset.card_replicate]
        simp
      have h6 := Nat.mul_le_mul_left (2 * k) hkl
      omega
    have h3' : (T : ℝ) ≤ (below d nd h).card + 2 * k * L := by exact_mod_cast h3
    have h4 : L * (ε' * T) ≤ ε * T := by
      have : (L : ℝ) * ε' ≤ ε := by
        rw [hε', mul_div_assoc', div_le_iff₀ (by positivity)]
        nlinarith
      have hT0 : (0:ℝ) ≤ T := by positivity
      nlinarith
    have h5 : ε * (T : ℝ) ≤ ε * ((below d nd h).card + 2 * k * L) := mul_le_mul_of_nonneg_left h3' hε.le
    rw [hsum]
    refine (abs_add_le _ _).trans ?_
    nlinarith

/-- With every horizon, state, time and accuracy. -/
theorem dev_allS (F : Fair env cfg) (hb : Bounded env m lo hi) (hg : Growing cfg.term) (hvn : Vanishing cfg.term) (ht : m.useTable = false)
    (n : Nat) : ∀ (t : Int) (s : S) {ε : ℝ}, 0 < ε → ∃ η0 : ℝ, 0 < η0 ∧ ∀ η : ℝ, 0 < η → η ≤ η0 → DevDS env m cfg k dp obs η ε n t s := by
  induction n with
  | zero =>
    intro t s ε hε
    refine ⟨1, one_pos, fun η _ _ K0 hK0 => ⟨0, le_refl _, ?_⟩⟩
    intro st h R d nd hd hs htm hrem
    have hl : isLeaf env m nd = true := by
      unfold isLeaf; unfold remaining at hrem
      simp only [Bool.or_eq_true, decide_eq_true_eq]
      right; omega
    have h1 := leaf_dev R.1 hd hl
    rw [hs] at h1
    show |(below d nd h).sum - (below d nd h).card * heurOf env m s| ≤ _
    rw [h1]
    simp only [abs_zero, add_zero]
    positivity
  | succ n ih =>
    intro t s ε hε
    obtain ⟨ε1, hε1, hstep⟩ := dev_stepS (k := k) (dp := dp) (obs := obs) F hb hg hvn ht (n := n) (t := t) (s := s) hε
    obtain ⟨η0, hη0, hη⟩ := uniformE (env.actions s) (fun a e => ∀ η : ℝ, 0 < η → η ≤ e → ∀ o ∈ env.succ s a, DevDS env m cfg k dp obs η (ε1 / 2) n (t + 1) o)
      (fun a e e' hee hP η h0 h1 => hP η h0 (h1.trans hee)) (fun a _ => by
        obtain ⟨e, he, h1⟩ := uniformE (env.succ s a) (fun o e => ∀ η : ℝ, 0 < η → η ≤ e → DevDS env m cfg k dp obs η (ε1 / 2) n (t + 1) o)
          (fun a e e' hee hP η h0 h1 => hP η h0 (h1.trans hee)) (fun o _ => ih (t + 1) o (by linarith))
        exact ⟨e, he, fun η h2 h3 o ho => h1 o ho η h2 h3⟩)
    refine ⟨min η0 (ε1 / 2), lt_min hη0 (by linarith), fun η h0 h1 => hstep η fun a ha => ?_⟩
    exact devCS_of ht hb hε1 h0.le (h1.trans (min_le_right _ _)) (hη a ha η h0 (h1.trans (min_le_left _ _)))

/-- The same for actions. -/
theorem devC_allS (F : Fair env cfg) (hb : Bounded env m lo hi) (hg : Growing cfg.term) (hvn : Vanishing cfg.term) (ht : m.useTable = false)
    (n : Nat) (t : Int) (s : S) {ε : ℝ} (hε : 0 < ε) :
    ∃ η0 : ℝ, 0 < η0 ∧ ∀ η : ℝ, 0 < η → η ≤ η0 → ∀ a ∈ env.actions s, DevCS env m cfg k dp obs η ε n t s a := by
  obtain ⟨η0, hη0, hη⟩ := uniformE (env.actions s) (fun a e => ∀ η : ℝ, 0 < η → η ≤ e → ∀ o ∈ env.succ s a, DevDS env m cfg k dp obs η (ε / 2) n (t + 1) o)
    (fun a e e' hee hP η h0 h1 => hP η h0 (h1.trans hee)) (fun a _ => by
      obtain ⟨e, he, h1⟩ := uniformE (env.succ s a) (fun o e => ∀ η : ℝ, 0 < η → η ≤ e → DevDS env m cfg k dp obs η (ε / 2) n (t + 1) o)
        (fun a e e' hee hP η h0 h1 => hP η h0 (h1.trans hee)) (fun o _ => dev_allS F hb hg hvn ht n (t + 1) o (by linarith))
      exact ⟨e, he, fun η h2 h3 o ho => h1 o ho η h2 h3⟩)
  refine ⟨min η0 (ε / 2), lt_min hη0 (by linarith), fun η h0 h1 a ha => ?_⟩
  exact devCS_of ht hb hε h0.le (h1.trans (min_le_right _ _)) (hη a ha η h0 (h1.trans (min_le_left _ _)))

end

end Verif.Uct
