import Verif.Spec.Average
import Verif.Proofs.Tilt
import Verif.Props.Search
import Mathlib.Tactic.FieldSimp

/-! # The game in which average returns mislead: what the tree looks like between trials (C113) -/

set_option linter.unusedSectionVars false
set_option linter.unusedSimpArgs false

namespace Verif.Average

open Verif.Search Verif.Backups Verif.Random Verif.Dents

/-- Selections of action `a`. -/
def picked {S A R : Type} [DecidableEq A] (a : A) : Event S A R → Bool
  | .selected _ _ a' _ => a' == a
  | _ => false

theorem sum_one {K V : Type} {l : List (K × V)} (hnd : (l.map Prod.fst).Nodup) {F : K × V → ℝ} {k0 : K} {M : ℝ} (hM : 0 ≤ M)
    (h0 : ∀ p ∈ l, p.1 ≠ k0 → F p ≤ 0) (h1 : ∀ p ∈ l, p.1 = k0 → F p ≤ M) : (l.map F).sum ≤ M := by
  have hz : ∀ l : List (K × V), (∀ p ∈ l, F p ≤ 0) → (l.map F).sum ≤ 0 := by
    intro l hl
    induction l with
    | nil => simp
    | cons p l ih =>
      rw [List.map_cons, List.sum_cons]
      have a1 := hl p (by simp)
      have a2 := ih fun p hp => hl p (by simp [hp])
      linarith
  induction l with
  | nil => simpa using hM
  | cons p l ih =>
    rw [List.map_cons, List.nodup_cons] at hnd
    rw [List.map_cons, List.sum_cons]
    by_cases hp : p.1 = k0
    · have a1 := h1 p (by simp) hp
      have a2 := hz l fun q hq => h0 q (by simp [hq]) (by
        rintro rfl
        exact hnd.1 (List.mem_map.2 ⟨q, hq, hp.symm⟩))
      linarith
    · have a1 := h0 p (by simp) hp
      have a2 := ih hnd.2 (fun q hq => h0 q (by simp [hq])) (fun q hq => h1 q (by simp [hq]))
      linarith

theorem sum_msum {α : Type} (l : List α) (F : α → Multiset ℝ) : ((l.map F).sum).sum = (l.map fun x => (F x).sum).sum := by
  induction l with
  | nil => simp
  | cons a l ih => simp [ih]

theorem mem_msum {α : Type} {l : List α} {F : α → Multiset ℝ} {r : ℝ} (h : r ∈ (l.map F).sum) : ∃ x ∈ l, r ∈ F x := by
  induction l with
  | nil => simp at h
  | cons a l ih =>
    rw [List.map_cons, List.sum_cons, Multiset.mem_add] at h
    rcases h with h | h
    · exact ⟨a, by simp, h⟩
    · obtain ⟨x, h1, h2⟩ := ih h
      exact ⟨x, by simp [h1], h2⟩

theorem sum_const {l : List ℝ} {c : ℝ} (h : ∀ r ∈ l, r = c) : l.sum = l.length * c := by
  induction l with
  | nil => simp
  | cons a l ih =>
    rw [List.sum_cons, ih fun r hr => h r (by simp [hr]), h a (by simp)]
    push_cast [List.length_cons]
    ring

variable {alg : Alg Place Move ℝ DX DY} {b : Bool} {k : Nat} {st : St Place Move ℝ DX DY} {h : List (Event Place Move ℝ)}

theorem tilt_counts (f : Move → ℝ) (h : List (Event Place Move ℝ)) : tilt f h =
    f .on ^ h.countP (picked .on) * f .stop ^ h.countP (picked .stop) * f .good ^ h.countP (picked .good) * f .bad ^ h.countP (picked .bad) := by
  induction h with
  | nil => simp [tilt]
  | cons e h ih =>
    rw [tilt_cons, ih]
    simp only [List.countP_cons]
    cases e with
    | selected w d a c => cases a <;> simp [tilt1, picked, pow_succ] <;> ring
    | _ => simp [tilt1, picked]

section
variable (hv : alg.Valid) (hr : Reachable forkEnv (forkMgr b) alg k .start 0 0 [] st h)
include hv hr

theorem facts : Inv forkEnv (forkMgr b) .start 0 0 st h ∧ Cnt (forkMgr b) alg st h := reach_both hv (by simp [Leftover]) hr

theorem root_start : ∃ nd, st.dn[st.root]? = some nd ∧ nd.state = .start ∧ nd.depth = 0 ∧ nd.time = 0 := root_node (facts hv hr).1.tree

theorem start_root {d : Nat} {nd : DNode Place Move ℝ DX} (hd : st.dn[d]? = some nd) (hs : nd.state = .start) : d = st.root := by
  by_contra hne
  obtain ⟨c, o, hc⟩ := (c14_parents hv (by simp [Leftover]) hr).1 d nd hd hne
  obtain ⟨nc, nd', g1, g2, _, g3, _, _, g4⟩ := childD_facts (facts hv hr).1.tree hc
  rw [hd] at g2
  obtain rfl := Option.some.inj g2
  rw [hs] at g3
  subst g3
  cases ha : nc.action <;> simp [forkEnv, ha] at g4

theorem fork_up {d : Nat} {nd : DNode Place Move ℝ DX} (hd : st.dn[d]? = some nd) (hs : nd.state = .fork) :
    d ≠ st.root ∧ ∃ c, childC st st.root .on = some c ∧ childD st c .fork = some d := by
  have hne : d ≠ st.root := by
    rintro rfl
    obtain ⟨nd', g1, g2, _⟩ := root_start hv hr
    rw [hd] at g1
    obtain rfl := Option.some.inj g1
    rw [hs] at g2
    cases g2
  refine ⟨hne, ?_⟩
  have P := c14_parents hv (by simp [Leftover]) hr
  obtain ⟨c, o, hc⟩ := P.1 d nd hd hne
  obtain ⟨nc, nd', g1, g2, _, g3, _, _, g4⟩ := childD_facts (facts hv hr).1.tree hc
  rw [hd] at g2
  obtain rfl := Option.some.inj g2
  rw [hs] at g3
  subst g3
  obtain ⟨d', hd'⟩ := P.2.1 c nc g1
  obtain ⟨nd', nc', f1, f2, _, _, f5, _, _, f8⟩ := childC_facts (facts hv hr).1.tree hd'
  have ha : nc.action = .on := by cases ha : nc.action <;> simp [forkEnv, ha] at g4 ⊢
  rw [ha] at f8 hd'
  have : nd'.state = .start := by cases hx : nd'.state <;> simp [forkEnv, hx] at f8 ⊢
  obtain rfl := start_root hv hr f1 this
  exact ⟨c, hd', hc⟩

/-- Moves of the start are selected at the root. -/
theorem on_root {d c : Nat} {a : Move} (hc : childC st d a = some c) (ha : a = .on ∨ a = .stop) : d = st.root := by
  obtain ⟨nd, nc, f1, f2, _, _, f5, _, _, f8⟩ := childC_facts (facts hv hr).1.tree hc
  refine start_root hv hr f1 ?_
  rcases ha with rfl | rfl <;> cases hx : nd.state <;> simp [forkEnv, hx] at f8 ⊢

theorem good_fork {d c : Nat} {a : Move} (hc : childC st d a = some c) (ha : a = .good ∨ a = .bad) :
    ∃ nd, st.dn[d]? = some nd ∧ nd.state = .fork := by
  obtain ⟨nd, nc, f1, f2, _, _, f5, _, _, f8⟩ := childC_facts (facts hv hr).1.tree hc
  refine ⟨nd, f1, ?_⟩
  rcases ha with rfl | rfl <;> cases hx : nd.state <;> simp [forkEnv, hx] at f8 ⊢

theorem heur_zero {d : Nat} {nd : DNode Place Move ℝ DX} (hd : st.dn[d]? = some nd) : nd.heur = 0 := by
  have : nd.heur = heurOf forkEnv (forkMgr b) nd.state := (facts hv hr).1.tree.heap.dHeur d nd.skel (by simp [hd])
  rw [this]
  simp [heurOf, forkMgr]

/-- The reward of a move. -/
theorem last_returns (hq : Quiescent st) {d c : Nat} {a : Move} (hc : childC st d a = some c) (ha : a ≠ .on) :
    ∀ r ∈ returnsC c h, r = forkEnv.reward .start a .start := by
  obtain ⟨nd, nc, f1, f2, _, _, f5, _, _, f8⟩ := childC_facts (facts hv hr).1.tree hc
  intro r hrr
  have F := flow_chance_quiet hv (by simp [Leftover]) rfl hr hq f2
  have hr1 : r ∈ (returnsC c h : Multiset ℝ) := hrr
  rw [F] at hr1
  obtain ⟨q, q1, q2⟩ := mem_msum hr1
  obtain ⟨x, x1, rfl⟩ := Multiset.mem_map.1 q2
  have hcd := childD_of_mem (facts hv hr).1.tree f2 (show (q.1, q.2) ∈ nc.kids from q1)
  obtain ⟨nc', nd', g1, g2, _, g3, _, _, g4⟩ := childD_facts (facts hv hr).1.tree hcd
  rw [f2] at g1
  obtain rfl := Option.some.inj g1
  have hfin : nd'.state = .finish := by
    rw [g3]
    rw [f5] at g4
    cases a <;> simp [forkEnv] at g4 ha ⊢ <;> exact g4
  have hk : nd'.kids = [] := by
    rw [List.eq_nil_iff_forall_not_mem]
    rintro ⟨a', c'⟩ hm
    obtain ⟨nd2, _, e1, _, _, _, _, _, _, e8⟩ := childC_facts (facts hv hr).1.tree (childC_of_mem (facts hv hr).1.tree g2 hm)
    rw [g2] at e1
    obtain rfl := Option.some.inj e1
    rw [hfin] at e8
    simp [forkEnv] at e8
  rw [belowAt_some g2] at x1
  simp only [below, hk, List.map_nil, List.sum_nil, zero_add] at x1
  rw [Multiset.eq_of_mem_replicate x1, heur_zero hv hr g2, f5, zero_add]
  rfl

/-- Between trials a chance node's returns are as many as its selections. -/
theorem returns_selected (hq : Quiescent st) (c : Nat) : (returnsC c h).length = h.countP (Event.selVia c) := by
  rw [returnsC_quiet hr hq, (facts hv hr).2.v3 c, quiescent_counts hq _ rfl, add_zero]

theorem picked_le {d c : Nat} {a : Move} (hc : childC st d a = some c) : h.countP (Event.selVia c) ≤ h.countP (picked a) := by
  apply List.countP_mono_left
  intro e he
  cases e <;> simp [Event.selVia, picked]
  rename_i w d' a' c'
  rintro rfl
  exact ((c14_parents hv (by simp [Leftover]) hr).2.2.1 _ _ _ _ _ ((facts hv hr).2.evSel w d' a' c' he) hc).2

theorem le_picked {c : Nat} {a : Move} (ha : a = .on ∨ a = .stop) (hc : childC st st.root a = some c) :
    h.countP (picked a) ≤ h.countP (Event.selVia c) := by
  apply List.countP_mono_left
  intro e he
  cases e <;> simp [Event.selVia, picked]
  rename_i w d' a' c'
  rintro rfl
  have h1 := (facts hv hr).2.evSel w d' a' c' he
  obtain rfl := on_root hv hr h1 ha
  rw [hc] at h1
  exact (Option.some.inj h1).symm

theorem picked_child {a : Move} (ha : a = .on ∨ a = .stop) (hp : 0 < h.countP (picked a)) : ∃ c, childC st st.root a = some c := by
  obtain ⟨e, he, hx⟩ := List.countP_pos_iff.1 hp
  cases e <;> simp [picked] at hx
  rename_i w d' a' c'
  subst hx
  have h1 := (facts hv hr).2.evSel w d' a' c' he
  obtain rfl := on_root hv hr h1 ha
  exact ⟨c', h1⟩

/-- The returns of the move `on` add up to at most 1/100 for each `good`. -/
theorem on_sum (hq : Quiescent st) {c : Nat} (hc : childC st st.root .on = some c) :
    (returnsC c h).sum ≤ h.countP (picked .good) * (1 / 100) := by
  have T := (facts hv hr).1.tree
  have keys := c15_keys_distinct hv (by simp [Leftover]) hr
  obtain ⟨nd, nc, f1, f2, _, _, f5, _, _, f8⟩ := childC_facts T hc
  have F := congrArg Multiset.sum (flow_chance_quiet hv (by simp [Leftover]) rfl hr hq f2)
  rw [Multiset.sum_coe, sum_msum] at F
  rw [F]
  have hM : (0 : ℝ) ≤ h.countP (picked .good) * (1 / 100) := by positivity
  have hq1 : ∀ q ∈ nc.kids, (Multiset.map (· + forkEnv.reward nc.state nc.action q.1) (belowAt st q.2 h)).sum ≤ h.countP (picked .good) * (1 / 100) := by
    intro q hqm
    have hcd := childD_of_mem T f2 (show (q.1, q.2) ∈ nc.kids from hqm)
    obtain ⟨nc', nd', g1, g2, _, g3, _, _, g4⟩ := childD_facts T hcd
    rw [f2] at g1
    obtain rfl := Option.some.inj g1
    have hfork : nd'.state = .fork := by
      rw [g3]
      rw [f5] at g4
      simpa [forkEnv] using g4
    have hrew : forkEnv.reward nc.state nc.action q.1 = 0 := by rw [f5]; rfl
    rw [hrew, belowAt_some g2]
    simp only [add_zero, Multiset.map_id', below, Multiset.sum_add, Multiset.sum_replicate, heur_zero hv hr g2, nsmul_zero]
    rw [sum_msum]
    refine sum_one (k0 := Move.good) (keys.1 q.2 nd' g2) hM ?_ ?_
    · intro p hp hne
      have hcc := childC_of_mem T g2 (show (p.1, p.2) ∈ nd'.kids from hp)
      obtain ⟨nd2, _, e1, _, _, _, _, _, _, e8⟩ := childC_facts T hcc
      rw [g2] at e1
      obtain rfl := Option.some.inj e1
      rw [hfork] at e8
      have hb : p.1 = .bad := by
        simp only [forkEnv, List.mem_cons, List.not_mem_nil, or_false] at e8
        exact e8.resolve_left hne
      rw [Multiset.sum_coe, sum_const (last_returns hv hr hq hcc (by rw [hb]; simp)), hb]
      simp [forkEnv]
    · intro p hp hg
      have hcc := childC_of_mem T g2 (show (p.1, p.2) ∈ nd'.kids from hp)
      rw [Multiset.sum_coe, sum_const (last_returns hv hr hq hcc (by rw [hg]; simp)), hg, returns_selected hv hr hq]
      have : h.countP (Event.selVia p.2) ≤ h.countP (picked .good) := by
        rw [hg] at hcc
        exact picked_le hv hr hcc
      have : (h.countP (Event.selVia p.2) : ℝ) ≤ h.countP (picked .good) := by exact_mod_cast this
      simp only [forkEnv]
      linarith
  refine sum_one (k0 := Place.fork) (keys.2 c nc f2) hM ?_ (fun q hq _ => hq1 q hq)
  intro q hqm hne
  have hcd := childD_of_mem T f2 (show (q.1, q.2) ∈ nc.kids from hqm)
  obtain ⟨nc', nd', g1, g2, _, g3, _, _, g4⟩ := childD_facts T hcd
  rw [f2] at g1
  obtain rfl := Option.some.inj g1
  rw [f5] at g4
  exact (hne (by simpa [forkEnv] using g4)).elim

/-- Moves at the fork come after `on`. -/
theorem fork_after_on : h.countP (picked .good) + h.countP (picked .bad) ≤ h.countP (picked .on) := by
  obtain ⟨I, C⟩ := facts hv hr
  have hsplit : h.countP (picked .good) + h.countP (picked .bad) = h.countP fun e => picked .good e || picked .bad e := by
    clear I C hr
    induction h with
    | nil => simp
    | cons e h ih =>
      simp only [List.countP_cons]
      rw [← ih]
      cases e <;> simp [picked]
      rename_i a _
      cases a <;> simp <;> omega
  rw [hsplit]
  by_cases hz : h.countP (fun e => picked .good e || picked .bad e) = 0
  · rw [hz]; exact Nat.zero_le _
  obtain ⟨e, he, hx⟩ := List.countP_pos_iff.1 (Nat.pos_of_ne_zero hz)
  have hev : ∀ e ∈ h, (picked .good e || picked .bad e) = true → ∃ w d a c nd, e = .selected w d a c ∧ st.dn[d]? = some nd ∧ nd.state = .fork := by
    intro e he hx
    cases e <;> simp [picked] at hx
    rename_i w d a c
    obtain ⟨nd, g1, g2⟩ := good_fork hv hr (C.evSel w d a c he) hx
    exact ⟨w, d, a, c, nd, rfl, g1, g2⟩
  obtain ⟨w, d, a, c, nd, rfl, g1, g2⟩ := hev e he hx
  obtain ⟨hne, c0, hc0, hd0⟩ := fork_up hv hr g1 g2
  have s1 : h.countP (fun e => picked .good e || picked .bad e) ≤ h.countP (Event.selAt d) := by
    apply List.countP_mono_left
    intro e he hx
    obtain ⟨w', d', a', c', nd', rfl, k1, k2⟩ := hev e he hx
    obtain ⟨_, c1, hc1, hd1⟩ := fork_up hv hr k1 k2
    rw [hc0] at hc1
    obtain rfl := Option.some.inj hc1
    rw [hd0] at hd1
    obtain rfl := Option.some.inj hd1
    simp [Event.selAt]
  have s2 := C.v4 d
  rw [if_neg hne] at s2
  have s3 : h.countP (Event.stepInto d) ≤ h.countP (Event.stepVia c0) := by
    apply List.countP_mono_left
    intro e he'
    cases e <;> simp [Event.stepInto, Event.stepVia]
    rename_i w d1 a c1 o d' r g
    rintro rfl
    exact ((c14_parents hv (by simp [Leftover]) hr).2.2.2 rfl _ _ _ _ _ (C.evStep _ _ _ _ _ _ _ _ he').1 hd0).1
  have s4 := C.v3 c0
  have s5 := picked_le hv hr hc0
  omega

/-- Every trial selects a move at the root. -/
theorem root_moves (hq : Quiescent st) : trialsCompleted h ≤ h.countP (picked .on) + h.countP (picked .stop) := by
  obtain ⟨I, C⟩ := facts hv hr
  have htb : Leftover ([] : List ((Int × Place) × Option Nat)) := by simp [Leftover]
  obtain ⟨nd, g1, g2, g3, _⟩ := root_start hv hr
  have e1 : h.countP Event.isBegan = trialsBegun h := countP_congr' h (fun e => by cases e <;> rfl)
  have s0 := (c13_root_visits hv htb hr hq).2
  have s1 := C.v4 st.root
  rw [if_pos rfl, no_into_root I C, root_ends hv htb hr g1 (by simp [isLeaf, g2, g3, forkEnv, forkMgr]), quiescent_counts hq _ rfl] at s1
  have s2 : h.countP (Event.selAt st.root) ≤ h.countP fun e => picked .on e || picked .stop e := by
    apply List.countP_mono_left
    intro e he
    cases e <;> simp [Event.selAt, picked]
    rename_i w d a c
    rintro rfl
    obtain ⟨nd', nc, f1, _, _, _, _, _, _, f8⟩ := childC_facts I.tree (C.evSel w _ a c he)
    rw [g1] at f1
    obtain rfl := Option.some.inj f1
    rw [g2] at f8
    simpa [forkEnv] using f8
  have s3 : (h.countP fun e => picked .on e || picked .stop e) ≤ h.countP (picked .on) + h.countP (picked .stop) := by
    clear s2 s1 s0 e1 I C hr g1 hq
    induction h with
    | nil => simp
    | cons e h ih =>
      simp only [List.countP_cons]
      cases e <;> simp [picked] <;> simp only [picked] at ih <;> try omega
      rename_i a _
      cases a <;> simp <;> omega
  omega

end

end Verif.Average
