import Verif.Proofs.Tree
import Verif.Props.MentsSelect

/-! # An exhausted search of a deterministic environment has the value of the game -/

namespace Verif.Backups

open Verif.Search

set_option linter.unusedSimpArgs false
set_option linter.unusedSectionVars false

variable {S A 𝕜 X Y : Type} [DecidableEq S] [DecidableEq A] [Field 𝕜] [LinearOrder 𝕜] [IsStrictOrderedRing 𝕜]
  {env : Env S A 𝕜} {m : Manager S 𝕜} {alg : Alg S A 𝕜 X Y} {px : X → Dp 𝕜} {py : Y → Dp 𝕜} {lr : S → A → 𝕜}
  {k : Nat} {s0 : S} {dp tm : Int} {tb : List ((Int × S) × Option Nat)} {st st' : St S A 𝕜 X Y} {h : List (Event S A 𝕜)}
  {next : S → A → S}

theorem list_max?_congr {l l' : List 𝕜} (h : ∀ x, x ∈ l ↔ x ∈ l') : l.max? = l'.max? := by
  cases e : l'.max? with
  | none =>
    have h0 : l' = [] := by simpa using e
    have : l = [] := by
      apply List.eq_nil_iff_forall_not_mem.2
      intro x hx
      have := (h x).1 hx
      rw [h0] at this
      simp at this
    rw [this]
    simp
  | some v =>
    obtain ⟨h1, h2⟩ := List.max?_eq_some_iff.1 e
    exact List.max?_eq_some_iff.2 ⟨(h v).2 h1, fun b hb => h2 b ((h b).1 hb)⟩

theorem list_min?_congr {l l' : List 𝕜} (h : ∀ x, x ∈ l ↔ x ∈ l') : l.min? = l'.min? := by
  cases e : l'.min? with
  | none =>
    have h0 : l' = [] := by simpa using e
    have : l = [] := by
      apply List.eq_nil_iff_forall_not_mem.2
      intro x hx
      have := (h x).1 hx
      rw [h0] at this
      simp at this
    rw [this]
    simp
  | some v =>
    obtain ⟨h1, h2⟩ := List.min?_eq_some_iff.1 e
    exact List.min?_eq_some_iff.2 ⟨(h v).2 h1, fun b hb => h2 b ((h b).1 hb)⟩

theorem bestOf_congr {opp : Bool} {l l' : List 𝕜} (h : ∀ x, x ∈ l ↔ x ∈ l') : bestOf opp l = bestOf opp l' := by
  unfold bestOf
  rw [list_max?_congr h, list_min?_congr h]

/-- In a deterministic environment a chance node whose trials are all over has exactly one child. -/
theorem det_kid (hdet : ∀ s a, a ∈ env.actions s → env.succ s a = [next s a]) (hv : alg.Valid) (htb : Leftover tb)
    (hr : Reachable env m alg k s0 dp tm tb st h) (hq : Quiescent st) {d c : Nat} {a : A} (hc : childC st d a = some c) :
    ∃ nd nc d' nd', st.dn[d]? = some nd ∧ st.cn[c]? = some nc ∧ nc.state = nd.state ∧ nc.action = a ∧ a ∈ env.actions nd.state ∧
      nc.kids = [(next nd.state a, d')] ∧ st.dn[d']? = some nd' ∧ nd'.state = next nd.state a ∧ nd'.depth = nd.depth + 1 ∧
      nd'.time = nd.time + 1 := by
  obtain ⟨I, C⟩ := reach_both hv htb hr
  obtain ⟨B, _⟩ := reach_bk hr
  obtain ⟨nd, nc, k1, k2, k3, k4, k5, k6, k7, k8⟩ := childC_facts I.tree hc
  have hrc := (c39_children_backed hv htb hr hq hc).2
  have h5 := B.c c
  have hpos : 0 < h.countP (Event.stepVia c) := by
    have := List.length_pos_iff.2 hrc
    omega
  obtain ⟨e, he, hs⟩ := List.countP_pos_iff.1 hpos
  have hex : ∃ o d', childD st c o = some d' := by
    cases e with
    | stepped w d1 a1 c1 o d' r g =>
      have hcc : c1 = c := by simpa [Event.stepVia] using hs
      subst hcc
      exact ⟨o, d', (C.evStep w d1 a1 c1 o d' r g he).1⟩
    | _ => simp [Event.stepVia] at hs
  obtain ⟨o, d', hcd⟩ := hex
  obtain ⟨nc2, nd', g1, g2, g3, g4, g5, g6, g7⟩ := childD_facts I.tree hcd
  rw [k2] at g1
  obtain rfl := Option.some.inj g1
  have hall : ∀ p ∈ nc.kids, p.1 = next nd.state a := by
    intro p hp
    obtain ⟨nc3, nd3, f1, f2, f3, f4, f5, f6, f7⟩ := childD_facts I.tree (childD_of_mem I.tree k2 (show (p.1, p.2) ∈ nc.kids from hp))
    rw [k2] at f1
    obtain rfl := Option.some.inj f1
    rw [k4, k5, hdet _ _ k8] at f7
    simpa using f7
  have hnd : (nc.kids.map Prod.fst).Nodup := I.tree.heap.cNodup c nc.skel (by simp [k2])
  have ho : o = next nd.state a := hall (o, d') g3
  refine ⟨nd, nc, d', nd', k1, k2, k4, k5, k8, ?_, g2, by rw [g4, ho], by omega, by omega⟩
  generalize nc.kids = ks at hall hnd g3
  match ks, g3 with
  | [p], g3 =>
    rw [← ho]
    have : (o, d') = p := by simpa using g3
    rw [this]
  | p :: q :: ks, g3 =>
    have e1 := hall p (by simp)
    have e2 := hall q (by simp)
    simp [e1, e2] at hnd

theorem wmean_single (n : Nat) (x : 𝕜) (hn : n ≠ 0) : wmean [(n, x)] = x := by
  have : (n : 𝕜) ≠ 0 := Nat.cast_ne_zero.2 hn
  simp [wmean, mul_div_cancel_left₀, this]

theorem chance_det (hdet : ∀ s a, a ∈ env.actions s → env.succ s a = [next s a])
    (hlr : ∀ s a, a ∈ env.actions s → lr s a = env.reward s a (next s a)) (hv : alg.Valid) (htb : Leftover tb)
    (hr : Reachable env m alg k s0 dp tm tb st h) (hq : Quiescent st) {n : Nat}
    (ih : ∀ (d : Nat) nd, st.dn[d]? = some nd → (m.maxDepth - nd.depth).toNat = n →
      treeValue env m lr st h n d = gameValue env m next n nd.time nd.state)
    {d c : Nat} {a : A} (hc : childC st d a = some c) :
    ∃ nd nc, st.dn[d]? = some nd ∧ st.cn[c]? = some nc ∧ ((m.maxDepth - nd.depth).toNat = n + 1 →
      chanceValue env m lr st h (treeValue env m lr st h n) nc =
        env.reward nd.state a (next nd.state a) + gameValue env m next n (nd.time + 1) (next nd.state a)) := by
  obtain ⟨nd, nc, d', nd', k1, k2, k3, k4, k5, k6, k7, k8, k9, k10⟩ := det_kid hdet hv htb hr hq hc
  refine ⟨nd, nc, k1, k2, fun hn => ?_⟩
  rw [chanceValue, k6, k3, k4, hlr _ _ k5]
  simp only [List.map_cons, List.map_nil]
  rw [wmean_single _ _ (by simp [weightD, k7]), ih d' nd' k7 (by omega), k8, k10]

theorem game_tree (hdet : ∀ s a, a ∈ env.actions s → env.succ s a = [next s a])
    (hlr : ∀ s a, a ∈ env.actions s → lr s a = env.reward s a (next s a)) (hne : ∀ s, env.isSink s = false → env.actions s ≠ [])
    (hv : alg.Valid) (htb : Leftover tb) (hr : Reachable env m alg k s0 dp tm tb st h) (hq : Quiescent st) (hx : Exhausted env m st) :
    ∀ (n d : Nat) nd, st.dn[d]? = some nd → (m.maxDepth - nd.depth).toNat = n →
      treeValue env m lr st h n d = gameValue env m next n nd.time nd.state := by
  have I := reach_inv hv htb hr
  have leafKids : ∀ (d : Nat) nd, st.dn[d]? = some nd → isLeaf env m nd = true → nd.kids = [] := by
    intro d nd hd hl
    rw [isLeaf_skel] at hl
    exact I.tree.heap.dLeaf d nd.skel (by simp [hd]) hl
  have hheur : ∀ (d : Nat) nd, st.dn[d]? = some nd → nd.heur = heurOf env m nd.state := by
    intro d nd hd
    exact I.tree.heap.dHeur d nd.skel (by simp [hd])
  intro n
  induction n with
  | zero =>
    intro d nd hd hn
    simp [treeValue, hd, gameValue, hheur d nd hd]
  | succ n ih =>
    intro d nd hd hn
    simp only [treeValue, hd, Option.elim_some, gameValue]
    by_cases hs : env.isSink nd.state = true
    · have hk := leafKids d nd hd (by simp [isLeaf, hs])
      rw [if_pos hk, if_pos hs, hheur d nd hd]
      unfold heurOf
      split
      · rfl
      · simp [hs]
    · have hs' : env.isSink nd.state = false := by simpa using hs
      have hl : isLeaf env m nd = false := by
        simp [isLeaf, hs']
        omega
      obtain ⟨a0, ha0⟩ := List.exists_mem_of_ne_nil _ (hne _ hs')
      obtain ⟨c0, hc0⟩ := hx d nd hd hl a0 ha0
      have hkid : ∀ a c, childC st d a = some c → (a, c) ∈ nd.kids ∧ a ∈ env.actions nd.state ∧
          (st.cn[c]?).elim 0 (chanceValue env m lr st h (treeValue env m lr st h n)) =
            env.reward nd.state a (next nd.state a) + gameValue env m next n (nd.time + 1) (next nd.state a) := by
        intro a c hc
        obtain ⟨nd1, nc1, f1, f2, f3, _, _, _, _, f8⟩ := childC_facts I.tree hc
        rw [hd] at f1
        obtain rfl := Option.some.inj f1
        obtain ⟨nd2, nc, k1, k2, k3⟩ := chance_det hdet hlr hv htb hr hq ih hc
        rw [hd] at k1
        obtain rfl := Option.some.inj k1
        refine ⟨f3, f8, ?_⟩
        rw [k2, Option.elim_some]
        exact k3 hn
      rw [if_neg (List.ne_nil_of_mem (hkid a0 c0 hc0).1), if_neg hs]
      apply bestOf_congr
      intro x
      simp only [List.mem_map]
      constructor
      · rintro ⟨⟨a, c⟩, hac, rfl⟩
        obtain ⟨_, h2, h3⟩ := hkid a c (childC_of_mem I.tree hd hac)
        exact ⟨a, h2, h3.symm⟩
      · rintro ⟨a, ha, rfl⟩
        obtain ⟨c, hc⟩ := hx d nd hd hl a ha
        obtain ⟨h1, _, h3⟩ := hkid a c hc
        exact ⟨(a, c), h1, h3⟩

end Verif.Backups
