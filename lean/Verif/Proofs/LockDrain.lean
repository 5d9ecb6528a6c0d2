import Verif.Proofs.LockHeld
import Mathlib.Data.Finset.Max

/-! # Without a transposition table (or if chance nodes never read their children) the locks cannot form a cycle -/

namespace Verif.LockLevel

open Verif.Search

set_option linter.unusedSimpArgs false
set_option linter.unusedSectionVars false

variable {S A R X Y X' Y' : Type} [DecidableEq S] [DecidableEq A] [AddMonoid R]
variable {env : Env S A R} {m : Manager S R} {hash : Int × S → Nat} {code : Code S A R X Y} {alg : Alg S A R X Y} {alg' : Alg S A R X' Y'}
  {π : X → X'} {ρ : Y → Y'} {jD jC : Nat} {f f' : FSt S A R X Y} {s s' : St S A R X' Y'} {w : Nat} {e : Option (Event S A R)}
  {k : Nat} {s0 : S} {dp tm : Int} {tb : List ((Int × S) × Option Nat)} {h h' : List (Event S A R)}

/-- The children of a node, while somebody is about to lock them, are the same in the search. -/
theorem kids_lockD (H : Rel env m code alg alg' π ρ jD jC f s) {p : Phase S A R} {snaps : List (List (A × Nat × Y))} {held todo : List Nat} {d : Nat}
    {nd : DNode S A R X} (hw : f.ws[w]? = some (.lockD p snaps held todo)) (hp : nodeD p = some d) (hd : f.dn[d]? = some nd) :
    ∃ nd', s.dn[d]? = some nd' ∧ nd'.kids = nd.kids := by
  obtain ⟨nd', hd'⟩ := dn_get H hd
  refine ⟨nd', hd', ?_⟩
  have hr := H.down d nd nd' hd hd' w _ hw (by simp [holds, nodeD_lk hp])
  simp only [dRel] at hr
  cases p with
  | sel cur path rs new =>
    simp only [dBlk] at hr
    split at hr
    · obtain ⟨nd0, rfl, rfl, -⟩ := hr; rfl
    · rw [hr]; rfl
  | backD d nodes before after ret tot =>
    simp only [dBlk] at hr
    split at hr
    · obtain ⟨kids, -, rfl⟩ := hr; rfl
    · rw [hr]; rfl
  | _ => simp [nodeD] at hp

theorem kids_lockC (H : Rel env m code alg alg' π ρ jD jC f s) {nodes : List (Nat × Nat)} {d c : Nat} {before after : List R} {r ret tot : R}
    {snaps : List (List (S × X))} {held todo : List Nat} {nc : CNode S A R Y}
    (hw : f.ws[w]? = some (.lockC (.back (nodes ++ [(d, c)]) (before ++ [r]) after ret tot) snaps held todo)) (hc : f.cn[c]? = some nc) :
    ∃ nc', s.cn[c]? = some nc' ∧ nc'.kids = nc.kids := by
  obtain ⟨nc', hc'⟩ := cn_get H hc
  refine ⟨nc', hc', ?_⟩
  have hr := H.cown c nc nc' hc hc' w _ hw (by simp [holds, lkOf])
  simp only [cRel, cBlk, List.getLast?_concat] at hr
  split at hr
  · obtain ⟨kids, -, rfl⟩ := hr; rfl
  · rw [hr]; rfl

/-- How deep a mutex is in the tree. -/
def level (s : St S A R X' Y') : Lk → Int
  | .d i => 2 * ((s.dn[i]?).map DNode.depth).getD 0
  | .c i => 2 * ((s.cn[i]?).map CNode.depth).getD 0 + 1
  | .t _ => 0

/-- The mutex of the node a worker that locks children works on. -/
def topLk (pc : Pc S A R X Y) : Lk := (holds pc).headD (.t 0)

theorem topLk_lockD {p : Phase S A R} {d : Nat} (hp : nodeD p = some d) (snaps : List (List (A × Nat × Y))) (held todo : List Nat) :
    topLk (Pc.lockD p snaps held todo : Pc S A R X Y) = .d d := by simp [topLk, holds, nodeD_lk hp]

theorem topLk_lockC (nodes : List (Nat × Nat)) (d c : Nat) (before after : List R) (ret tot : R) (snaps : List (List (S × X))) (held todo : List Nat) :
    topLk (Pc.lockC (.back (nodes ++ [(d, c)]) before after ret tot) snaps held todo : Pc S A R X Y) = .c c := by
  simp [topLk, holds, lkOf]

theorem topLk_samp (cur : Nat) (a : A) (c : Nat) (path : List (Nat × Nat)) (rs : List R) (new : Bool) :
    topLk (Pc.vis (.samp cur a c path rs new) : Pc S A R X Y) = .c c := rfl

theorem nodupD' (J : Inv env m s0 dp tm s h) {i : Nat} {nd : DNode S A R X'} (hd : s.dn[i]? = some nd) : (nd.kids.map fun k => k.2).Nodup :=
  nodupD J hd

theorem kidsToRead_nodup {p : Phase S A R} {nd : DNode S A R X} (hn : (nd.kids.map fun k => k.2).Nodup) :
    ((kidsToRead env m code f w p nd).map fun k => k.2).Nodup := by
  unfold kidsToRead
  split
  · exact hn.sublist (List.filter_sublist.map _)
  · exact hn

/-- The worker that a waiting worker waits for is deeper in the tree, or does not wait. -/
theorem waiting_deeper (I : LInv env m code f) (hH : ∀ (v : Nat) pc, f.ws[v]? = some pc → HeldOk f pc)
    (H : Rel env m code alg alg' π ρ jD jC f s) (J : Inv env m s0 dp tm s h) (hT : m.useTable = true → code.nC = 0)
    {pc : Pc S A R X Y} (hw : f.ws[w]? = some pc) (hwait : Waiting f pc) :
    ∃ (v : Nat) (pv : Pc S A R X Y), f.ws[v]? = some pv ∧ (∀ p, pv ≠ .out p) ∧ (¬ Waiting f pv ∨ level s (topLk pc) < level s (topLk pv)) := by
  have ne_of : ∀ {l : Lk} {v : Nat} {pv : Pc S A R X Y}, l ∈ holds pv → f.ws[v]? = some pv → ∀ p : Phase S A R, pv ≠ .out p := by
    intro l v pv h1 _ p e; subst e; simp [holds] at h1
  cases pc with
  | lockD p snaps held todo =>
    cases todo with
    | nil => exact hwait.elim
    | cons k todo =>
      obtain ⟨v, hv⟩ := Option.ne_none_iff_exists'.1 hwait
      obtain ⟨pv, hpv, hk⟩ := I.only _ _ hv
      refine ⟨v, pv, hpv, ne_of hk hpv, ?_⟩
      obtain ⟨-, d, nd, g1, g2, g3⟩ := I.ok w _ hw
      obtain ⟨nd', e1, e2⟩ := kids_lockD H hw g1 g2
      have hkid : k ∈ nd.kids.map fun q => q.2 := by
        have : k ∈ (kidsToRead env m code f w p nd).map fun q => q.2 := g3.subset (by simp)
        obtain ⟨q, h1, rfl⟩ := List.mem_map.1 this
        exact List.mem_map.2 ⟨q, kidsToRead_sub h1, rfl⟩
      obtain ⟨⟨a, k'⟩, hak, rfl⟩ := List.mem_map.1 hkid
      obtain ⟨n, n1, -, -, n2, -⟩ := J.tree.heap.dKid d nd'.skel a k' (by simp [e1]) (by simpa [DNode.skel, e2] using hak)
      cases pv with
      | lockD p' snaps' held' todo' =>
        by_cases hW : Waiting f (Pc.lockD p' snaps' held' todo' : Pc S A R X Y)
        · exfalso
          obtain ⟨d', nd2, q1, q2, q3⟩ := hH v _ hpv
          simp only [holds, nodeD_lk q1, Option.toList, List.cons_append, List.nil_append, List.mem_cons, reduceCtorEq, false_or,
            List.mem_map, Lk.c.injEq, exists_eq_right] at hk
          obtain ⟨⟨a2, k2⟩, h1, h2⟩ := List.mem_map.1 (q3 _ hk)
          simp only at h2; subst h2
          obtain ⟨nd2', r1, r2⟩ := kids_lockD H hpv q1 q2
          have : d = d' := J.tree.heap.dUniq d d' nd'.skel nd2'.skel a a2 k2 (by simp [e1]) (by simp [r1])
            (by simpa [DNode.skel, e2] using hak) (by simpa [DNode.skel, r2] using h1)
          subst this
          have o1 := I.own w _ hw (.d d) (by simp [holds, nodeD_lk g1])
          have o2 := I.own v _ hpv (.d d) (by simp [holds, nodeD_lk q1])
          rw [o1] at o2
          obtain rfl := Option.some.inj o2
          rw [hw] at hpv
          simp only [Option.some.injEq, Pc.lockD.injEq] at hpv
          obtain ⟨rfl, rfl, rfl, rfl⟩ := hpv
          have hn : (nd.kids.map fun k => k.2).Nodup := by rw [← e2]; exact nodupD' J e1
          have := g3.nodup_iff.2 (kidsToRead_nodup hn)
          exact (List.nodup_append'.1 this).2.2 hk (by simp)
        · exact .inl hW
      | lockC p' snaps' held' todo' =>
        right
        obtain ⟨nodes, d', c, before, r, after, ret, tot, nc, rfl, q2, q3⟩ := hH v _ hpv
        simp only [holds, lkOf, List.getLast?_concat, Option.map_some, Option.toList, List.cons_append, List.nil_append, List.mem_cons,
          Lk.c.injEq, List.mem_map, reduceCtorEq, and_false, exists_false, or_false] at hk
        subst hk
        rw [topLk_lockD g1, topLk_lockC]
        simp only [level, e1, Option.map_some, Option.getD_some]
        simp only [List.getElem?_map, Option.map_eq_some_iff] at n1
        obtain ⟨nc', m1, rfl⟩ := n1
        rw [m1]
        simp only [CNode.skel, DNode.skel] at n2
        simp only [Option.map_some, Option.getD_some, n2]
        omega
      | vis p' =>
        obtain ⟨cur, path, rs, new, rfl⟩ | ⟨cur, a', c, path, rs, new, rfl⟩ := I.ok v _ hpv
        · exact .inl (by simp [Waiting])
        · right
          simp only [holds, lkOf, Option.toList, List.mem_singleton, Lk.c.injEq] at hk
          subst hk
          rw [topLk_lockD g1, topLk_samp]
          simp only [level, e1, Option.map_some, Option.getD_some]
          simp only [List.getElem?_map, Option.map_eq_some_iff] at n1
          obtain ⟨nc', m1, rfl⟩ := n1
          rw [m1]
          simp only [CNode.skel, DNode.skel] at n2
          simp only [Option.map_some, Option.getD_some, n2]
          omega
      | _ => exact .inl (by simp [Waiting])
  | lockC p snaps held todo =>
    cases todo with
    | nil => exact hwait.elim
    | cons k todo =>
      obtain ⟨v, hv⟩ := Option.ne_none_iff_exists'.1 hwait
      obtain ⟨pv, hpv, hk⟩ := I.only _ _ hv
      refine ⟨v, pv, hpv, ne_of hk hpv, ?_⟩
      obtain ⟨g0, nodes, d, c, before, r, after, ret, tot, nc, rfl, g2, g3⟩ := I.ok w _ hw
      have hut : m.useTable = false := by
        cases hu : m.useTable with
        | false => rfl
        | true => exact absurd (hT hu) (by omega)
      obtain ⟨nc', e1, e2⟩ := kids_lockC H hw g2
      have hkid : k ∈ nc.kids.map fun q => q.2 := g3.subset (by simp)
      obtain ⟨⟨o, k'⟩, hak, rfl⟩ := List.mem_map.1 hkid
      obtain ⟨n, n1, -, n2, -⟩ := J.tree.heap.cKid c nc'.skel o k' (by simp [e1]) (by simpa [CNode.skel, e2] using hak)
      cases pv with
      | lockC p' snaps' held' todo' =>
        by_cases hW : Waiting f (Pc.lockC p' snaps' held' todo' : Pc S A R X Y)
        · exfalso
          obtain ⟨nodes', d', c', before', r', after', ret', tot', nc2, rfl, q2, q3⟩ := hH v _ hpv
          simp only [holds, lkOf, List.getLast?_concat, Option.map_some, Option.toList, List.cons_append, List.nil_append, List.mem_cons, reduceCtorEq,
            false_or, List.mem_map, Lk.d.injEq, exists_eq_right] at hk
          obtain ⟨⟨o2, k2⟩, h1, h2⟩ := List.mem_map.1 (q3 _ hk)
          simp only at h2; subst h2
          obtain ⟨nc2', r1, r2⟩ := kids_lockC H hpv q2
          have : c = c' := J.tree.heap.cUniq hut c c' nc'.skel nc2'.skel o o2 k2 (by simp [e1]) (by simp [r1])
            (by simpa [CNode.skel, e2] using hak) (by simpa [CNode.skel, r2] using h1)
          subst this
          have o1 := I.own w _ hw (.c c) (by simp [holds, lkOf])
          have o2 := I.own v _ hpv (.c c) (by simp [holds, lkOf])
          rw [o1] at o2
          obtain rfl := Option.some.inj o2
          rw [hw] at hpv
          simp only [Option.some.injEq, Pc.lockC.injEq] at hpv
          obtain ⟨-, rfl, rfl, rfl⟩ := hpv
          have hn : (nc.kids.map fun k => k.2).Nodup := by rw [← e2]; exact nodupC J e1
          have := g3.nodup_iff.2 hn
          exact (List.nodup_append'.1 this).2.2 hk (by simp)
        · exact .inl hW
      | lockD p' snaps' held' todo' =>
        right
        obtain ⟨d', nd2, q1, q2, q3⟩ := hH v _ hpv
        simp only [holds, nodeD_lk q1, Option.toList, List.cons_append, List.nil_append, List.mem_cons, Lk.d.injEq, List.mem_map, reduceCtorEq,
          and_false, exists_false, or_false] at hk
        subst hk
        rw [topLk_lockD q1, topLk_lockC]
        simp only [level, e1, Option.map_some, Option.getD_some]
        simp only [List.getElem?_map, Option.map_eq_some_iff] at n1
        obtain ⟨nd', m1, rfl⟩ := n1
        rw [m1]
        simp only [CNode.skel, DNode.skel] at n2
        simp only [Option.map_some, Option.getD_some, n2]
        omega
      | vis p' =>
        left
        obtain ⟨cur, path, rs, new, rfl⟩ | ⟨cur, a', c, path, rs, new, rfl⟩ := I.ok v _ hpv
        · simp [Waiting]
        · simp [holds, lkOf] at hk
      | _ => exact .inl (by simp [Waiting])
  | vis p =>
    cases p with
    | samp cur a c path rs new =>
      obtain ⟨j, hj⟩ := hwait
      obtain ⟨v, hv⟩ := Option.ne_none_iff_exists'.1 hj
      obtain ⟨pv, hpv, hk⟩ := I.only _ _ hv
      refine ⟨v, pv, hpv, ne_of hk hpv, .inl ?_⟩
      have lkt : ∀ p : Phase S A R, lkOf p ≠ some (.t j) := by intro p; cases p <;> simp [lkOf]
      cases pv <;> simp_all [holds, Waiting]
    | _ => exact hwait.elim
  | _ => exact (hwait).elim

/-- If a worker is inside a block then some worker inside a block is not waiting. -/
theorem some_not_waiting (I : LInv env m code f) (hH : ∀ (v : Nat) pc, f.ws[v]? = some pc → HeldOk f pc)
    (H : Rel env m code alg alg' π ρ jD jC f s) (J : Inv env m s0 dp tm s h) (hT : m.useTable = true → code.nC = 0)
    {pc : Pc S A R X Y} (hw : f.ws[w]? = some pc) (hin : ∀ p, pc ≠ .out p) :
    ∃ (v : Nat) (pv : Pc S A R X Y), f.ws[v]? = some pv ∧ (∀ p, pv ≠ .out p) ∧ ¬ Waiting f pv := by
  classical
  by_contra hcon
  simp only [not_exists, not_and, not_not] at hcon
  let F : Finset Nat := (Finset.range f.ws.length).filter fun v => ∃ pv, f.ws[v]? = some pv ∧ ∀ p, pv ≠ .out p
  have hF : ∀ v, v ∈ F ↔ ∃ pv, f.ws[v]? = some pv ∧ ∀ p, pv ≠ .out p := by
    intro v
    simp only [F, Finset.mem_filter, Finset.mem_range, and_iff_right_iff_imp]
    rintro ⟨pv, h1, -⟩
    exact (List.getElem?_eq_some_iff.1 h1).1
  obtain ⟨v, hv, hmax⟩ := Finset.exists_max_image F (fun v => ((f.ws[v]?).map fun pv => level s (topLk pv)).getD 0) ⟨w, (hF w).2 ⟨pc, hw, hin⟩⟩
  obtain ⟨pv, h1, h2⟩ := (hF v).1 hv
  obtain ⟨u, pu, g1, g2, g3⟩ := waiting_deeper I hH H J hT h1 (hcon v pv h1 h2)
  rcases g3 with g3 | g3
  · exact g3 (hcon u pu g1 g2)
  · have := hmax u ((hF u).2 ⟨pu, g1, g2⟩)
    simp [h1, g1] at this
    omega

end Verif.LockLevel
