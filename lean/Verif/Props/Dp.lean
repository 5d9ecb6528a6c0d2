import Verif.Proofs.Consistent
import Verif.Proofs.Bounds
import Verif.Proofs.Uct
import Verif.Spec.DpToy
import Mathlib.Tactic.NormNum

/-!
# Properties of the DP values and of the averages: C33 (DP part), C38, C39, C40

`HasDp alg px py lr` says that the algorithm `alg` keeps DP values through the mixin classes `DPDNode` and `DPCNode`; the
theorems hold for every such algorithm (DB-MENTS, DENTS and EST are shown to be such algorithms in `Verif.Props.Dents`).
-/

set_option linter.unusedSectionVars false
set_option linter.unusedSimpArgs false

namespace Verif.Backups

open Verif.Search

/-! ## C33 -/

section
variable {K 𝕜 : Type} [Field 𝕜] [LinearOrder 𝕜] [IsStrictOrderedRing 𝕜]

/-- C33.  The DP backup of a chance node: local reward plus the mean of the children's values weighted by their backup
counts. -/
theorem c33_dp_backup (localReward : 𝕜) (l : List (Nat × 𝕜)) (y : Dp 𝕜) :
    dpBackupC localReward (l.map fun p => { n := p.1, val := some p.2 }) y = { n := y.n + 1, val := some (localReward + wmean l) } := by
  simp only [dpBackupC, finiteKids_mk, Option.map_some]
  rw [meanLoop_eq, add_comm (wmean l)]

/-- C33.  The entropy backup of a chance node: the weighted mean without a local reward. -/
theorem c33_entropy_backup (kids : List EntD) (y : EntC) :
    entBackupC kids y = { n := y.n + 1, sub := wmean (kids.map fun x => (x.n, x.sub)) } := by
  simp only [entBackupC]
  rw [meanLoop_eq]

/-- C33.  The weighted mean does not depend on the order of the children. -/
theorem c33_order (l l' : List (Nat × 𝕜)) (h : l.Perm l') : wmean l = wmean l' := wmean_perm l l' h

/-- C33.  Children without backups are ignored. -/
theorem c33_ignored (l : List (Nat × 𝕜)) : wmean (l.filter fun p => p.1 ≠ 0) = wmean l := by
  have aux : ∀ (f : Nat × 𝕜 → 𝕜), (∀ p, p.1 = 0 → f p = 0) → ((l.filter fun p => p.1 ≠ 0).map f).sum = (l.map f).sum := by
    intro f hf
    induction l with
    | nil => simp
    | cons p l ih =>
      by_cases hp : p.1 = 0
      · simpa [List.filter_cons, hp, hf p hp] using ih
      · simpa [List.filter_cons, hp] using ih
  unfold wmean
  rw [aux _ (fun p hp => by simp [hp]), aux _ (fun p hp => by simp [hp])]

/-- C33.  With no backed-up child the value is the local reward. -/
theorem c33_no_child (localReward : 𝕜) (l : List (Nat × 𝕜)) (y : Dp 𝕜) (h : ∀ p ∈ l, p.1 = 0) :
    (dpBackupC localReward (l.map fun p => { n := p.1, val := some p.2 }) y).val = some localReward := by
  rw [c33_dp_backup, wmean_zero l h, add_zero]

example : dpBackupC (10 : ℚ) [⟨2, some 3⟩, ⟨0, some 50⟩, ⟨1, some 9⟩] ⟨4, some 0⟩ = ⟨5, some 15⟩ := by decide +kernel

end

/-! ## C38 -/

section
variable {S A 𝕜 X Y : Type} [DecidableEq S] [DecidableEq A] [Field 𝕜] [LinearOrder 𝕜] [IsStrictOrderedRing 𝕜]
  {env : Env S A 𝕜} {m : Manager S 𝕜} {alg : Alg S A 𝕜 X Y} {px : X → Dp 𝕜} {py : Y → Dp 𝕜} {lr : S → A → 𝕜}
  {k : Nat} {s0 : S} {dp tm : Int} {tb : List ((Int × S) × Option Nat)} {st : St S A 𝕜 X Y} {h : List (Event S A 𝕜)}

/-- C38, at one node: the DP backup computes the largest (the opponent: the smallest) value of the children with at least one
backup, whatever their order, and nothing else. -/
theorem c38_backup_is_best (opp : Bool) (l : List (Nat × 𝕜)) (x : Dp 𝕜) (hp : ∃ p ∈ l, p.1 ≠ 0) (v : 𝕜) :
    (dpBackupD opp (l.map fun p => { n := p.1, val := some p.2 }) x).val = some v ↔
      Best opp {u | ∃ p ∈ l, p.1 ≠ 0 ∧ p.2 = u} v := by
  obtain ⟨w, h1, h2⟩ := dpBackupD_best opp (l.map fun p => ({ n := p.1, val := some p.2 } : Dp 𝕜)) x
    (by intro q hq; obtain ⟨p, _, rfl⟩ := List.mem_map.1 hq; exact ⟨_, rfl⟩)
    (by obtain ⟨p, h1, h2⟩ := hp; exact ⟨_, List.mem_map_of_mem h1, h2⟩)
  have hset : {u | ∃ k ∈ l.map fun p => ({ n := p.1, val := some p.2 } : Dp 𝕜), k.n ≠ 0 ∧ k.val = some u} =
      {u | ∃ p ∈ l, p.1 ≠ 0 ∧ p.2 = u} := by
    ext u; simp
  rw [hset] at h2
  rw [h1]
  constructor
  · intro h; rw [← Option.some.inj h]; exact h2
  · intro h; rw [best_unique opp _ _ _ h2 h]

example : (dpBackupD false [⟨2, some (3 : ℚ)⟩, ⟨0, some 50⟩, ⟨1, some 9⟩] ⟨4, some 0⟩) = ⟨5, some 9⟩ ∧
    (dpBackupD true [⟨2, some (3 : ℚ)⟩, ⟨0, some 1⟩, ⟨1, some 9⟩] ⟨4, some 0⟩) = ⟨5, some 3⟩ := by decide +kernel

/-- C38.  In every reachable state of every search all DP values are finite. -/
theorem c38_always_finite (hv : alg.Valid) (H : HasDp alg px py lr) (htb : Leftover tb)
    (hr : Reachable env m alg k s0 dp tm tb st h) :
    (∀ d, d < st.dn.length → ∃ v, valD px st d = some v) ∧ (∀ c, c < st.cn.length → ∃ v, valC py st c = some v) := by
  obtain ⟨_, _, D⟩ := dp_reach hv H htb hr
  constructor
  · intro d hd
    have h1 := List.getElem?_eq_getElem hd
    obtain ⟨_, v, hv⟩ := D.d d _ h1
    exact ⟨v, by simp [valD, h1, hv]⟩
  · intro c hc
    have h1 := List.getElem?_eq_getElem hc
    obtain ⟨_, v, hv⟩ := D.c c _ h1
    exact ⟨v, by simp [valC, h1, hv]⟩

theorem backed_set {s1 : St S A 𝕜 X Y} {h1 : List (Event S A 𝕜)} (T : Tree env m s0 dp tm s1)
    (D : DpInv env m px py s1 h1) {d : Nat} {nd nd' : DNode S A 𝕜 X} (hd : s1.dn[d]? = some nd) (hk : nd'.kids = nd.kids) :
    {u | ∃ k ∈ (kidsY s1 nd').map fun k => py k.2.2, k.n ≠ 0 ∧ k.val = some u} = backedKids py s1 h1 d := by
  ext u
  simp only [Set.mem_ofPred_eq, backedKids]
  constructor
  · rintro ⟨y, hy, hn, hu⟩
    obtain ⟨q, hq, rfl⟩ := List.mem_map.1 hy
    obtain ⟨c, nc, g1, g2, g3⟩ := mem_kidsY.1 hq
    rw [hk] at g1
    refine ⟨q.1, c, childC_of_mem T hd g1, ?_, ?_⟩
    · have := (D.c c nc g2).1
      rw [g3] at hn
      dsimp only at hn
      rw [this] at hn
      exact fun h => hn (by rw [h]; rfl)
    · rw [g3] at hu
      simp [valC, g2, hu]
  · rintro ⟨a, c, g1, g2, g3⟩
    obtain ⟨nd2, nc, k1, k2, k3, _⟩ := childC_facts T g1
    rw [hd] at k1
    obtain rfl := Option.some.inj k1
    refine ⟨py nc.y, List.mem_map.2 ⟨(a, nc.visits, nc.y), mem_kidsY.2 ⟨c, nc, by rw [hk]; exact k3, k2, rfl⟩, rfl⟩, ?_, ?_⟩
    · rw [(D.c c nc k2).1]
      exact fun h => g2 (List.length_eq_zero_iff.1 h)
    · simpa [valC, k2] using g3

/-- C38.  Whenever any worker backs up a decision node, under every schedule, the node's new value is the largest (the
opponent's: the smallest) of the values its backed-up children have at that moment, and there is such a child. -/
theorem c38_backup_in_search (hv : alg.Valid) (H : HasDp alg px py lr) (htb : Leftover tb)
    (hr : Reachable env m alg k s0 dp tm tb st h) {h1 h2 : List (Event S A 𝕜)} {w d : Nat} {args : BArgs 𝕜}
    (he : h = h2 ++ .backedD w d args :: h1) :
    ∃ s1 s2 nd, Reachable env m alg k s0 dp tm tb s1 h1 ∧ Reachable env m alg k s0 dp tm tb s2 (.backedD w d args :: h1) ∧
      s1.dn[d]? = some nd ∧ s2.cn = s1.cn ∧
      ∃ v, valD px s2 d = some v ∧ Best (isOpponent m nd.time) (backedKids py s1 h1 d) v := by
  obtain ⟨s1, s2, w', hr1, _, E, hr2, _⟩ := reach_prefix hr he
  obtain ⟨I, _, D⟩ := dp_reach hv H htb hr1
  obtain ⟨rfl, nodes, nd, hw, hd, rfl⟩ := eff_backedD E
  refine ⟨s1, _, nd, hr1, hr2, hd, rfl, ?_⟩
  obtain ⟨nd2, a, c, nc, k1, k2, k3, k4⟩ := backD_kid I hw
  rw [hd] at k1
  obtain rfl := Option.some.inj k1
  obtain ⟨v, g1, g2⟩ := dpBackupD_best (isOpponent m nd.time) ((kidsY s1 nd).map fun k => py k.2.2) (px nd.x)
    (by
      intro q hq
      obtain ⟨q, hq', rfl⟩ := List.mem_map.1 hq
      obtain ⟨c, nc, _, g2, g3⟩ := mem_kidsY.1 hq'
      obtain ⟨_, v, hv⟩ := D.c c nc g2
      exact ⟨v, by rw [g3]; exact hv⟩)
    ⟨py nc.y, List.mem_map.2 ⟨(a, nc.visits, nc.y), mem_kidsY.2 ⟨c, nc, k2, k3, rfl⟩, rfl⟩, by
      rw [(D.c c nc k3).1]; exact fun h => k4 (List.length_eq_zero_iff.1 h)⟩
  rw [backed_set I.tree D hd rfl] at g2
  refine ⟨v, ?_, g2⟩
  have hlt := (List.getElem?_eq_some_iff.1 hd).1
  have hx : px (alg.backupD (viewOf env m s1 nd) (s1.ctxOf w) args) = dpBackupD (isOpponent m nd.time) ((kidsY s1 nd).map fun k => py k.2.2) (px nd.x) :=
    H.backupD _ _ _
  simp [valD, List.getElem?_set_self hlt, hx, g1]

/-- C38.  What `num_backups` counts.  A chance node: the trials backed up through it.  A decision node: the same plus one
(the constructor's heuristic value), plus, at a leaf, the trials that ended there. -/
theorem c38_counts (hv : alg.Valid) (H : HasDp alg px py lr) (htb : Leftover tb) (hr : Reachable env m alg k s0 dp tm tb st h) :
    (∀ (d : Nat) nd, st.dn[d]? = some nd →
      (px nd.x).n = 1 + (returnsD d h).length + if isLeaf env m nd then h.countP (Event.endAt d) else 0) ∧
    (∀ (c : Nat) nc, st.cn[c]? = some nc → (py nc.y).n = (returnsC c h).length) := by
  obtain ⟨_, _, D⟩ := dp_reach hv H htb hr
  exact ⟨fun d nd hd => (D.d d nd hd).1, fun c nc hc => (D.c c nc hc).1⟩

/-- Two workers: the root, whose children were backed up with 101 and 122 and later 23, has the value 101 at the end. -/
example : ∃ st h, Reachable Uct.Toy.env Uct.Toy.mgr (Toy.alg Toy.lr) 2 0 0 0 [] st h ∧
    ((st.dn.map fun nd => nd.x) == [⟨4, some 101⟩, ⟨1, some 101⟩, ⟨2, some 20⟩, ⟨2, some 0⟩] &&
     (st.cn.map fun nc => nc.y) == [⟨1, some 101⟩, ⟨2, some 23⟩, ⟨1, some 20⟩]) = true :=
  Toy.run _ (by decide +kernel)

/-! ## C39 -/

theorem quiescent_free (hq : Quiescent st) : (∀ d, FreeD st d) ∧ (∀ c, FreeC st c) := by
  constructor
  · intro d w p hp
    rw [hq w p hp]
    simp [Phase.pendD]
  · intro c w p hp
    rw [hq w p hp]
    simp [Phase.pendC]

/-- C39.  Without a transposition table, whenever no trial is running (in particular between the trials of a single worker, but
also after any run of several workers), every decision node that has been backed up has the largest (the opponent's: the
smallest) of the current values of its backed-up children, and every chance node that has been backed up has its local reward
plus the mean of the current values of its children, weighted by their backup counts. -/
theorem c39_bellman_consistent (hv : alg.Valid) (H : HasDp alg px py lr) (hvis : ∀ x, alg.visitD false x = x)
    (hu : m.useTable = false) (htb : Leftover tb) (hr : Reachable env m alg k s0 dp tm tb st h) (hq : Quiescent st) :
    (∀ (d : Nat) nd, st.dn[d]? = some nd → returnsD d h ≠ [] →
      ∃ v, valD px st d = some v ∧ Best (isOpponent m nd.time) (backedKids py st h d) v) ∧
    (∀ (c : Nat) nc, st.cn[c]? = some nc → returnsC c h ≠ [] →
      ∃ l : List (Nat × 𝕜), nc.kids.map (fun p => (cntD px st p.2, valD px st p.2)) = l.map (fun q => (q.1, some q.2)) ∧
        valC py st c = some (lr nc.state nc.action + wmean l)) := by
  obtain ⟨I, _, D⟩ := dp_reach hv H htb hr
  have U := reach_uptodate hv hvis hu htb hr
  obtain ⟨fd, fc⟩ := quiescent_free hq
  constructor
  · intro d nd hd hne
    obtain ⟨x0, v0, ctx, args, hx⟩ := U.d d nd hd (fd d) hne
    have hx' : (px nd.x).val = (dpBackupD (isOpponent m nd.time) ((kidsY st nd).map fun k => py k.2.2) (px x0)).val := by
      rw [hx, H.backupD]; rfl
    obtain ⟨_, v, hval⟩ := D.d d nd hd
    refine ⟨v, by simp [valD, hd, hval], ?_⟩
    have hfin : ∀ q ∈ (kidsY st nd).map fun k => py k.2.2, ∃ x, q.val = some x := by
      intro q hq
      obtain ⟨q, hq', rfl⟩ := List.mem_map.1 hq
      obtain ⟨c, nc, _, g2, g3⟩ := mem_kidsY.1 hq'
      obtain ⟨_, v, hv⟩ := D.c c nc g2
      exact ⟨v, by rw [g3]; exact hv⟩
    by_cases hp : ∃ q ∈ (kidsY st nd).map fun k => py k.2.2, q.n ≠ 0
    · obtain ⟨v', g1, g2⟩ := dpBackupD_best (isOpponent m nd.time) _ (px x0) hfin hp
      rw [backed_set I.tree D hd rfl] at g2
      rw [hval, g1] at hx'
      rw [Option.some.inj hx']
      exact g2
    · exfalso
      obtain ⟨l, g1, g2⟩ := finiteKids_spec _ hfin
      have : maxLoop (isOpponent m nd.time) l none = none := by
        have hz : ∀ p ∈ l, p.1 = 0 := by
          intro p hp'
          by_cases h0 : p.1 = 0
          · exact h0
          · exact absurd ⟨_, by rw [g2]; exact List.mem_map_of_mem hp', h0⟩ hp
        clear g1 g2
        induction l with
        | nil => rfl
        | cons p l ih =>
          have h0 : p.1 = 0 := hz p (by simp)
          simp only [maxLoop, h0, if_true]
          exact ih (fun q hq => hz q (by simp [hq]))
      rw [hval] at hx'
      simp [dpBackupD, g1, this] at hx'
  · intro c nc hc hne
    obtain ⟨y0, args, hy⟩ := U.c c nc hc (fc c) hne
    have hy' : (py nc.y).val = (dpBackupC (lr nc.state nc.action) ((kidsX st nc).map fun k => px k.2) (py y0)).val := by
      rw [hy, H.backupC]
    have hfin : ∀ q ∈ (kidsX st nc).map fun k => px k.2, ∃ x, q.val = some x := by
      intro q hq
      obtain ⟨q, hq', rfl⟩ := List.mem_map.1 hq
      obtain ⟨d, nd, _, g2, g3⟩ := mem_kidsX.1 hq'
      obtain ⟨_, v, hv⟩ := D.d d nd g2
      exact ⟨v, by rw [g3]; exact hv⟩
    obtain ⟨l, g1, g2⟩ := finiteKids_spec _ hfin
    refine ⟨l, ?_, ?_⟩
    · have key : nc.kids.map (fun p => (cntD px st p.2, valD px st p.2)) = ((kidsX st nc).map fun k => px k.2).map fun y => (y.n, y.val) := by
        have hall : ∀ p ∈ nc.kids, ∃ nd, st.dn[p.2]? = some nd := by
          intro p hp
          obtain ⟨o, d⟩ := p
          obtain ⟨_, nd, _, h1, _⟩ := childD_facts I.tree (childD_of_mem I.tree hc hp)
          exact ⟨nd, h1⟩
        unfold kidsX
        generalize nc.kids = ks at hall
        induction ks with
        | nil => rfl
        | cons p ks ih =>
          obtain ⟨nd, hnd⟩ := hall p (by simp)
          simp only [List.map_cons, List.filterMap_cons, hnd, Option.map_some]
          rw [ih (fun q hq => hall q (by simp [hq]))]
          simp [cntD, valD, hnd]
      rw [key, g2]
      simp
    · rw [g2] at hy'
      rw [c33_dp_backup] at hy'
      simp [valC, hc, hy']

/-- C39.  Whenever no trial is running, every child of a decision node has been backed up, and so has the node itself: the
consistency above is about all children of all decision nodes that have children. -/
theorem c39_children_backed (hv : alg.Valid) (htb : Leftover tb) (hr : Reachable env m alg k s0 dp tm tb st h)
    (hq : Quiescent st) {d c : Nat} {a : A} (hc : childC st d a = some c) : returnsD d h ≠ [] ∧ returnsC c h ≠ [] := by
  obtain ⟨I, C⟩ := reach_both hv htb hr
  obtain ⟨B, _⟩ := reach_bk hr
  obtain ⟨nd, nc, k1, k2, k3, _⟩ := childC_facts I.tree hc
  obtain ⟨w, hs⟩ := reach_selKid hr d nd a c k1 k3
  have z1 : (st.ws.map (Phase.pendD d)).sum = 0 := List.sum_eq_zero (by
    intro x hx; obtain ⟨p, hp, rfl⟩ := List.mem_map.1 hx
    obtain ⟨w, hw⟩ := List.mem_iff_getElem?.1 hp
    exact (quiescent_free hq).1 d w p hw)
  have z2 : (st.ws.map (Phase.pendC c)).sum = 0 := List.sum_eq_zero (by
    intro x hx; obtain ⟨p, hp, rfl⟩ := List.mem_map.1 hx
    obtain ⟨w, hw⟩ := List.mem_iff_getElem?.1 hp
    exact (quiescent_free hq).2 c w p hw)
  have h1 : 0 < h.countP (Event.selAt d) := List.countP_pos_iff.2 ⟨_, hs, by simp [Event.selAt]⟩
  have h2 : 0 < h.countP (Event.selVia c) := List.countP_pos_iff.2 ⟨_, hs, by simp [Event.selVia]⟩
  have z3 : st.ws.countP (Phase.inSamp c) = 0 := by
    rw [List.countP_eq_zero]
    intro p hp
    obtain ⟨w, hw⟩ := List.mem_iff_getElem?.1 hp
    rw [hq w p hw]
    simp [Phase.inSamp]
  have h3 := C.v3 c
  have h4 := B.d d
  have h5 := B.c c
  constructor
  · intro h0; rw [h0] at h4; simp at h4; omega
  · intro h0; rw [h0] at h5; simp at h5; omega

/-- The final state of the toy run (two workers, three trials, two of them interleaved) has no running trial, and the theorems
above apply to its three backed-up decision nodes and three chance nodes. -/
example : ∃ st h, Reachable Uct.Toy.env Uct.Toy.mgr (Toy.alg Toy.lr) 2 0 0 0 [] st h ∧
    (st.ws.all (fun p => decide (p = Phase.idle)) && st.dn.length == 4 && st.cn.length == 3 && h.length == 25 &&
     decide (returnsD 0 h ≠ [] ∧ returnsD 2 h ≠ [] ∧ returnsC 1 h ≠ []) &&
     valD id st 2 == some 20 && isOpponent Uct.Toy.mgr 1) = true :=
  Toy.run _ (by decide +kernel)

/-! ## C40 -/

/-- C40.  If all rewards (also the chance nodes' local rewards) and heuristic values lie in `[lo, hi]`, `lo ≤ 0 ≤ hi`, every DP
value of a node with `n` levels left below it lies in `[(n+1)·lo, (n+1)·hi]`, in every reachable state of every schedule. -/
theorem c40_dp_values_bounded {lo hi : 𝕜} (hb : Bounded env m lo hi) (hlr : ∀ s a, a ∈ env.actions s → lo ≤ lr s a ∧ lr s a ≤ hi)
    (hv : alg.Valid) (H : HasDp alg px py lr) (htb : Leftover tb) (hr : Reachable env m alg k s0 dp tm tb st h) :
    (∀ (d : Nat) nd v, st.dn[d]? = some nd → valD px st d = some v → Within lo hi (remaining m nd.depth + 1) v) ∧
    (∀ (c : Nat) nc v, st.cn[c]? = some nc → valC py st c = some v → Within lo hi (remaining m nc.depth + 1) v) := by
  have B := dpbnd_reach hb hlr hv H htb hr
  constructor
  · intro d nd v hd hval
    exact B.d d nd hd v (by simpa [valD, hd] using hval)
  · intro c nc v hc hval
    exact B.c c nc hc v (by simpa [valC, hc] using hval)

/-- C40.  The returns handed to the backups of a node (the sums of the remaining rewards and the leaf's heuristic value) satisfy
the same bounds, for every algorithm. -/
theorem c40_returns_bounded {lo hi : 𝕜} (hb : Bounded env m lo hi) (hv : alg.Valid) (htb : Leftover tb)
    (hr : Reachable env m alg k s0 dp tm tb st h) :
    (∀ (d : Nat) nd, st.dn[d]? = some nd → ∀ r ∈ returnsD d h, Within lo hi (remaining m nd.depth + 1) r) ∧
    (∀ (c : Nat) nc, st.cn[c]? = some nc → ∀ r ∈ returnsC c h, Within lo hi (remaining m nc.depth + 1) r) :=
  ⟨(ret_reach hb hv htb hr).d, (ret_reach hb hv htb hr).c⟩

end

section
variable {S A 𝕜 : Type} [DecidableEq S] [DecidableEq A] [Field 𝕜] [LinearOrder 𝕜] [IsStrictOrderedRing 𝕜]
  {env : Env S A 𝕜} {m : Manager S 𝕜} {cfg : Uct.Cfg S A 𝕜} {k : Nat} {s0 : S} {dp tm : Int}
  {tb : List ((Int × S) × Option Nat)} {st : St S A 𝕜 (Uct.Stats 𝕜) (Uct.Stats 𝕜)} {h : List (Event S A 𝕜)}

open Verif.Uct in
/-- C40.  The average returns of UCT and PUCT satisfy the same bounds. -/
theorem c40_uct_averages_bounded {lo hi : 𝕜} (hb : Bounded env m lo hi) (htb : Leftover tb)
    (hr : Reachable env m (uct cfg m) k s0 dp tm tb st h) :
    (∀ (d : Nat) nd, st.dn[d]? = some nd → Within lo hi (remaining m nd.depth + 1) nd.x.avg) ∧
    (∀ (c : Nat) nc, st.cn[c]? = some nc → Within lo hi (remaining m nc.depth + 1) nc.y.avg) := by
  have V := uct_valid cfg m
  have I := reach_inv V htb hr
  have R := ret_reach hb V htb hr
  have G := avg_reach hr
  constructor
  · intro d nd hd
    obtain ⟨h1, h2, h3⟩ := G.d d nd hd
    have hh : nd.heur = heurOf env m nd.state := I.tree.heap.dHeur d nd.skel (by simp [hd])
    refine within_avg (h0 := nd.heur) h1 h2 ?_ (R.d d nd hd) h3
    rw [hh]
    exact (Within.one (hb.heur nd.state)).mono hb.lo0 hb.hi0 (by omega)
  · intro c nc hc
    obtain ⟨h1, h2, h3⟩ := G.c c nc hc
    refine within_avg (p := 0) (h0 := 0) (l := returnsC c h) (by omega) (by simpa using h2) ?_ (R.c c nc hc) h3
    exact (Within.one ⟨hb.lo0, hb.hi0⟩).mono hb.lo0 hb.hi0 (by omega)

/-- An environment with bounded rewards: the toy environment with rewards cut off from state 4 on. -/
def boundEnv : Env Nat Nat ℚ :=
  { Uct.Toy.env with reward := fun s a o => if s ≤ 3 ∧ a ≤ 1 then 10 * s + 3 * a else 0 }

theorem bound_ok : Bounded boundEnv { Uct.Toy.mgr with heuristic := some (fun s => if s ≤ 3 then s else 0) } 0 33 := by
  refine ⟨le_refl _, by norm_num, ?_, ?_⟩
  · intro s a o _ _
    simp only [boundEnv]
    split
    · next h =>
      have h1 : (s : ℚ) ≤ 3 := by exact_mod_cast h.1
      have h2 : (a : ℚ) ≤ 1 := by exact_mod_cast h.2
      have h3 : (0 : ℚ) ≤ s := Nat.cast_nonneg s
      have h4 : (0 : ℚ) ≤ a := Nat.cast_nonneg a
      constructor <;> linarith
    · norm_num
  · intro s
    simp only [heurOf]
    split
    · norm_num
    · split
      · next h =>
        have h1 : (s : ℚ) ≤ 3 := by exact_mod_cast h
        exact ⟨Nat.cast_nonneg s, by linarith⟩
      · norm_num

end

end Verif.Backups
