import Verif.Spec.Rounds
import Verif.Proofs.Game
import Verif.Proofs.Counters
import Verif.Proofs.Live

/-! # Rounds of trials spread exact values up the graph of nodes -/

namespace Verif.Backups

open Verif.Search

set_option linter.unusedSimpArgs false
set_option linter.unusedSectionVars false

variable {S A 𝕜 X Y : Type} [DecidableEq S] [DecidableEq A] [Field 𝕜] [LinearOrder 𝕜] [IsStrictOrderedRing 𝕜]
  {env : Env S A 𝕜} {m : Manager S 𝕜} {alg : Alg S A 𝕜 X Y} {px : X → Dp 𝕜} {py : Y → Dp 𝕜} {lr : S → A → 𝕜}
  {k : Nat} {s0 : S} {dp tm : Int} {tb : List ((Int × S) × Option Nat)} {st st' : St S A 𝕜 X Y} {h : List (Event S A 𝕜)}
  {next : S → A → S}

/-- The decision node has the value of the game. -/
def ExD (env : Env S A 𝕜) (m : Manager S 𝕜) (next : S → A → S) (px : X → Dp 𝕜) (nd : DNode S A 𝕜 X) : Prop :=
  (px nd.x).val = some (gameValue env m next (remaining m nd.depth) nd.time nd.state)

/-- The chance node has the value of the move. -/
def ExC (env : Env S A 𝕜) (m : Manager S 𝕜) (next : S → A → S) (py : Y → Dp 𝕜) (nc : CNode S A 𝕜 Y) : Prop :=
  (py nc.y).val = some (moveValue env m next (remaining m (nc.depth + 1)) nc.time nc.state nc.action)

/-- Everything is there: no more nodes will be created. -/
def Full (env : Env S A 𝕜) (m : Manager S 𝕜) (st : St S A 𝕜 X Y) : Prop :=
  Exhausted env m st ∧ ∀ (c : Nat) nc, st.cn[c]? = some nc → nc.kids ≠ []

/-- The parent of a chance node. -/
theorem par_c (T : Tree env m s0 dp tm st) {c : Nat} {nc : CNode S A 𝕜 Y} (hc : st.cn[c]? = some nc) :
    ∃ d nd, st.dn[d]? = some nd ∧ childC st d nc.action = some c ∧ nc.depth = nd.depth ∧ nc.time = nd.time ∧ nc.state = nd.state ∧
      nc.action ∈ env.actions nd.state ∧ isLeaf env m nd = false := by
  obtain ⟨i, d, g1, g2⟩ := T.heap.cPar c nc.skel (by simp [hc])
  simp only [List.getElem?_map, Option.map_eq_some_iff] at g1
  obtain ⟨nd, g1, rfl⟩ := g1
  have hcc := childC_of_mem T g1 g2
  obtain ⟨nd1, nc1, k1, k2, k3, k4, k5, k6, k7, k8⟩ := childC_facts T hcc
  rw [g1] at k1
  obtain rfl := Option.some.inj k1
  rw [hc] at k2
  obtain rfl := Option.some.inj k2
  refine ⟨i, nd, g1, hcc, k6, k7, k4, k8, ?_⟩
  cases hl : isLeaf env m nd with
  | false => rfl
  | true =>
    rw [isLeaf_skel] at hl
    have := T.heap.dLeaf i nd.skel (by simp [g1]) hl
    have e : nd.kids = [] := this
    rw [e] at k3
    simp at k3

theorem rem_pos {nd : DNode S A 𝕜 X} (hl : isLeaf env m nd = false) : remaining m nd.depth ≠ 0 := by
  simp [isLeaf] at hl
  unfold remaining
  omega

theorem one_kid (hdet : ∀ s a, a ∈ env.actions s → env.succ s a = [next s a]) (T : Tree env m s0 dp tm st) {c : Nat}
    {nc : CNode S A 𝕜 Y} (hc : st.cn[c]? = some nc) (hk : nc.kids ≠ []) :
    ∃ d' nd', nc.kids = [(next nc.state nc.action, d')] ∧ st.dn[d']? = some nd' ∧ nd'.state = next nc.state nc.action ∧
      nd'.depth = nc.depth + 1 ∧ nd'.time = nc.time + 1 := by
  obtain ⟨_, nd, _, _, _, _, hst, hact, _⟩ := par_c T hc
  have hall : ∀ p ∈ nc.kids, p.1 = next nc.state nc.action := by
    intro p hp
    obtain ⟨nc3, nd3, f1, f2, f3, f4, f5, f6, f7⟩ := childD_facts T (childD_of_mem T hc (show (p.1, p.2) ∈ nc.kids from hp))
    rw [hc] at f1
    obtain rfl := Option.some.inj f1
    rw [hst, hdet _ _ hact] at f7
    rw [hst]
    simpa using f7
  have hnd : (nc.kids.map Prod.fst).Nodup := T.heap.cNodup c nc.skel (by simp [hc])
  obtain ⟨p, hp⟩ := List.exists_mem_of_ne_nil _ hk
  obtain ⟨nc2, nd', g1, g2, g3, g4, g5, g6, _⟩ := childD_facts T (childD_of_mem T hc (show (p.1, p.2) ∈ nc.kids from hp))
  rw [hc] at g1
  obtain rfl := Option.some.inj g1
  refine ⟨p.2, nd', ?_, g2, by rw [g4, hall p hp], g5, g6⟩
  have hpe := hall p hp
  generalize nc.kids = ks at hall hnd hp
  match ks, hp with
  | [q], hq =>
    have : p = q := by simpa using hq
    rw [← this, ← hpe]
  | q :: q' :: ks, _ =>
    have e1 := hall q (by simp)
    have e2 := hall q' (by simp)
    simp [e1, e2] at hnd

theorem leaf_exact (hv : alg.Valid) (H : HasDp alg px py lr) (htb : Leftover tb) (hr : Reachable env m alg k s0 dp tm tb st h)
    {d : Nat} {nd : DNode S A 𝕜 X} (hd : st.dn[d]? = some nd) (hl : isLeaf env m nd = true) : ExD env m next px nd := by
  obtain ⟨I, C⟩ := reach_both hv htb hr
  obtain ⟨B, _⟩ := reach_bk hr
  have h1 := freshVal_reach H hr d nd hd (leaf_no_returns I C B hd hl)
  have h2 : nd.heur = heurOf env m nd.state := I.tree.heap.dHeur d nd.skel (by simp [hd])
  unfold ExD
  rw [h1, h2]
  cases hn : remaining m nd.depth with
  | zero => rfl
  | succ n =>
    have hs : env.isSink nd.state = true := by
      unfold remaining at hn
      simp [isLeaf] at hl
      rcases hl with hl | hl
      · exact hl
      · omega
    simp only [gameValue, hs, if_true]
    unfold heurOf
    split
    · rfl
    · simp [hs]

/-- A chance node that has been backed up has a child. -/
theorem backed_kid (hv : alg.Valid) (htb : Leftover tb) (hr : Reachable env m alg k s0 dp tm tb st h) {c : Nat}
    {nc : CNode S A 𝕜 Y} (hc : st.cn[c]? = some nc) (hrc : returnsC c h ≠ []) : nc.kids ≠ [] := by
  obtain ⟨I, C⟩ := reach_both hv htb hr
  obtain ⟨B, _⟩ := reach_bk hr
  have h5 := B.c c
  have hpos : 0 < h.countP (Event.stepVia c) := by
    have := List.length_pos_iff.2 hrc
    omega
  obtain ⟨e, he, hs⟩ := List.countP_pos_iff.1 hpos
  cases e with
  | stepped w d1 a1 c1 o d' r g =>
    have hcc : c1 = c := by simpa [Event.stepVia] using hs
    subst hcc
    have hcd := (C.evStep w d1 a1 c1 o d' r g he).1
    obtain ⟨nc2, nd', g1, g2, g3, _⟩ := childD_facts I.tree hcd
    rw [hc] at g1
    obtain rfl := Option.some.inj g1
    exact List.ne_nil_of_mem g3
  | _ => simp [Event.stepVia] at hs

/-- The backup of a chance node whose successor has the value of the game. -/
theorem chance_exact (hlr : ∀ s a, a ∈ env.actions s → lr s a = env.reward s a (next s a))
    (hdet : ∀ s a, a ∈ env.actions s → env.succ s a = [next s a]) (hv : alg.Valid) (H : HasDp alg px py lr) (htb : Leftover tb)
    (hr : Reachable env m alg k s0 dp tm tb st h) {c : Nat} {nc : CNode S A 𝕜 Y} (hc : st.cn[c]? = some nc) (hk : nc.kids ≠ [])
    (hex : ∀ (d : Nat) nd, st.dn[d]? = some nd → nd.depth = nc.depth + 1 → ExD env m next px nd) (args : BArgs 𝕜) :
    ExC env m next py { nc with y := alg.backupC nc.state nc.action nc.y (kidsX st nc) args } := by
  obtain ⟨I, _, D⟩ := dp_reach hv H htb hr
  obtain ⟨d', nd', k1, k2, k3, k4, k5⟩ := one_kid hdet I.tree hc hk
  obtain ⟨_, nd, _, _, _, _, hst, hact, _⟩ := par_c I.tree hc
  have e1 := hex d' nd' k2 k4
  have hn := (D.d d' nd' k2).1
  unfold ExD at e1
  unfold ExC
  have hkx : (kidsX st nc).map (fun q => px q.2) = [((px nd'.x).n, gameValue env m next (remaining m nd'.depth) nd'.time nd'.state)].map
      (fun p => ({ n := p.1, val := some p.2 } : Dp 𝕜)) := by
    simp only [kidsX, k1, List.filterMap_cons, k2, Option.map_some, List.filterMap_nil, List.map_cons, List.map_nil]
    rw [← e1]
  rw [H.backupC, hkx, c33_dp_backup, wmean_single _ _ (by omega), hlr _ _ (by rw [hst]; exact hact), k3, k4, k5]
  rfl

/-- The backup of a decision node all of whose actions have been backed up and have the value of the move. -/
theorem dec_exact (hne : ∀ s, env.isSink s = false → env.actions s ≠ []) (hv : alg.Valid) (H : HasDp alg px py lr) (htb : Leftover tb)
    (hr : Reachable env m alg k s0 dp tm tb st h) {d : Nat} {nd : DNode S A 𝕜 X} (hd : st.dn[d]? = some nd)
    (hl : isLeaf env m nd = false)
    (hall : ∀ a ∈ env.actions nd.state, ∃ c nc, childC st d a = some c ∧ st.cn[c]? = some nc ∧ ExC env m next py nc ∧ returnsC c h ≠ [])
    (ctx : Ctx A 𝕜) (args : BArgs 𝕜) : ExD env m next px { nd with x := alg.backupD (viewOf env m st nd) ctx args } := by
  obtain ⟨I, _, D⟩ := dp_reach hv H htb hr
  have hs : env.isSink nd.state = false := by simp [isLeaf] at hl; exact hl.1
  obtain ⟨a0, ha0⟩ := List.exists_mem_of_ne_nil _ (hne _ hs)
  have hkid : ∀ a c, (a, c) ∈ nd.kids → ∃ nc, st.cn[c]? = some nc ∧ ExC env m next py nc ∧ returnsC c h ≠ [] ∧ a ∈ env.actions nd.state := by
    intro a c hac
    have hcc := childC_of_mem I.tree hd hac
    obtain ⟨nd2, nc, k1, k2, k3, k4, k5, k6, k7, k8⟩ := childC_facts I.tree hcc
    rw [hd] at k1
    obtain rfl := Option.some.inj k1
    obtain ⟨c', nc', g1, g2, g3, g4⟩ := hall a k8
    rw [hcc] at g1
    obtain rfl := Option.some.inj g1
    exact ⟨nc', g2, g3, g4, k8⟩
  obtain ⟨c0, nc0, f1, f2, f3, f4⟩ := hall a0 ha0
  obtain ⟨nd2, nc2, q1, q2, q3, _⟩ := childC_facts I.tree f1
  rw [hd] at q1
  obtain rfl := Option.some.inj q1
  obtain ⟨v, g1, g2⟩ := dpBackupD_best (isOpponent m nd.time) ((kidsY st nd).map fun k => py k.2.2) (px nd.x)
    (by
      intro q hq
      obtain ⟨q, hq', rfl⟩ := List.mem_map.1 hq
      obtain ⟨c, nc, _, g2, g3⟩ := mem_kidsY.1 hq'
      obtain ⟨_, v, hv⟩ := D.c c nc g2
      exact ⟨v, by rw [g3]; exact hv⟩)
    ⟨py nc0.y, List.mem_map.2 ⟨(a0, nc0.visits, nc0.y), mem_kidsY.2 ⟨c0, nc0, q3, f2, rfl⟩, rfl⟩, by
      rw [(D.c c0 nc0 f2).1]; exact fun h => f4 (List.length_eq_zero_iff.1 h)⟩
  rw [backed_set I.tree D hd rfl] at g2
  have hx : px (alg.backupD (viewOf env m st nd) ctx args) = dpBackupD (isOpponent m nd.time) ((kidsY st nd).map fun k => py k.2.2) (px nd.x) :=
    H.backupD _ _ _
  unfold ExD
  rw [hx, g1]
  obtain ⟨n, hn⟩ := Nat.exists_eq_succ_of_ne_zero (rem_pos hl)
  have hn1 : remaining m (nd.depth + 1) = n := by
    unfold remaining at hn ⊢
    omega
  dsimp only
  rw [hn]
  simp only [gameValue, hs, Bool.false_eq_true, if_false]
  congr 1
  refine (bestOf_eq ?_).symm
  have hset : backedKids py st h d = {x | x ∈ (env.actions nd.state).map fun a =>
      env.reward nd.state a (next nd.state a) + gameValue env m next n (nd.time + 1) (next nd.state a)} := by
    ext u
    simp only [backedKids, Set.mem_ofPred_eq, List.mem_map]
    constructor
    · rintro ⟨a, c, b1, b2, b3⟩
      obtain ⟨nd3, nc, k1, k2, k3, k4, k5, k6, k7, k8⟩ := childC_facts I.tree b1
      rw [hd] at k1
      obtain rfl := Option.some.inj k1
      obtain ⟨nc', j1, j2, _⟩ := hkid a c k3
      rw [k2] at j1
      obtain rfl := Option.some.inj j1
      refine ⟨a, k8, ?_⟩
      unfold ExC at j2
      simp only [valC, k2, Option.bind_some, j2, Option.some.injEq] at b3
      rw [← b3, k4, k5, k6, k7, hn1]
      rfl
    · rintro ⟨a, ha, rfl⟩
      obtain ⟨c, nc, b1, b2, b3, b4⟩ := hall a ha
      obtain ⟨nd3, nc2, k1, k2, k3, k4, k5, k6, k7, k8⟩ := childC_facts I.tree b1
      rw [hd] at k1
      obtain rfl := Option.some.inj k1
      rw [b2] at k2
      obtain rfl := Option.some.inj k2
      refine ⟨a, c, b1, b4, ?_⟩
      unfold ExC at b3
      simp only [valC, b2, Option.bind_some, b3]
      rw [k4, k5, k6, k7, hn1]
      rfl
  rw [← hset]
  exact g2

/-- A full graph stays full, and nothing is created. -/
theorem full_eff (hdet : ∀ s a, a ∈ env.actions s → env.succ s a = [next s a]) (hv : alg.Valid) (T : Tree env m s0 dp tm st)
    (F : Full env m st) {w : Nat} {e : Event S A 𝕜} (E : Eff env m alg st w e st') :
    Full env m st' ∧ st'.dn.length = st.dn.length ∧ st'.cn.length = st.cn.length := by
  have hle := le_eff E
  have hlen : st'.dn.length = st.dn.length ∧ st'.cn.length = st.cn.length := by
    cases E with
    | @selNew cur path rs new nd a hw hd hl hm ha hf =>
      exfalso
      obtain ⟨c, hc⟩ := F.1 cur nd hd hl a (hv _ _ _ ha)
      simp [childC, hd, hf] at hc
    | @stepNew cur a c path rs new nc nd o tb hw hc hd ho hf ht =>
      exfalso
      obtain ⟨d', nd', k1, _⟩ := one_kid hdet T hc (F.2 c nc hc)
      obtain ⟨_, nd2, _, _, _, _, hst, hact, _⟩ := par_c T hc
      rw [hst, hdet _ _ hact] at ho
      have : o = next nd2.state nc.action := by simpa using ho
      rw [k1, this, hst] at hf
      simp [find?] at hf
    | _ => simp
  refine ⟨⟨?_, ?_⟩, hlen⟩
  · intro d nd' hd' hl a ha
    have hlt : d < st.dn.length := hlen.1 ▸ (List.getElem?_eq_some_iff.1 hd').1
    obtain ⟨nd2, k1, k2, k3, _⟩ := hle.d d _ (List.getElem?_eq_getElem hlt)
    rw [hd'] at k1
    obtain rfl := Option.some.inj k1
    obtain ⟨c, hc⟩ := F.1 d _ (List.getElem?_eq_getElem hlt) (by rw [← isLeaf_congr k2 k3]; exact hl) a (by rw [← k2]; exact ha)
    exact ⟨c, hle.childC hc⟩
  · intro c nc' hc'
    have hlt : c < st.cn.length := hlen.2 ▸ (List.getElem?_eq_some_iff.1 hc').1
    obtain ⟨nc2, k1, _, _, _, _, ⟨ks, k6⟩, _⟩ := hle.c c _ (List.getElem?_eq_getElem hlt)
    rw [hc'] at k1
    obtain rfl := Option.some.inj k1
    rw [k6]
    have := F.2 c _ (List.getElem?_eq_getElem hlt)
    simp [this]

/-- Where the values stand in a round with events `r` after history `h0`: exact up to `n` moves to go; with `n + 1` moves to go, on their way. -/
structure Near (env : Env S A 𝕜) (m : Manager S 𝕜) (next : S → A → S) (px : X → Dp 𝕜) (py : Y → Dp 𝕜) (n : Nat) (st : St S A 𝕜 X Y)
    (r h0 : List (Event S A 𝕜)) : Prop where
  grow : n = 0 ∨ Full env m st
  d : ∀ (d : Nat) nd, st.dn[d]? = some nd → remaining m nd.depth ≤ n → ExD env m next px nd
  c : ∀ (c : Nat) nc, st.cn[c]? = some nc → remaining m nc.depth ≤ n → ExC env m next py nc ∧ returnsC c (r ++ h0) ≠ []
  c1 : ∀ (c : Nat) nc, st.cn[c]? = some nc → remaining m nc.depth = n + 1 → returnsC c r ≠ [] → ExC env m next py nc
  d1 : ∀ (d : Nat) nd, st.dn[d]? = some nd → remaining m nd.depth = n + 1 → ExD env m next px nd ∨
    (∃ a ∈ env.actions nd.state, ∀ c, childC st d a = some c → returnsC c r = []) ∨
    ∃ (w : Nat) (nodes : List (Nat × Nat)) (b a : List 𝕜) (x t : 𝕜), st.ws[w]? = some (.backD d nodes b a x t)

theorem returnsC_append (c : Nat) (r h : List (Event S A 𝕜)) : returnsC c (r ++ h) = returnsC c r ++ returnsC c h := by
  unfold returnsC
  rw [List.filterMap_append]

theorem backD_keep {w : Nat} {e : Event S A 𝕜} (E : Eff env m alg st w e st') {w' d : Nat} {nodes : List (Nat × Nat)} {b a : List 𝕜}
    {x t : 𝕜} (hw' : st.ws[w']? = some (.backD d nodes b a x t)) (hne : ∀ v args, e ≠ .backedD v d args) :
    st'.ws[w']? = some (.backD d nodes b a x t) := by
  by_cases he : w' = w
  · subst he
    cases E with
    | crash => exact hw'
    | backedD hw hd =>
      rw [hw] at hw'
      simp only [Option.some.injEq, Phase.backD.injEq] at hw'
      obtain ⟨rfl, _⟩ := hw'
      exact absurd rfl (hne _ _)
    | began hw => rw [hw] at hw'; simp at hw'
    | selOld hw => rw [hw] at hw'; simp at hw'
    | selNew hw => rw [hw] at hw'; simp at hw'
    | ended hw => rw [hw] at hw'; simp at hw'
    | stepOld hw => rw [hw] at hw'; simp at hw'
    | stepNew hw => rw [hw] at hw'; simp at hw'
    | stepHit hw => rw [hw] at hw'; simp at hw'
    | completed hw => rw [hw] at hw'; simp at hw'
    | backedC hw => rw [hw] at hw'; simp at hw'
  · rw [eff_ws_other E he]
    exact hw'

/-- After the backup of a chance node its parent is next. -/
theorem backedC_next (I : Inv env m s0 dp tm st h) {w c : Nat} {args : BArgs 𝕜} {w' : Nat}
    (E : Eff env m alg st w (.backedC w' c args) st') {d : Nat} {a : A} (hcc : childC st d a = some c) :
    ∃ (w : Nat) (nodes : List (Nat × Nat)) (b a : List 𝕜) (x t : 𝕜), st'.ws[w]? = some (.backD d nodes b a x t) := by
  cases E with
  | @backedC nodes d0 _ before r after ret tot nc hw hc =>
    obtain ⟨e, hv, j, h1, h2, h3, h4, h5, _⟩ := I.ws w _ hw
    have hm : (d0, c) ∈ pairs (stepsOf w h) := by
      have : (d0, c) ∈ (pairs (stepsOf w h)).take j := by rw [← h5]; simp
      exact List.mem_of_mem_take this
    obtain ⟨s, hs, hse⟩ := List.mem_map.1 hm
    simp only [Prod.mk.injEq] at hse
    obtain ⟨g1, _⟩ := isPath_mem h3.1 s hs
    rw [hse.1, hse.2] at g1
    obtain ⟨nd1, _, k1, _, k3, _⟩ := childC_facts I.tree g1
    obtain ⟨nd2, _, k1', _, k3', _⟩ := childC_facts I.tree hcc
    obtain rfl := childC_unique I.tree k1 k1' k3 k3'
    exact ⟨w, nodes, before, after ++ [r], ret + r, tot, by simp [List.getElem?_set_self (List.getElem?_eq_some_iff.1 hw).1]⟩

theorem new_kid {w : Nat} {e : Event S A 𝕜} (E : Eff env m alg st w e st') {d : Nat} {a : A} {c : Nat} (hcc : childC st' d a = some c) :
    childC st d a = some c ∨ (c = st.cn.length ∧ e.touchesC c = false) := by
  simp only [childC, Option.bind_eq_some_iff] at hcc
  obtain ⟨nd', hd', hf⟩ := hcc
  rcases dn_chg E hd' with ⟨nd, hd, hchg⟩ | ⟨rfl, ht, s, dep, tim, rfl⟩
  · cases hchg with
    | same he => exact .inl (by simp [childC, hd, hf])
    | selOld hl ha hf' => exact .inl (by simpa [childC, hd] using hf)
    | ended => exact .inl (by simpa [childC, hd] using hf)
    | backed => exact .inl (by simpa [childC, hd] using hf)
    | @selNew w' a' hl ha hf' =>
      dsimp only at hf
      cases hfo : find? a nd.kids with
      | some c0 =>
        rw [find?_append_some hfo] at hf
        exact .inl (by simp [childC, hd, hfo, hf])
      | none =>
        have := find?_mem hf
        rcases List.mem_append.1 this with hin | hin
        · exfalso
          exact absurd hfo (by
            intro hn
            have : ∀ (l : List (A × Nat)), (a, c) ∈ l → find? a l ≠ none := by
              intro l hl
              induction l with
              | nil => simp at hl
              | cons p l ih =>
                simp only [find?]
                split
                · simp
                · next hne =>
                  rcases List.mem_cons.1 hl with rfl | hl
                  · simp at hne
                  · exact ih hl
            exact this _ hin hn)
        · simp only [List.mem_singleton, Prod.mk.injEq] at hin
          exact .inr ⟨hin.2, rfl⟩
  · simp [newD, find?] at hf

theorem near_eff (hdet : ∀ s a, a ∈ env.actions s → env.succ s a = [next s a])
    (hlr : ∀ s a, a ∈ env.actions s → lr s a = env.reward s a (next s a)) (hne : ∀ s, env.isSink s = false → env.actions s ≠ [])
    (hv : alg.Valid) (H : HasDp alg px py lr) (htb : Leftover tb) {n : Nat} {r h0 : List (Event S A 𝕜)}
    (hr : Reachable env m alg k s0 dp tm tb st (r ++ h0)) {w : Nat} {e : Event S A 𝕜}
    (hr' : Reachable env m alg k s0 dp tm tb st' (e :: (r ++ h0))) (E : Eff env m alg st w e st')
    (N : Near env m next px py n st r h0) : Near env m next px py n st' (e :: r) h0 := by
  obtain ⟨I, C⟩ := reach_both hv htb hr
  have I' := reach_inv hv htb hr'
  obtain ⟨_, T⟩ := reach_bk hr
  have hvd : ∀ b x, (px (alg.visitD b x)).val = (px x).val := by
    intro b x; rw [H.visitD]; cases b <;> rfl
  have hG : n = 0 ∨ (Full env m st' ∧ st'.dn.length = st.dn.length ∧ st'.cn.length = st.cn.length) := by
    rcases N.grow with hg | hg
    · exact .inl hg
    · exact .inr (full_eff hdet hv I.tree hg E)
  have hfresh : ∀ c, c = st.cn.length → e.touchesC c = false → returnsC c (e :: r) = [] := by
    rintro c rfl ht
    have h1 := returnsC_nil (fresh_c T ht)
    rw [← List.cons_append, returnsC_append] at h1
    exact (List.append_eq_nil_iff.1 h1).1
  refine ⟨?_, ?_, ?_, ?_, ?_⟩
  · rcases hG with hg | hg
    · exact .inl hg
    · exact .inr hg.1
  · -- decision nodes with at most `n` moves to go
    intro d nd' hd' hrem
    cases hl' : isLeaf env m nd' with
    | true => exact leaf_exact hv H htb hr' hd' hl'
    | false =>
    have hn0 : n ≠ 0 := fun h0 => rem_pos hl' (by omega)
    rcases dn_chg E hd' with ⟨nd, hd, hchg⟩ | ⟨rfl, ht, s, dep, tim, rfl⟩
    · cases hchg with
      | same he => exact N.d d nd' hd hrem
      | selOld hl ha hf => have := N.d d nd hd hrem; unfold ExD at this ⊢; simpa only [hvd] using this
      | selNew hl ha hf => have := N.d d nd hd hrem; unfold ExD at this ⊢; simpa only [hvd] using this
      | ended => have := N.d d nd hd hrem; unfold ExD at this ⊢; simpa only [hvd] using this
      | backed =>
        refine dec_exact hne hv H htb hr hd hl' ?_ _ _
        intro a ha
        have F := N.grow.resolve_left hn0
        obtain ⟨c, hc⟩ := F.1 d nd hd hl' a ha
        obtain ⟨nd2, nc, k1, k2, _, _, _, k6, _⟩ := childC_facts I.tree hc
        rw [hd] at k1
        obtain rfl := Option.some.inj k1
        obtain ⟨e1, e2⟩ := N.c c nc k2 (by rw [k6]; exact hrem)
        exact ⟨c, nc, hc, k2, e1, e2⟩
    · exfalso
      obtain ⟨_, h2, _⟩ := hG.resolve_left hn0
      have := (List.getElem?_eq_some_iff.1 hd').1
      omega
  · -- chance nodes with at most `n` moves to go
    intro c nc' hc' hrem
    obtain ⟨_, ndp, _, _, hdep, _, _, _, hlp⟩ := par_c I'.tree hc'
    have hn0 : n ≠ 0 := fun h0 => rem_pos hlp (by rw [← hdep]; omega)
    have hmono : returnsC c (r ++ h0) ≠ [] → returnsC c (e :: r ++ h0) ≠ [] := by
      intro h1
      rw [List.cons_append, ← List.singleton_append, returnsC_append]
      simp [h1]
    rcases cn_chg E hc' with ⟨nc, hc, hchg⟩ | ⟨rfl, ht, nd, a, rfl⟩
    · cases hchg with
      | same he => exact ⟨(N.c c nc' hc hrem).1, hmono (N.c c nc' hc hrem).2⟩
      | stepped ho hk =>
        refine ⟨?_, hmono (N.c c nc hc hrem).2⟩
        have := (N.c c nc hc hrem).1
        unfold ExC at this ⊢
        simpa only [H.visitC] using this
      | backed =>
        refine ⟨?_, hmono (N.c c nc hc hrem).2⟩
        refine chance_exact hlr hdet hv H htb hr hc ((N.grow.resolve_left hn0).2 c nc hc) ?_ _
        intro d nd hd hdd
        refine N.d d nd hd ?_
        dsimp only at hrem
        unfold remaining at hrem ⊢
        omega
    · exfalso
      obtain ⟨_, _, h2⟩ := hG.resolve_left hn0
      have := (List.getElem?_eq_some_iff.1 hc').1
      omega
  · -- chance nodes with `n + 1` moves to go
    intro c nc' hc' hrem hret
    rcases cn_chg E hc' with ⟨nc, hc, hchg⟩ | ⟨rfl, ht, nd, a, rfl⟩
    · cases hchg with
      | same he =>
        rw [returnsC_cons c e r he] at hret
        exact N.c1 c nc' hc hrem hret
      | stepped ho hk =>
        rw [returnsC_keep (by simp)] at hret
        have := N.c1 c nc hc hrem hret
        unfold ExC at this ⊢
        simpa only [H.visitC] using this
      | backed =>
        have hkids : nc.kids ≠ [] := by
          have hb := backed_kid hv htb hr' hc' (by
            rw [← List.cons_append, returnsC_append]
            simp [hret])
          exact hb
        refine chance_exact hlr hdet hv H htb hr hc hkids ?_ _
        intro d nd hd hdd
        refine N.d d nd hd ?_
        dsimp only at hrem
        unfold remaining at hrem ⊢
        omega
    · exact absurd (hfresh _ rfl ht) hret
  · -- decision nodes with `n + 1` moves to go
    intro d nd' hd' hrem
    cases hl' : isLeaf env m nd' with
    | true => exact .inl (leaf_exact hv H htb hr' hd' hl')
    | false =>
    have hs' : env.isSink nd'.state = false := by simp [isLeaf] at hl'; exact hl'.1
    -- the node's value is unchanged
    have keep : ∀ nd, st.dn[d]? = some nd → (px nd'.x).val = (px nd.x).val → nd'.depth = nd.depth → nd'.time = nd.time →
        nd'.state = nd.state → (∀ v args, e ≠ .backedD v d args) →
        ExD env m next px nd' ∨ (∃ a ∈ env.actions nd'.state, ∀ c, childC st' d a = some c → returnsC c (e :: r) = []) ∨
        ∃ (w : Nat) (nodes : List (Nat × Nat)) (b a : List 𝕜) (x t : 𝕜), st'.ws[w]? = some (.backD d nodes b a x t) := by
      intro nd hd hval hdep htim hst hev
      rcases N.d1 d nd hd (by rw [← hdep]; exact hrem) with h1 | ⟨a, ha, h1⟩ | ⟨w', nodes, b, a, x, t, h1⟩
      · left
        unfold ExD at h1 ⊢
        rw [hval, hdep, htim, hst]
        exact h1
      · by_cases hbk : ∃ w' c args, e = .backedC w' c args ∧ childC st d a = some c
        · obtain ⟨w', c, args, rfl, hcc⟩ := hbk
          exact .inr (.inr (backedC_next I E hcc))
        · refine .inr (.inl ⟨a, by rw [hst]; exact ha, fun c hcc => ?_⟩)
          rcases new_kid E hcc with hcc | ⟨hc, ht⟩
          · rw [returnsC_keep (fun w' args he => hbk ⟨w', c, args, he, hcc⟩)]
            exact h1 c hcc
          · exact hfresh c hc ht
      · exact .inr (.inr ⟨w', nodes, b, a, x, t, backD_keep E h1 hev⟩)
    rcases dn_chg E hd' with ⟨nd, hd, hchg⟩ | ⟨rfl, ht, s, dep, tim, rfl⟩
    · cases hchg with
      | same he =>
        refine keep nd' hd rfl rfl rfl rfl ?_
        rintro v args rfl
        simp [Event.touchesD] at he
      | selOld hl ha hf => exact keep nd hd (hvd _ _) rfl rfl rfl (by simp)
      | selNew hl ha hf => exact keep nd hd (hvd _ _) rfl rfl rfl (by simp)
      | ended => exact keep nd hd (hvd _ _) rfl rfl rfl (by simp)
      | backed =>
        by_cases hall : ∃ a ∈ env.actions nd.state, ∀ c, childC st d a = some c → returnsC c r = []
        · obtain ⟨a, ha, h1⟩ := hall
          refine .inr (.inl ⟨a, ha, fun c hcc => ?_⟩)
          rw [returnsC_keep (by simp)]
          rcases new_kid E hcc with hcc | ⟨hc, ht⟩
          · exact h1 c hcc
          · have := hfresh c hc ht
            rwa [returnsC_keep (by simp)] at this
        · left
          refine dec_exact hne hv H htb hr hd hl' ?_ _ _
          intro a ha
          have : ∃ c, childC st d a = some c ∧ returnsC c r ≠ [] := by
            by_contra hcon
            exact hall ⟨a, ha, fun c hcc => by
              by_contra hx
              exact hcon ⟨c, hcc, hx⟩⟩
          obtain ⟨c, hcc, hx⟩ := this
          obtain ⟨nd2, nc, k1, k2, _, _, _, k6, _⟩ := childC_facts I.tree hcc
          rw [hd] at k1
          obtain rfl := Option.some.inj k1
          refine ⟨c, nc, hcc, k2, N.c1 c nc k2 (by rw [k6]; exact hrem) hx, ?_⟩
          rw [returnsC_append]
          simp [hx]
    · obtain ⟨a, ha⟩ := List.exists_mem_of_ne_nil _ (hne _ hs')
      refine .inr (.inl ⟨a, ha, fun c hcc => ?_⟩)
      simp [childC, hd', newD, find?] at hcc

theorem near_exec (hdet : ∀ s a, a ∈ env.actions s → env.succ s a = [next s a])
    (hlr : ∀ s a, a ∈ env.actions s → lr s a = env.reward s a (next s a)) (hne : ∀ s, env.isSink s = false → env.actions s ≠ [])
    (hv : alg.Valid) (H : HasDp alg px py lr) (htb : Leftover tb) {n : Nat} {ls : List (Nat × Choice S A)} :
    ∀ {st : St S A 𝕜 X Y} {r h0 h' : List (Event S A 𝕜)}, Reachable env m alg k s0 dp tm tb st (r ++ h0) →
      Near env m next px py n st r h0 → execFrom env m alg st (r ++ h0) ls = some (st', h') →
      ∃ r', h' = r' ++ h0 ∧ Near env m next px py n st' r' h0 := by
  induction ls with
  | nil =>
    intro st r h0 h' hr N hx
    simp [execFrom] at hx
    obtain ⟨rfl, rfl⟩ := hx
    exact ⟨r, rfl, N⟩
  | cons l ls ih =>
    obtain ⟨w, ch⟩ := l
    intro st r h0 h' hr N hx
    simp only [execFrom] at hx
    cases hs : step env m alg st w ch with
    | none => simp [hs] at hx
    | some q =>
      obtain ⟨s1, e⟩ := q
      simp only [hs] at hx
      have hr1 := reach_snoc hr hs
      obtain ⟨_, E⟩ := step_eff hs
      exact ih (r := e :: r) hr1 (near_eff hdet hlr hne hv H htb hr hr1 E N) hx

/-- At the end of a round the values are exact for one more move. -/
theorem near_next (hne : ∀ s, env.isSink s = false → env.actions s ≠ []) (hv : alg.Valid) (H : HasDp alg px py lr) (htb : Leftover tb)
    {n : Nat} {r h0 : List (Event S A 𝕜)} (hr : Reachable env m alg k s0 dp tm tb st (r ++ h0)) (hq : Quiescent st) (F : Full env m st)
    (hall : ∀ (c : Nat) nc, st.cn[c]? = some nc → returnsC c r ≠ []) (N : Near env m next px py n st r h0) :
    Near env m next px py (n + 1) st [] (r ++ h0) := by
  have I := reach_inv hv htb hr
  have hd1 : ∀ (d : Nat) nd, st.dn[d]? = some nd → remaining m nd.depth ≤ n + 1 → ExD env m next px nd := by
    intro d nd hd hrem
    rcases Nat.lt_or_ge n (remaining m nd.depth) with hlt | hle
    · cases hl : isLeaf env m nd with
      | true => exact leaf_exact hv H htb hr hd hl
      | false =>
        rcases N.d1 d nd hd (by omega) with h1 | ⟨a, ha, h1⟩ | ⟨w, nodes, b, a, x, t, h1⟩
        · exact h1
        · exfalso
          obtain ⟨c, hc⟩ := F.1 d nd hd hl a ha
          obtain ⟨_, nc, _, k2, _⟩ := childC_facts I.tree hc
          exact hall c nc k2 (h1 c hc)
        · exact absurd (hq w _ h1) (by simp)
    · exact N.d d nd hd hle
  refine ⟨.inr F, hd1, ?_, by intro c nc hc hrem h1; exact absurd rfl h1, ?_⟩
  · intro c nc hc hrem
    have h1 := hall c nc hc
    refine ⟨?_, by rw [List.nil_append, returnsC_append]; simp [h1]⟩
    rcases Nat.lt_or_ge n (remaining m nc.depth) with hlt | hle
    · exact N.c1 c nc hc (by omega) h1
    · exact (N.c c nc hc hle).1
  · intro d nd hd hrem
    cases hl : isLeaf env m nd with
    | true => exact .inl (leaf_exact hv H htb hr hd hl)
    | false =>
      have hs : env.isSink nd.state = false := by simp [isLeaf] at hl; exact hl.1
      obtain ⟨a, ha⟩ := List.exists_mem_of_ne_nil _ (hne _ hs)
      exact .inr (.inl ⟨a, ha, fun _ _ => rfl⟩)

theorem near_init (hne : ∀ s, env.isSink s = false → env.actions s ≠ []) (hv : alg.Valid) (H : HasDp alg px py lr) (htb : Leftover tb) :
    Near env m next px py 0 (init env m alg k s0 dp tm tb) [] [] := by
  have hr : Reachable env m alg k s0 dp tm tb (init env m alg k s0 dp tm tb) [] := ⟨[], rfl⟩
  refine ⟨.inl rfl, ?_, ?_, ?_, ?_⟩
  · intro d nd hd hrem
    refine leaf_exact hv H htb hr hd ?_
    cases hl : isLeaf env m nd with
    | true => rfl
    | false => exact absurd (Nat.le_zero.1 hrem) (rem_pos hl)
  · intro c nc hc; simp [init] at hc
  · intro c nc hc; simp [init] at hc
  · intro d nd hd hrem
    cases hl : isLeaf env m nd with
    | true => exact .inl (leaf_exact hv H htb hr hd hl)
    | false =>
      have hs : env.isSink nd.state = false := by simp [isLeaf] at hl; exact hl.1
      obtain ⟨a, ha⟩ := List.exists_mem_of_ne_nil _ (hne _ hs)
      exact .inr (.inl ⟨a, ha, fun _ _ => rfl⟩)

/-- At rest every selection of an action has been backed up. -/
theorem quiet_sel (hv : alg.Valid) (htb : Leftover tb) (hr : Reachable env m alg k s0 dp tm tb st h) (hq : Quiescent st) (c : Nat) :
    h.countP (Event.selVia c) = (returnsC c h).length := by
  obtain ⟨I, C⟩ := reach_both hv htb hr
  obtain ⟨B, _⟩ := reach_bk hr
  have z2 : (st.ws.map (Phase.pendC c)).sum = 0 := List.sum_eq_zero (by
    intro x hx; obtain ⟨p, hp, rfl⟩ := List.mem_map.1 hx
    obtain ⟨w, hw⟩ := List.mem_iff_getElem?.1 hp
    exact (quiescent_free hq).2 c w p hw)
  have z3 : st.ws.countP (Phase.inSamp c) = 0 := by
    rw [List.countP_eq_zero]
    intro p hp
    obtain ⟨w, hw⟩ := List.mem_iff_getElem?.1 hp
    rw [hq w p hw]
    simp [Phase.inSamp]
  have h3 := C.v3 c
  have h5 := B.c c
  omega

theorem rounds_near (hdet : ∀ s a, a ∈ env.actions s → env.succ s a = [next s a])
    (hlr : ∀ s a, a ∈ env.actions s → lr s a = env.reward s a (next s a)) (hne : ∀ s, env.isSink s = false → env.actions s ≠ [])
    (hv : alg.Valid) (H : HasDp alg px py lr) (htb : Leftover tb) {n : Nat} (hR : Rounds env m alg k s0 dp tm tb n st h) :
    Reachable env m alg k s0 dp tm tb st h ∧ Quiescent st ∧ Near env m next px py (n + 1) st [] h := by
  induction hR with
  | @zero st h hr hq hx =>
    refine ⟨hr, hq, ?_⟩
    have I := reach_inv hv htb hr
    have hback : ∀ (c : Nat) nc, st.cn[c]? = some nc → returnsC c h ≠ [] := by
      intro c nc hc
      obtain ⟨d, nd, _, hcc, _⟩ := par_c I.tree hc
      exact (c39_children_backed hv htb hr hq hcc).2
    have F : Full env m st := ⟨hx, fun c nc hc => backed_kid hv htb hr hc (hback c nc hc)⟩
    obtain ⟨ls, hls⟩ := id hr
    obtain ⟨r', e1, N⟩ := near_exec (k := k) (s0 := s0) (dp := dp) (tm := tm) (tb := tb) hdet hlr hne hv H htb (r := []) (h0 := []) ⟨[], rfl⟩
      (near_init hne hv H htb) hls
    rw [List.append_nil] at e1
    subst e1
    have := near_next hne hv H htb (r := h) (h0 := []) (by rw [List.append_nil]; exact hr) hq F hback N
    rwa [List.append_nil] at this
  | @succ n st h st' r ls hR hx hq hT ih =>
    obtain ⟨hr, hq0, N⟩ := ih
    have hr' := reach_append hr hx
    refine ⟨hr', hq, ?_⟩
    have hle := exec_le hx
    obtain ⟨r', e1, N'⟩ := near_exec hdet hlr hne hv H htb (r := []) hr N hx
    have e2 : r = r' := List.append_cancel_right e1
    subst e2
    obtain ⟨I', C'⟩ := reach_both hv htb hr'
    have F0 : Full env m st := N.grow.resolve_left (by omega)
    have F : Full env m st' := N'.grow.resolve_left (by omega)
    -- no node was created
    have hlen : st'.dn.length = st.dn.length := by
      have key : ∀ (ls : List (Nat × Choice S A)) (s s' : St S A 𝕜 X Y) (g g' : List (Event S A 𝕜)), Reachable env m alg k s0 dp tm tb s g →
          Full env m s → execFrom env m alg s g ls = some (s', g') → s'.dn.length = s.dn.length := by
        intro ls
        induction ls with
        | nil => intro s s' g g' _ _ hx; simp [execFrom] at hx; rw [hx.1]
        | cons l ls ih =>
          obtain ⟨w, ch⟩ := l
          intro s s' g g' hs F hx
          simp only [execFrom] at hx
          cases hst : step env m alg s w ch with
          | none => simp [hst] at hx
          | some q =>
            simp only [hst] at hx
            obtain ⟨_, E⟩ := step_eff hst
            obtain ⟨F', l1, _⟩ := full_eff hdet hv (reach_inv hv htb hs).tree F E
            rw [ih _ _ _ _ (reach_snoc hs hst) F' hx, l1]
      exact key ls st st' h _ hr F0 hx
    refine near_next hne hv H htb hr' hq F ?_ N'
    intro c nc hc
    obtain ⟨d, nd', hd', hcc, _, _, hst, hact, hl⟩ := par_c I'.tree hc
    have hlt : d < st.dn.length := hlen ▸ (List.getElem?_eq_some_iff.1 hd').1
    obtain ⟨nd2, k1, k2, k3, _⟩ := hle.d d _ (List.getElem?_eq_getElem hlt)
    rw [hd'] at k1
    obtain rfl := Option.some.inj k1
    obtain ⟨w, c', hev⟩ := hT d _ (List.getElem?_eq_getElem hlt) (by rw [← isLeaf_congr k2 k3]; exact hl) nc.action (by rw [← k2]; exact hact)
    have hcc' := C'.evSel w d nc.action c' (by simp [hev])
    rw [hcc] at hcc'
    obtain rfl := Option.some.inj hcc'
    have q1 := quiet_sel hv htb hr hq0 c
    have q2 := quiet_sel hv htb hr' hq c
    rw [returnsC_append, List.countP_append, List.length_append, q1] at q2
    have : 0 < r.countP (Event.selVia c) := List.countP_pos_iff.2 ⟨_, hev, by simp [Event.selVia]⟩
    intro h0
    rw [h0, List.length_nil] at q2
    omega

end Verif.Backups
