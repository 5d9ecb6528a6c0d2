import Verif.Proofs.FpSearchDp
import Verif.Proofs.FpSearchAvg
import Verif.Props.Tree

/-!
# C91: the values of whole searches are accurate in floating point

`FpBounded`, `HasFpAvg`, `HasFpDp` and the bounds are defined in `Verif.Spec.FpSearch`; `returnsD`, `returnsC` (the exact returns of the trials through a node) in
`Verif.Spec.Returns`; `treeValue` (expectimax of the search tree) and `gameValue` in `Verif.Spec.Tree`.
-/

set_option linter.unusedSectionVars false
set_option linter.unusedSimpArgs false

namespace Verif.Fp

open Verif.Search Verif.Backups
open Verif.Uct (Stats)

section
variable {S A X Y : Type} [DecidableEq S] [DecidableEq A]
  {env : Env S A ℚ} {m : Manager S ℚ} {alg : Alg S A ℚ X Y} {k : Nat} {s0 : S} {dp tm : Int} {tb : List ((Int × S) × Option Nat)} {st : St S A ℚ X Y}
  {h : List (Event S A ℚ)} {ρ : ℚ}

/-! ## Averages -/

theorem backupAvg_n (s : Stats ℚ) (x : ℚ) : (backupAvg s x).n = s.n + 1 := rfl

/-- C91 (a).  In every state of every search, with any number of workers, the average return of a decision node is the mean of the exact returns of the trials backed up
through it and of the heuristic value, which counts as `pseudo` trials, up to `avgError`. -/
theorem c91_decision_average {px : X → Stats ℚ} {py : Y → Stats ℚ} {pseudo : Nat} (hb : FpBounded env m ρ) (hv : alg.Valid) (H : HasFpAvg alg px py pseudo)
    (htb : Leftover tb) (hr : Reachable env m alg k s0 dp tm tb st h) {d : Nat} {nd : DNode S A ℚ X} (hd : st.dn[d]? = some nd)
    (hL : remaining m nd.depth ≤ 2 ^ 49) {M : ℚ} (hM : IsDouble M) (hMρ : 2 * (remaining m nd.depth + 1) * ρ ≤ M)
    (hn0 : 1 ≤ pseudo + (returnsD d h).length) (hn : pseudo + (returnsD d h).length ≤ 2 ^ 53) :
    (px nd.x).n = pseudo + (returnsD d h).length ∧
    |(px nd.x).avg - (pseudo * nd.heur + (returnsD d h).sum) / (pseudo + (returnsD d h).length)| ≤
      avgError (remaining m nd.depth) (pseudo + (returnsD d h).length) ρ M := by
  obtain ⟨h1, h2⟩ := (avgFold_reach hb hv H htb hr).d d nd hd
  have I := reach_inv hv htb hr
  have hh : nd.heur = heurOf env m nd.state := I.tree.heap.dHeur d nd.skel (by simp [hd])
  have hlen : (returnsD d h).length = (argsD d h).length := by rw [returnsD_args, List.length_map]
  rw [hlen] at hn0 hn ⊢
  constructor
  · rw [h1]
    clear h1 h2 hn0 hn hlen
    induction argsD d h with
    | nil => rfl
    | cons a l ih => rw [List.foldr_cons, List.length_cons, backupAvg_n, ih]; omega
  · have := node_err (h := nd.heur) hM hL hMρ (by rw [hh]; exact (hb.heur _).1) (by rw [hh]; exact (hb.heur _).2) h2 hn0 hn
    rw [h1, returnsD_args]
    unfold avgError
    push_cast
    exact this

/-- C91 (a), chance nodes. -/
theorem c91_chance_average {px : X → Stats ℚ} {py : Y → Stats ℚ} {pseudo : Nat} (hb : FpBounded env m ρ) (hv : alg.Valid) (H : HasFpAvg alg px py pseudo)
    (htb : Leftover tb) (hr : Reachable env m alg k s0 dp tm tb st h) {c : Nat} {nc : CNode S A ℚ Y} (hc : st.cn[c]? = some nc)
    (hL : remaining m nc.depth ≤ 2 ^ 49) {M : ℚ} (hM : IsDouble M) (hMρ : 2 * (remaining m nc.depth + 1) * ρ ≤ M)
    (hn0 : returnsC c h ≠ []) (hn : (returnsC c h).length ≤ 2 ^ 53) :
    (py nc.y).n = (returnsC c h).length ∧
    |(py nc.y).avg - exactMean (returnsC c h)| ≤ avgError (remaining m nc.depth) (returnsC c h).length ρ M := by
  obtain ⟨h1, h2⟩ := (avgFold_reach hb hv H htb hr).c c nc hc
  have hlen : (returnsC c h).length = (argsC c h).length := by rw [returnsC_args, List.length_map]
  have hn1 := List.length_pos_iff.2 hn0
  rw [hlen] at hn1 hn ⊢
  have hρ : 0 ≤ ρ := le_trans (abs_nonneg _) (hb.heur s0).2
  constructor
  · rw [h1]
    clear h1 h2 hn0 hn hn1 hlen
    induction argsC c h with
    | nil => rfl
    | cons a l ih => rw [List.foldr_cons, List.length_cons, backupAvg_n, ih]
  · have := node_err (p := 0) hM hL hMρ isDouble_zero (by simpa using hρ) h2 (by omega) (by omega)
    rw [h1, returnsC_args]
    unfold avgError exactMean
    rw [List.length_map]
    push_cast at this
    simpa using this

theorem avgAlg_has (pseudo : Nat) : HasFpAvg (avgAlg pseudo : Alg S A ℚ (Stats ℚ) (Stats ℚ)) id id pseudo :=
  ⟨fun _ _ _ _ => rfl, fun _ _ _ _ => rfl, fun _ _ => rfl, fun _ => rfl, fun _ _ _ => rfl, fun _ _ _ _ _ => rfl⟩

theorem avgAlg_valid (pseudo : Nat) : (avgAlg pseudo : Alg S A ℚ (Stats ℚ) (Stats ℚ)).Valid := by
  intro v _ a h
  simpa [avgAlg] using h

/-! ## DP values -/

theorem HasFpDp.toW {px : X → Dp ℚ} {py : Y → Dp ℚ} {lr : S → A → ℚ} (H : HasFpDp alg px py lr) :
    HasDpW alg px py (fun s a l => Fp.chanceValue (lr s a) l) :=
  ⟨H.initD, H.initC, H.visitD, H.visitC, H.backupD, fun s a y kids args => by rw [H.backupC]; rfl⟩

theorem wmean_eq (l : List (Nat × ℚ)) : wmean l = weighted l / backups l := by
  unfold wmean weighted backups
  congr 1
  induction l with
  | nil => simp
  | cons p l ih => simp only [List.map_cons, List.sum_cons, ih]; push_cast; rfl

theorem dpError_nonneg {K D : Nat} (hρ : 0 ≤ ρ) : 0 ≤ dpError K D ρ := by
  have := unit_pos
  unfold dpError
  positivity

/-- The error of a chance node. -/
theorem chance_err {K D : Nat} (hρ : 1 ≤ ρ) (hK : K ≤ 2 ^ 30) (hDK : D * (8 * K + 3) ≤ 2 ^ 52) {R : ℚ} (hR : IsDouble R) (hRρ : |R| ≤ ρ) {l : List (Nat × ℚ)}
    (hl : l.length ≤ K) (hv : ∀ p ∈ l, |p.2| ≤ (D + 1) * ρ + D * dpError K D ρ) (h1 : 1 ≤ (l.map Prod.fst).sum) (h2 : (l.map Prod.fst).sum ≤ 2 ^ 50) :
    |Fp.chanceValue R l - (R + wmean l)| ≤ dpError K D ρ := by
  have hu := unit_pos
  have hD0 : (0 : ℚ) ≤ D := by positivity
  have hK0 : (0 : ℚ) ≤ K := by positivity
  have hDρ : 0 ≤ D * ρ := mul_nonneg hD0 (by linarith)
  have hM1 : 1 ≤ 2 * (D + 1) * ρ := by nlinarith
  have hsmall : (D : ℚ) * (8 * K + 3) * unit ≤ 1 / 2 := by
    have : (D : ℚ) * (8 * K + 3) ≤ 2 ^ 52 := by exact_mod_cast hDK
    rw [unit_eq]
    linarith
  have hDE : D * dpError K D ρ ≤ (D + 1) * ρ := by
    have e : D * dpError K D ρ = (D * (8 * K + 3) * unit) * (2 * (D + 1) * ρ) := by unfold dpError; ring
    rw [e]
    have := mul_le_mul_of_nonneg_right hsmall (by linarith : (0 : ℚ) ≤ 2 * (D + 1) * ρ)
    linarith
  have h3 := chanceValue_err (M := 2 * (D + 1) * ρ) hM1 hR (le_trans hl hK) (fun p hp => by have := hv p hp; linarith) h2 h1
  rw [wmean_eq]
  refine le_trans h3 ?_
  have hlq : (l.length : ℚ) ≤ K := by exact_mod_cast hl
  have huM : 0 ≤ unit * (2 * (D + 1) * ρ) := mul_nonneg hu.le (by linarith)
  have h4 : unit * |R| ≤ unit * (2 * (D + 1) * ρ) := mul_le_mul_of_nonneg_left (by nlinarith) hu.le
  have h5 : (8 * l.length + 2 : ℚ) * (unit * (2 * (D + 1) * ρ)) ≤ (8 * K + 2) * (unit * (2 * (D + 1) * ρ)) :=
    mul_le_mul_of_nonneg_right (by linarith) huM
  unfold dpError
  linarith

variable {px : X → Dp ℚ} {py : Y → Dp ℚ} {lr : S → A → ℚ} {K D : Nat}

/-- What C91 (b) assumes of the environment and the manager: values of size at most `ρ`, at most `K` successors, depth `D`. -/
structure FpFits (env : Env S A ℚ) (m : Manager S ℚ) (lr : S → A → ℚ) (ρ : ℚ) (K D : Nat) (dp : Int) (h : List (Event S A ℚ)) : Prop where
  one : 1 ≤ ρ
  heur : ∀ s, IsDouble (heurOf env m s) ∧ |heurOf env m s| ≤ ρ
  local_ : ∀ s a, a ∈ env.actions s → IsDouble (lr s a) ∧ |lr s a| ≤ ρ
  succs : ∀ s a, a ∈ env.actions s → (env.succ s a).length ≤ K
  few : K ≤ 2 ^ 30
  depth : (m.maxDepth - dp).toNat ≤ D
  small : D * (8 * K + 3) ≤ 2 ^ 52
  trials : K + trialsBegun h ≤ 2 ^ 50

theorem depth_le (hv : alg.Valid) (htb : Leftover tb) (hr : Reachable env m alg k s0 dp tm tb st h) {d : Nat} {nd : DNode S A ℚ X} (hd : st.dn[d]? = some nd) :
    remaining m nd.depth ≤ remaining m dp := by
  have : dp ≤ nd.depth := ((reach_inv hv htb hr).tree.heap.dTime d nd.skel (by simp [hd])).2
  unfold remaining
  omega

/-- C91 (b).  Whenever no trial is running (no transposition table), the DP value of every decision node is the value of the search tree below it, up to `dpError` per
level. -/
theorem c91_tree_value (F : FpFits env m lr ρ K D dp h) (hv : alg.Valid) (H : HasFpDp alg px py lr) (hvis : ∀ x, alg.visitD false x = x)
    (hu : m.useTable = false) (htb : Leftover tb) (hr : Reachable env m alg k s0 dp tm tb st h) (hq : Quiescent st) {d : Nat} {nd : DNode S A ℚ X}
    (hd : st.dn[d]? = some nd) :
    ∃ v, valD px st d = some v ∧
      |v - treeValue env m lr st h (remaining m nd.depth) d| ≤ remaining m nd.depth * dpError K D ρ := by
  have hρ : 0 ≤ ρ := by have := F.one; linarith
  have hD := F.depth
  have := tree_near hv H.toW hvis hu htb hr hq hρ (dpError_nonneg hρ) (fun s => (F.heur s).2) (fun s a ha => (F.local_ s a ha).2) F.succs F.trials
    (fun s a l ha hl hp h1 h2 => chance_err F.one F.few F.small (F.local_ s a ha).1 (F.local_ s a ha).2 hl hp h1 h2)
    (remaining m nd.depth) d nd (le_trans (depth_le hv htb hr hd) hD) hd (le_refl _)
  exact this.2

/-- C91 (b), chance nodes: reward plus weighted mean of the values of the trees below. -/
theorem c91_chance_value (F : FpFits env m lr ρ K D dp h) (hv : alg.Valid) (H : HasFpDp alg px py lr) (hvis : ∀ x, alg.visitD false x = x)
    (hu : m.useTable = false) (htb : Leftover tb) (hr : Reachable env m alg k s0 dp tm tb st h) (hq : Quiescent st) {d c : Nat} {a : A}
    {nd : DNode S A ℚ X} (hd : st.dn[d]? = some nd) (hc : childC st d a = some c) :
    ∃ nc v, st.cn[c]? = some nc ∧ valC py st c = some v ∧
      |v - Backups.chanceValue env m lr st h (treeValue env m lr st h (remaining m (nd.depth + 1))) nc| ≤ remaining m nd.depth * dpError K D ρ := by
  have hρ : 0 ≤ ρ := by have := F.one; linarith
  have I := reach_inv hv htb hr
  obtain ⟨nd2, nc, k1, k2, k3, _⟩ := childC_facts I.tree hc
  rw [hd] at k1
  obtain rfl := Option.some.inj k1
  have hleaf : isLeaf env m nd = false := by
    cases hl : isLeaf env m nd with
    | false => rfl
    | true =>
      rw [isLeaf_skel] at hl
      have : nd.kids = [] := I.tree.heap.dLeaf d nd.skel (by simp [hd]) hl
      rw [this] at k3
      simp at k3
  have hrem : remaining m nd.depth = remaining m (nd.depth + 1) + 1 := by
    simp only [isLeaf, Bool.or_eq_false_iff, decide_eq_false_iff_not] at hleaf
    unfold remaining
    omega
  have hD : remaining m nd.depth ≤ D := le_trans (depth_le hv htb hr hd) F.depth
  have mean := fun s a l ha hl hp h1 h2 => chance_err F.one F.few F.small (F.local_ s a ha).1 (F.local_ s a ha).2 (l := l) hl hp h1 h2
  obtain ⟨nc2, u, g1, g2, _, _, g5⟩ := chance_near hv H.toW hvis hu htb hr hq hρ (dpError_nonneg hρ) (fun s a ha => (F.local_ s a ha).2) F.succs F.trials
    mean (n := remaining m (nd.depth + 1)) (tree_near hv H.toW hvis hu htb hr hq hρ (dpError_nonneg hρ) (fun s => (F.heur s).2)
      (fun s a ha => (F.local_ s a ha).2) F.succs F.trials mean _) (by omega) hd (le_of_eq hrem) k3
  refine ⟨nc2, u, g1, g2, ?_⟩
  rw [hrem]
  push_cast
  exact g5

theorem dpAlg_has (lr : S → A → ℚ) : HasFpDp (dpAlg lr : Alg S A ℚ (Dp ℚ) (Dp ℚ)) id id lr :=
  ⟨fun _ _ _ _ => rfl, fun _ _ _ _ => rfl, fun _ _ => rfl, fun _ => rfl, fun _ _ _ => rfl, fun _ _ _ _ _ => rfl⟩

theorem dpAlg_valid (lr : S → A → ℚ) : (dpAlg lr : Alg S A ℚ (Dp ℚ) (Dp ℚ)).Valid := by
  intro v _ a h
  simpa [dpAlg] using h

/-! ## Games -/

variable {next : S → A → S}

/-- C91 (c).  In a deterministic environment, when everything has been tried and no trial is running, every decision node has the value of the game from its state on, up to
`dpError` per move to go. -/
theorem c91_game_value (F : FpFits env m lr ρ K D dp h) (hdet : ∀ s a, a ∈ env.actions s → env.succ s a = [next s a])
    (hlr : ∀ s a, a ∈ env.actions s → lr s a = env.reward s a (next s a)) (hne : ∀ s, env.isSink s = false → env.actions s ≠ [])
    (hv : alg.Valid) (H : HasFpDp alg px py lr) (hvis : ∀ x, alg.visitD false x = x)
    (hu : m.useTable = false) (htb : Leftover tb) (hr : Reachable env m alg k s0 dp tm tb st h) (hq : Quiescent st) (hx : Exhausted env m st)
    {d : Nat} {nd : DNode S A ℚ X} (hd : st.dn[d]? = some nd) :
    ∃ v, valD px st d = some v ∧ |v - gameValue env m next (remaining m nd.depth) nd.time nd.state| ≤ remaining m nd.depth * dpError K D ρ := by
  have := c91_tree_value F hv H hvis hu htb hr hq hd
  rwa [game_tree hdet hlr hne hv htb hr hq hx (remaining m nd.depth) d nd hd rfl] at this

open Verif.Uct Verif.Ments in
/-- C91 (c).  And the action recommended by DP value (threshold at most one visit) at any node that is not a leaf is within `2 n dpError` of optimal, with `n` moves to go. -/
theorem c91_recommends (F : FpFits env m lr ρ K D dp h) (hdet : ∀ s a, a ∈ env.actions s → env.succ s a = [next s a])
    (hlr : ∀ s a, a ∈ env.actions s → lr s a = env.reward s a (next s a)) (hne : ∀ s, env.isSink s = false → env.actions s ≠ [])
    (hv : alg.Valid) (H : HasFpDp alg px py lr) (hvis : ∀ x, alg.visitD false x = x)
    (hu : m.useTable = false) (htb : Leftover tb) (hr : Reachable env m alg k s0 dp tm tb st h) (hq : Quiescent st) (hx : Exhausted env m st)
    {d : Nat} {nd : DNode S A ℚ X} (hd : st.dn[d]? = some nd) (hleaf : isLeaf env m nd = false) {low : ℚ} {threshold : Int} (ht : threshold ≤ 1)
    (hlow : ∀ a ∈ env.actions nd.state, low + remaining m nd.depth * dpError K D ρ ≤
      (if isOpponent m nd.time then -1 else 1) * moveValue env m next (remaining m (nd.depth + 1)) nd.time nd.state a)
    (raw : Nat) {iter : List (A × ℚ) → List (A × ℚ)} (hi : IterOk iter) :
    ∃ a ∈ env.actions nd.state,
      recommendBestOrRandom low threshold (viewOf env m st nd).opp (viewOf env m st nd).actions
        ((viewOf env m st nd).kids.map fun k => (k.1, (py k.2.2).n, (py k.2.2).val.getD 0)) raw iter = some a ∧
      NearBest env m next (remaining m (nd.depth + 1)) nd.time nd.state a (2 * (remaining m nd.depth * dpError K D ρ)) := by
  have I := reach_inv hv htb hr
  obtain ⟨_, _, Dp⟩ := dp_reach_w hv H.toW htb hr
  set ε := remaining m nd.depth * dpError K D ρ with hε
  let Q : A → ℚ := moveValue env m next (remaining m (nd.depth + 1)) nd.time nd.state
  have hsink : env.isSink nd.state = false := by
    simp [isLeaf] at hleaf
    exact hleaf.1
  have hrem : (m.maxDepth - nd.depth).toNat = remaining m (nd.depth + 1) + 1 := by
    simp only [isLeaf, Bool.or_eq_false_iff, decide_eq_false_iff_not] at hleaf
    unfold remaining
    omega
  set kids := (viewOf env m st nd).kids.map fun k => (k.1, (py k.2.2).n, (py k.2.2).val.getD 0) with hkids
  have hkid : ∀ p ∈ kids, p.1 ∈ env.actions nd.state ∧ 1 ≤ p.2.1 ∧ |p.2.2 - Q p.1| ≤ ε := by
    intro p hp
    obtain ⟨q, hq', rfl⟩ := List.mem_map.1 hp
    obtain ⟨c, nc, e1, e2, e3⟩ := mem_kidsY.1 hq'
    have hcc := childC_of_mem I.tree hd e1
    obtain ⟨nd2, nc2, f1, f2, _, _, _, _, _, f8⟩ := childC_facts I.tree hcc
    rw [hd] at f1
    obtain rfl := Option.some.inj f1
    obtain ⟨nc', x, q1, q2, q3⟩ := c91_chance_value F hv H hvis hu htb hr hq hd hcc
    rw [e2] at q1
    obtain rfl := Option.some.inj q1
    refine ⟨f8, ?_, ?_⟩
    · rw [e3]
      dsimp only
      rw [(Dp.c c nc e2).1]
      exact List.length_pos_iff.2 (c39_children_backed hv htb hr hq hcc).2
    · rw [e3]
      simp only [valC, e2, Option.bind_some] at q2
      dsimp only
      rw [q2, Option.getD_some]
      obtain ⟨nd3, nc3, r1, r2, r3⟩ := chance_det hdet hlr hv htb hr hq
        (fun d nd hd hn => game_tree hdet hlr hne hv htb hr hq hx _ d nd hd hn) hcc
      rw [hd] at r1
      obtain rfl := Option.some.inj r1
      rw [e2] at r2
      obtain rfl := Option.some.inj r2
      rw [r3 hrem] at q3
      exact q3
  have hall : ∀ a ∈ env.actions nd.state, ∃ n x, (a, n, x) ∈ kids := by
    intro a ha
    obtain ⟨c, hc⟩ := hx d nd hd hleaf a ha
    obtain ⟨nd2, nc, f1, f2, f3, _⟩ := childC_facts I.tree hc
    rw [hd] at f1
    obtain rfl := Option.some.inj f1
    exact ⟨_, _, List.mem_map.2 ⟨(a, nc.visits, nc.y), mem_kidsY.2 ⟨c, nc, f3, f2, rfl⟩, rfl⟩⟩
  obtain ⟨a0, ha0⟩ := List.exists_mem_of_ne_nil _ (hne _ hsink)
  obtain ⟨n0, x0, hn0⟩ := hall a0 ha0
  have hkne : kids ≠ [] := List.ne_nil_of_mem hn0
  have hth' : ∀ p ∈ kids, threshold ≤ (p.2.1 : Int) := by
    intro p hp
    have := (hkid p hp).2.1
    omega
  obtain ⟨a, n, x, hm, h1, h2, _⟩ := c37_best_value (low := low) (threshold := threshold) (opp := isOpponent m nd.time)
    (kids := kids) hkne (by
      intro p hp
      obtain ⟨r1, _, r3⟩ := hkid p hp
      have r4 := hlow p.1 r1
      obtain ⟨r5, r6⟩ := abs_le.1 r3
      simp only [Q] at r5 r6
      by_cases ho : isOpponent m nd.time = true
      · rw [if_pos ho] at r4 ⊢; linarith
      · rw [if_neg ho] at r4 ⊢; linarith) raw hi
  obtain ⟨_, hbest⟩ := h2 ⟨_, hn0, hth' _ hn0⟩
  obtain ⟨ha, _, hxa⟩ := hkid _ hm
  refine ⟨a, ha, ?_, ?_⟩
  · unfold recommendBestOrRandom
    rw [if_neg (by simpa using hkne)]
    exact h1
  · intro b hb
    obtain ⟨nb, xb, hnb⟩ := hall b hb
    have t1 := hbest _ hnb (hth' _ hnb)
    obtain ⟨_, _, t2⟩ := hkid _ hnb
    obtain ⟨t3, t4⟩ := abs_le.1 t2
    obtain ⟨t5, t6⟩ := abs_le.1 hxa
    simp only [Q] at t3 t4 t5 t6
    split at t1
    · next ho => rw [if_pos ho]; linarith
    · next ho => rw [if_neg ho]; linarith

end

/-! ## A concrete search -/

theorem toy_reward (s a o : Nat) (ha : a ∈ Toy.env.actions s) : IsDouble (Toy.env.reward s a o) ∧ |Toy.env.reward s a o| ≤ 1 := by
  have ha' : a = 0 ∨ a = 1 := by simpa [Toy.env] using ha
  by_cases hs : s ≤ 6
  · have : ∀ s < 7, ∀ a < 2, IsDouble (Toy.env.reward s a 0) ∧ |Toy.env.reward s a 0| ≤ 1 := by decide +kernel
    exact this s (by omega) a (by omega)
  · have : Toy.env.reward s a o = 0 := by simp [Toy.env, hs]
    rw [this]
    exact ⟨isDouble_zero, by norm_num⟩

theorem toy_heur (s : Nat) : IsDouble (heurOf Toy.env Toy.mgr s) ∧ |heurOf Toy.env Toy.mgr s| ≤ 1 := by
  have h1 : IsDouble 0 ∧ |(0 : ℚ)| ≤ 1 := ⟨isDouble_zero, by norm_num⟩
  have h2 : IsDouble (fl (1 / 3)) ∧ |fl (1 / 3)| ≤ 1 := by decide +kernel
  have h3 : IsDouble (fl (1 / 7)) ∧ |fl (1 / 7)| ≤ 1 := by decide +kernel
  simp only [heurOf, Toy.mgr]
  split
  · exact h1
  · split
    · exact h2
    · exact h3

theorem toy_bounded : FpBounded Toy.env Toy.mgr 1 := ⟨fun s a o ha _ => toy_reward s a o ha, toy_heur⟩

/-- A run of two workers of a game of two moves with rewards that are not representable: the hypotheses of C91 (b) and (c) are met, the value of the root is not the exact one,
and it is within the bound, which is below 1e-13. -/
example : ∃ st h, Reachable Toy.env Toy.mgr (dpAlg Toy.lr) 2 0 0 0 [] st h ∧ FpFits Toy.env Toy.mgr Toy.lr 1 1 2 0 h ∧
    (st.ws.all (fun p => decide (p = Phase.idle)) && st.dn.length == 7 &&
     (List.range 7).all (fun d => (st.dn[d]?).any fun nd => isLeaf Toy.env Toy.mgr nd ||
       (Toy.env.actions nd.state).all fun a => (childC st d a).isSome) &&
     decide (valD id st 0 ≠ some (gameValue Toy.env Toy.mgr Toy.next 2 0 0)) &&
     decide (2 * dpError 1 2 1 < 1 / 10 ^ 13)) = true := by
  obtain ⟨st, h, h1, h2⟩ := Toy.run (fun st h => (st.ws.all (fun p => decide (p = Phase.idle)) && st.dn.length == 7 &&
     (List.range 7).all (fun d => (st.dn[d]?).any fun nd => isLeaf Toy.env Toy.mgr nd ||
       (Toy.env.actions nd.state).all fun a => (childC st d a).isSome) &&
     decide (valD id st 0 ≠ some (gameValue Toy.env Toy.mgr Toy.next 2 0 0)) &&
     decide (2 * dpError 1 2 1 < 1 / 10 ^ 13)) && decide (trialsBegun h ≤ 6)) (by decide +kernel)
  simp only [Bool.and_eq_true] at h2
  refine ⟨st, h, h1, ?_, by simp only [Bool.and_eq_true]; exact h2.1⟩
  have ht : trialsBegun h ≤ 6 := by simpa using h2.2
  exact ⟨le_refl _, toy_heur, fun s a ha => toy_reward s a _ ha, fun s a _ => by simp [Toy.env], by norm_num, by decide, by norm_num, by omega⟩

/-- The same with averages: after six trials the average return of the root is not the exact mean of the returns. -/
example : ∃ st h, Reachable Toy.env Toy.mgr (avgAlg 0) 2 0 0 0 [] st h ∧
    ((returnsD 0 h).length == 6 && (st.dn[0]?).any (fun nd => decide (nd.x.avg ≠ exactMean (returnsD 0 h))) &&
     decide (avgError 2 6 1 6 < 1 / 10 ^ 13) && decide (IsDouble 6)) = true :=
  Toy.runAvg _ (by decide +kernel)

end Verif.Fp
