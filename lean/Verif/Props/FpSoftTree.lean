import Verif.Proofs.FpSoftTree
import Verif.Proofs.Erase
import Verif.Props.FpSearch
import Verif.Props.FpSoft
import Verif.Props.MentsSelect

/-!
# C94: the values of whole MENTS searches are accurate in floating point
-/

namespace Verif.Fp

open Verif.Search Verif.Backups Verif.Sampling Verif.Spec Verif.Props
open Verif.Ments (sgn softmax softWeight)
open Verif.Uct (IterOk)

set_option linter.unusedSectionVars false

section
variable {S A X Y : Type} [DecidableEq S] [DecidableEq A]
  {env : Env S A ℚ} {m : Manager S ℚ} {alg : Alg S A ℚ X Y} {px : X → SoftF} {py : Y → SoftF} {ex lg : ℚ → ℚ} {cfg : MentsCfg} {lr : S → A → ℚ}
  {k : Nat} {s0 : S} {dp tm : Int} {tb : List ((Int × S) × Option Nat)} {st : St S A ℚ X Y} {h : List (Event S A ℚ)}
  {ρ M : ℚ} {K n D : Nat} {α β : ℝ} {next : S → A → S}

theorem sampleLoop_mem {K : Type} {sum eps u : ℚ} {n : Nat} {a : K} : ∀ {i : Nat} {run : ℚ} {l : List (K × ℚ)},
    sampleLoop sum eps u n i run l = .key a → a ∈ l.map Prod.fst
  | _, _, [], h => by simp [sampleLoop] at h
  | i, run, (b, w) :: l, h => by
    rw [sampleLoop] at h
    split at h
    · cases h
    · split at h
      · cases h; simp
      · have := sampleLoop_mem h
        simp only [List.map_cons, List.mem_cons]
        exact Or.inr this

/-- MENTS with doubles only selects valid actions. -/
theorem ments_valid (ex lg : ℚ → ℚ) (cfg : MentsCfg) (lr : S → A → ℚ) : (ments ex lg cfg lr).Valid := by
  intro v ctx a h
  have h' : mentsCanSelect ex lg cfg id v a = true := h
  unfold mentsCanSelect at h'
  obtain ⟨u, iter, _, _, _, hp, hs⟩ := @of_decide_eq_true _ (Classical.propDecidable _) h'
  unfold selectMents sampleFrom at hs
  have := sampleLoop_mem hs
  rw [(hp _).map Prod.fst |>.mem_iff] at this
  obtain ⟨p, hp1, rfl⟩ := List.mem_map.1 this
  have hp2 := (List.mem_filter.1 hp1).1
  unfold mixture mixtureW actionWeights softQs at hp2
  simp only [List.map_map, List.mem_map, Function.comp_def] at hp2
  obtain ⟨b, hb, rfl⟩ := hp2
  exact hb

/-- MENTS is one of the algorithms meant. -/
theorem ments_hasFpSoft (ex lg : ℚ → ℚ) (cfg : MentsCfg) (lr : S → A → ℚ) : HasFpSoft (ments ex lg cfg lr) id id ex lg cfg lr :=
  ⟨fun _ _ _ _ => rfl, fun _ _ _ _ => rfl, fun _ _ => rfl, fun _ => rfl, fun _ _ _ => rfl, fun _ _ _ _ _ => rfl⟩

/-- C94 (a).  Whenever no trial is running (no transposition table), the soft value of every decision node is the soft value of the tree below it in real arithmetic, up to
`softError` per level. -/
theorem c94_tree_value (G : GoodMath ex lg α β) (F : SoftFits env m cfg lr ρ M K n D α β dp h) (hv : alg.Valid) (H : HasFpSoft alg px py ex lg cfg lr)
    (hvis : ∀ x, alg.visitD false x = x) (hu : m.useTable = false) (htb : Leftover tb) (hr : Reachable env m alg k s0 dp tm tb st h) (hq : Quiescent st)
    {d : Nat} {nd : DNode S A ℚ X} (hd : st.dn[d]? = some nd) :
    ∃ v, softDF px st d = some v ∧ |(v : ℝ) - softTreeR cfg env m lr st h (remaining m nd.depth) d| ≤ remaining m nd.depth * softError K n cfg.temp M α β :=
  ⟨_, by simp [softDF, hd], (treeF_near G F hv H hvis hu htb hr hq (remaining m nd.depth) d nd (le_trans (depth_le hv htb hr hd) F.depth) hd (le_refl _)).2⟩

theorem inner_node (hv : alg.Valid) (htb : Leftover tb) (hr : Reachable env m alg k s0 dp tm tb st h) {d c : Nat} {a : A} {nd : DNode S A ℚ X}
    (hd : st.dn[d]? = some nd) (hc : childC st d a = some c) : remaining m nd.depth = remaining m (nd.depth + 1) + 1 := by
  have I := reach_inv hv htb hr
  obtain ⟨nd2, nc, k1, k2, k3, _⟩ := childC_facts I.tree hc
  rw [hd] at k1
  obtain rfl := Option.some.inj k1
  have hleaf : isLeaf env m nd = false := by
    cases hl : isLeaf env m nd with
    | false => rfl
    | true =>
      rw [isLeaf_skel] at hl
      have : nd.kids = [] := I.tree.heap.dLeaf d nd.skel (by simp [hd]) hl
      rw [this] at k3
      simp at k3
  simp only [isLeaf, Bool.or_eq_false_iff, decide_eq_false_iff_not] at hleaf
  unfold remaining
  omega

/-- C94 (a), chance nodes: the reward plus the mean of the soft values of the trees below, weighted by trials. -/
theorem c94_chance_value (G : GoodMath ex lg α β) (F : SoftFits env m cfg lr ρ M K n D α β dp h) (hv : alg.Valid) (H : HasFpSoft alg px py ex lg cfg lr)
    (hvis : ∀ x, alg.visitD false x = x) (hu : m.useTable = false) (htb : Leftover tb) (hr : Reachable env m alg k s0 dp tm tb st h) (hq : Quiescent st)
    {d c : Nat} {a : A} {nd : DNode S A ℚ X} (hd : st.dn[d]? = some nd) (hc : childC st d a = some c) :
    ∃ nc v, st.cn[c]? = some nc ∧ softCF py st c = some v ∧
      |(v : ℝ) - chanceSoftR env m lr st h (softTreeR cfg env m lr st h (remaining m (nd.depth + 1))) nc| ≤ remaining m nd.depth * softError K n cfg.temp M α β := by
  have hrem := inner_node hv htb hr hd hc
  have hD : remaining m nd.depth ≤ D := le_trans (depth_le hv htb hr hd) F.depth
  obtain ⟨nc, h1, _, h3⟩ := chanceF_near G F hv H hvis hu htb hr hq (j := remaining m (nd.depth + 1))
    (fun d nd hj hd hn => treeF_near G F hv H hvis hu htb hr hq _ d nd hj hd hn) (by omega) hd (by unfold remaining at hrem ⊢; omega) hc
  refine ⟨nc, _, h1, by simp only [softCF, h1, Option.map_some], le_trans h3 ?_⟩
  have h5 : (8 * (K : ℝ) + 3) * (unit * M) ≤ softError K n cfg.temp M α β := by
    have hu0 : (0 : ℝ) < unit := by exact_mod_cast unit_pos
    have hM' : (0 : ℝ) ≤ M := by have := F.one; exact_mod_cast (by linarith : (0 : ℚ) ≤ M)
    have hti : (0 : ℝ) < tiny := by exact_mod_cast tiny_pos
    have ht : (0 : ℝ) < cfg.temp := by exact_mod_cast F.temp.2
    have hα := G.α.1
    have hβ := G.β.1
    have e1 : (0 : ℝ) ≤ cfg.temp * (16 * n * unit + 4 * α + 2 * n * β) := by positivity
    have e2 : (0 : ℝ) ≤ unit * M := by positivity
    unfold softError
    linarith
  rw [hrem]
  push_cast
  linarith

theorem chanceR_det (hdet : ∀ s a, a ∈ env.actions s → env.succ s a = [next s a])
    (hlr : ∀ s a, a ∈ env.actions s → lr s a = env.reward s a (next s a)) (hne : ∀ s, env.isSink s = false → env.actions s ≠ [])
    (hv : alg.Valid) (htb : Leftover tb) (hr : Reachable env m alg k s0 dp tm tb st h) (hq : Quiescent st) (hx : Exhausted env m st)
    {j : Nat} {ε : ℝ} {below : Nat → ℝ} (ih : ∀ (d : Nat) nd, st.dn[d]? = some nd → (m.maxDepth - nd.depth).toNat = j →
      |below d - gameValue env m next j nd.time nd.state| ≤ ε)
    {d c : Nat} {a : A} {nd : DNode S A ℚ X} {nc : CNode S A ℚ Y} (hd : st.dn[d]? = some nd) (hc : childC st d a = some c)
    (hnc : st.cn[c]? = some nc) (hn : (m.maxDepth - nd.depth).toNat = j + 1) :
    |chanceSoftR env m lr st h below nc - moveValue env m next j nd.time nd.state a| ≤ ε := by
  obtain ⟨nd2, nc2, d', nd', k1, k2, k3, k4, k5, k6, k7, k8, k9, k10⟩ := det_kid hdet hv htb hr hq hc
  rw [hd] at k1
  obtain rfl := Option.some.inj k1
  rw [hnc] at k2
  obtain rfl := Option.some.inj k2
  rw [chanceSoftR, k6, k3, k4, hlr _ _ k5, moveValue]
  simp only [List.map_cons, List.map_nil]
  rw [wmean_single _ _ (Ments.softWeight_pos hne hv htb hr hq hx hc hnc k6)]
  push_cast
  rw [add_sub_add_left_eq_sub]
  have := ih d' nd' k7 (by omega)
  rw [k8, k10] at this
  exact this

theorem softR_game (hdet : ∀ s a, a ∈ env.actions s → env.succ s a = [next s a])
    (hlr : ∀ s a, a ∈ env.actions s → lr s a = env.reward s a (next s a)) (hne : ∀ s, env.isSink s = false → env.actions s ≠ [])
    (hv : alg.Valid) (htb : Leftover tb) (hr : Reachable env m alg k s0 dp tm tb st h) (hq : Quiescent st) (hx : Exhausted env m st)
    (ht : 0 < cfg.temp) (hB : ∀ s, (env.actions s).length ≤ n) :
    ∀ (j d : Nat) nd, st.dn[d]? = some nd → (m.maxDepth - nd.depth).toNat = j →
      |softTreeR cfg env m lr st h j d - gameValue env m next j nd.time nd.state| ≤ j * (cfg.temp * Real.log n) := by
  have I := reach_inv hv htb hr
  have ht' : (0 : ℝ) < cfg.temp := by exact_mod_cast ht
  have hlog : 0 ≤ (cfg.temp : ℝ) * Real.log n := mul_nonneg ht'.le (Real.log_natCast_nonneg n)
  have leafKids : ∀ (d : Nat) nd, st.dn[d]? = some nd → isLeaf env m nd = true → nd.kids = [] := by
    intro d nd hd hl
    rw [isLeaf_skel] at hl
    exact I.tree.heap.dLeaf d nd.skel (by simp [hd]) hl
  have hheur : ∀ (d : Nat) nd, st.dn[d]? = some nd → nd.heur = heurOf env m nd.state := by
    intro d nd hd
    exact I.tree.heap.dHeur d nd.skel (by simp [hd])
  intro j
  induction j with
  | zero =>
    intro d nd hd hn
    simp [softTreeR, hd, gameValue, hheur d nd hd]
  | succ j ih =>
    intro d nd hd hn
    simp only [softTreeR, hd, Option.elim_some, gameValue]
    by_cases hs : env.isSink nd.state = true
    · have hk := leafKids d nd hd (by simp [isLeaf, hs])
      rw [if_pos hk, if_pos hs, hheur d nd hd]
      have : heurOf env m nd.state = 0 := by
        unfold heurOf
        split
        · rfl
        · simp [hs]
      rw [this]
      simp only [sub_zero, abs_zero, Rat.cast_zero]
      positivity
    · have hs' : env.isSink nd.state = false := by simpa using hs
      have hl : isLeaf env m nd = false := by
        simp [isLeaf, hs']
        omega
      obtain ⟨a0, ha0⟩ := List.exists_mem_of_ne_nil _ (hne _ hs')
      obtain ⟨c0, hc0⟩ := hx d nd hd hl a0 ha0
      obtain ⟨nd1, _, f1, _, f3, _⟩ := childC_facts I.tree hc0
      rw [hd] at f1
      obtain rfl := Option.some.inj f1
      rw [if_neg (List.ne_nil_of_mem f3), if_neg hs]
      set opp := isOpponent m nd.time
      let q : A → ℝ := fun a => (find? a nd.kids).elim (cfg.defaultQ : ℝ) fun c => (st.cn[c]?).elim 0 (chanceSoftR env m lr st h (softTreeR cfg env m lr st h j))
      have e1 := Ments.softmax_close ht' opp q (hne _ hs')
      have e2 : |bestOf opp ((env.actions nd.state).map q) - bestOf opp ((env.actions nd.state).map fun a => (moveValue env m next j nd.time nd.state a : ℝ))| ≤
          j * (cfg.temp * Real.log n) := by
        refine bestOf_near (hne _ hs') ?_
        intro a ha
        obtain ⟨c, hc⟩ := hx d nd hd hl a ha
        have hf : find? a nd.kids = some c := by simpa [childC, hd] using hc
        obtain ⟨nd1, nc, f1, f2, _⟩ := childC_facts I.tree hc
        simp only [q, hf, Option.elim_some, f2]
        exact chanceR_det hdet hlr hne hv htb hr hq hx ih hd hc f2 hn
      have e3 : ((bestOf opp ((env.actions nd.state).map fun a => env.reward nd.state a (next nd.state a) +
          gameValue env m next j (nd.time + 1) (next nd.state a)) : ℚ) : ℝ) =
          bestOf opp ((env.actions nd.state).map fun a => (moveValue env m next j nd.time nd.state a : ℝ)) := bestOf_cast (hne _ hs')
      rw [e3]
      have hlen : (cfg.temp : ℝ) * Real.log (env.actions nd.state).length ≤ cfg.temp * Real.log n := by
        refine mul_le_mul_of_nonneg_left (Real.log_le_log ?_ ?_) ht'.le
        · exact_mod_cast List.length_pos_of_ne_nil (hne _ hs')
        · exact_mod_cast hB nd.state
      have e4 := abs_sub_le (sgn opp * softmax (cfg.temp : ℝ) (fun a => sgn opp * q a) (env.actions nd.state)) (bestOf opp ((env.actions nd.state).map q))
        (bestOf opp ((env.actions nd.state).map fun a => (moveValue env m next j nd.time nd.state a : ℝ)))
      refine le_trans e4 ?_
      push_cast
      linarith

/-- C94 (b).  In a deterministic environment, when everything has been tried and no trial is running, the soft value of every decision node is the value of the game from its
state on, up to `softError` and `temp * log n` per move to go. -/
theorem c94_game_value (G : GoodMath ex lg α β) (F : SoftFits env m cfg lr ρ M K n D α β dp h) (hdet : ∀ s a, a ∈ env.actions s → env.succ s a = [next s a])
    (hlr : ∀ s a, a ∈ env.actions s → lr s a = env.reward s a (next s a)) (hne : ∀ s, env.isSink s = false → env.actions s ≠ [])
    (hv : alg.Valid) (H : HasFpSoft alg px py ex lg cfg lr) (hvis : ∀ x, alg.visitD false x = x)
    (hu : m.useTable = false) (htb : Leftover tb) (hr : Reachable env m alg k s0 dp tm tb st h) (hq : Quiescent st) (hx : Exhausted env m st)
    {d : Nat} {nd : DNode S A ℚ X} (hd : st.dn[d]? = some nd) :
    ∃ v, softDF px st d = some v ∧ |(v : ℝ) - gameValue env m next (remaining m nd.depth) nd.time nd.state| ≤
      remaining m nd.depth * (softError K n cfg.temp M α β + cfg.temp * Real.log n) := by
  obtain ⟨v, h1, h2⟩ := c94_tree_value G F hv H hvis hu htb hr hq hd
  refine ⟨v, h1, ?_⟩
  have h3 := softR_game (cfg := cfg) hdet hlr hne hv htb hr hq hx F.temp.2 F.acts (remaining m nd.depth) d nd hd rfl
  have := abs_sub_le (v : ℝ) (softTreeR cfg env m lr st h (remaining m nd.depth) d) ((gameValue env m next (remaining m nd.depth) nd.time nd.state : ℚ) : ℝ)
  linarith

/-- C94 (b), actions. -/
theorem c94_action_value (G : GoodMath ex lg α β) (F : SoftFits env m cfg lr ρ M K n D α β dp h) (hdet : ∀ s a, a ∈ env.actions s → env.succ s a = [next s a])
    (hlr : ∀ s a, a ∈ env.actions s → lr s a = env.reward s a (next s a)) (hne : ∀ s, env.isSink s = false → env.actions s ≠ [])
    (hv : alg.Valid) (H : HasFpSoft alg px py ex lg cfg lr) (hvis : ∀ x, alg.visitD false x = x)
    (hu : m.useTable = false) (htb : Leftover tb) (hr : Reachable env m alg k s0 dp tm tb st h) (hq : Quiescent st) (hx : Exhausted env m st)
    {d c : Nat} {a : A} {nd : DNode S A ℚ X} (hd : st.dn[d]? = some nd) (hc : childC st d a = some c) :
    ∃ v, softCF py st c = some v ∧ |(v : ℝ) - moveValue env m next (remaining m (nd.depth + 1)) nd.time nd.state a| ≤
      remaining m nd.depth * softError K n cfg.temp M α β + remaining m (nd.depth + 1) * (cfg.temp * Real.log n) := by
  have hrem := inner_node hv htb hr hd hc
  obtain ⟨nc, v, h1, h2, h3⟩ := c94_chance_value G F hv H hvis hu htb hr hq hd hc
  refine ⟨v, h2, ?_⟩
  have h4 := chanceR_det hdet hlr hne hv htb hr hq hx
    (softR_game (cfg := cfg) hdet hlr hne hv htb hr hq hx F.temp.2 F.acts (remaining m (nd.depth + 1))) hd hc h1 hrem
  have := abs_sub_le (v : ℝ) (chanceSoftR env m lr st h (softTreeR cfg env m lr st h (remaining m (nd.depth + 1))) nc)
    (moveValue env m next (remaining m (nd.depth + 1)) nd.time nd.state a)
  linarith

/-- The action recommended by soft value is nearly optimal if the values of the actions are accurate. -/
theorem recommend_near (hne : ∀ s, env.isSink s = false → env.actions s ≠ []) (hv : alg.Valid) (htb : Leftover tb) (hr : Reachable env m alg k s0 dp tm tb st h)
    (hq : Quiescent st) (hx : Exhausted env m st) {d : Nat} {nd : DNode S A ℚ X} (hd : st.dn[d]? = some nd) (hleaf : isLeaf env m nd = false) (hth : cfg.threshold ≤ 1)
    {ε : ℝ} {mv : A → ℝ} (hact : ∀ a c, childC st d a = some c → ∃ v, softCF py st c = some v ∧ |(v : ℝ) - mv a| ≤ ε)
    (hlow : ∀ a ∈ env.actions nd.state, cfg.low + ε ≤ sgn (isOpponent m nd.time) * mv a)
    (raw : Nat) {iter : List (A × ℚ) → List (A × ℚ)} (hi : IterOk iter) :
    ∃ a ∈ env.actions nd.state, recommendSoftF cfg py (viewOf env m st nd) raw iter = some a ∧ ∀ b ∈ env.actions nd.state,
      sgn (isOpponent m nd.time) * mv b ≤ sgn (isOpponent m nd.time) * mv a + 2 * ε := by
  obtain ⟨I, C⟩ := reach_both hv htb hr
  obtain ⟨Bk, _⟩ := reach_bk hr
  have hsink : env.isSink nd.state = false := by
    simp [isLeaf] at hleaf
    exact hleaf.1
  set opp := isOpponent m nd.time with hopp
  have hfk : ∀ a, find? a (kidsY st nd) = (find? a nd.kids).bind fun c => (st.cn[c]?).map fun nc => (nc.visits, nc.y) := by
    intro a
    refine Verif.Ments.find?_kidsY a ?_
    intro p hp
    obtain ⟨_, nc, _, f2, _⟩ := childC_facts I.tree (childC_of_mem I.tree hd (show (p.1, p.2) ∈ nd.kids from hp))
    exact ⟨nc, f2⟩
  have hkv : (viewOf env m st nd).kids = kidsY st nd := rfl
  have hov : (viewOf env m st nd).opp = opp := rfl
  have key : ∀ a ∈ env.actions nd.state, softMet cfg (viewOf env m st nd) a = true ∧
      |(softQ cfg py (viewOf env m st nd) a : ℝ) - sgn opp * mv a| ≤ ε := by
    intro a ha
    obtain ⟨c, hc⟩ := hx d nd hd hleaf a ha
    obtain ⟨nd1, nc, f1, f2, _⟩ := childC_facts I.tree hc
    have hfind : find? a nd.kids = some c := by simpa [childC, hd] using hc
    obtain ⟨v, h1, h2⟩ := hact a c hc
    have hvis1 : 1 ≤ nc.visits := by
      have := (c39_children_backed hv htb hr hq hc).2
      have h3 := Bk.c c
      have h4 := List.length_pos_iff.2 this
      have h5 := C.v2 c nc f2
      omega
    have hval : (py nc.y).val = v := by simpa [softCF, f2] using h1
    unfold softMet softQ
    rw [hkv, hfk, hfind]
    simp only [Option.bind_some, f2, Option.map_some, hval, hov]
    refine ⟨by simp; omega, ?_⟩
    have hsg : ((oppSign opp : ℚ) : ℝ) = sgn opp := by unfold oppSign sgn; cases opp <;> simp
    push_cast
    rw [hsg, mul_comm (v : ℝ), ← mul_sub, abs_mul]
    have : |sgn opp| = 1 := by unfold sgn; cases opp <;> simp
    rw [this, one_mul]
    exact h2
  have hlowQ : ∀ a ∈ env.actions nd.state, cfg.low ≤ softQ cfg py (viewOf env m st nd) a := by
    intro a ha
    have h1 := hlow a ha
    have h2 := (abs_le.1 (key a ha).2).1
    have h3 : (cfg.low : ℝ) ≤ softQ cfg py (viewOf env m st nd) a := by
      linarith
    exact_mod_cast h3
  have hfilter : (softQs cfg py (viewOf env m st nd)).filter (fun p => softMet cfg (viewOf env m st nd) p.1) = softQs cfg py (viewOf env m st nd) := by
    rw [List.filter_eq_self]
    intro p hp
    obtain ⟨a, ha, rfl⟩ := List.mem_map.1 hp
    exact (key a ha).1
  obtain ⟨a0, ha0⟩ := List.exists_mem_of_ne_nil _ (hne _ hsink)
  have hm0 : ∀ b ∈ env.actions nd.state, (b, softQ cfg py (viewOf env m st nd) b) ∈ softQs cfg py (viewOf env m st nd) :=
    fun b hb => List.mem_map.2 ⟨b, hb, rfl⟩
  unfold recommendSoftF
  simp only [hfilter]
  rw [if_pos (List.length_pos_of_mem (hm0 a0 ha0))]
  obtain ⟨a, h1, val, h2, h3⟩ := c22_returns_maximiser cfg.low (iter (softQs cfg py (viewOf env m st nd))) raw ⟨_, (hi _ _).2 (hm0 a0 ha0), hlowQ a0 ha0⟩
  rw [hi] at h2
  obtain ⟨a', ha', he⟩ := List.mem_map.1 h2
  simp only [Prod.mk.injEq] at he
  obtain ⟨rfl, rfl⟩ := he
  refine ⟨a', ha', h1, ?_⟩
  intro b hb
  have h4 := h3 _ ((hi _ _).2 (hm0 b hb))
  have h5 : (softQ cfg py (viewOf env m st nd) b : ℝ) ≤ softQ cfg py (viewOf env m st nd) a' := by exact_mod_cast h4
  have h6 := (abs_le.1 (key b hb).2).1
  have h7 := (abs_le.1 (key a' ha').2).2
  linarith

/-- C94 (c).  And the action recommended by soft value (threshold at most one visit) at any node that is not a leaf is nearly optimal: within twice the error of the
actions' values. -/
theorem c94_recommends (G : GoodMath ex lg α β) (F : SoftFits env m cfg lr ρ M K n D α β dp h) (hdet : ∀ s a, a ∈ env.actions s → env.succ s a = [next s a])
    (hlr : ∀ s a, a ∈ env.actions s → lr s a = env.reward s a (next s a)) (hne : ∀ s, env.isSink s = false → env.actions s ≠ [])
    (hv : alg.Valid) (H : HasFpSoft alg px py ex lg cfg lr) (hvis : ∀ x, alg.visitD false x = x)
    (hu : m.useTable = false) (htb : Leftover tb) (hr : Reachable env m alg k s0 dp tm tb st h) (hq : Quiescent st) (hx : Exhausted env m st)
    {d : Nat} {nd : DNode S A ℚ X} (hd : st.dn[d]? = some nd) (hleaf : isLeaf env m nd = false) (hth : cfg.threshold ≤ 1) {ε : ℝ}
    (hε : ε = remaining m nd.depth * softError K n cfg.temp M α β + remaining m (nd.depth + 1) * (cfg.temp * Real.log n))
    (hlow : ∀ a ∈ env.actions nd.state, cfg.low + ε ≤ sgn (isOpponent m nd.time) * moveValue env m next (remaining m (nd.depth + 1)) nd.time nd.state a)
    (raw : Nat) {iter : List (A × ℚ) → List (A × ℚ)} (hi : IterOk iter) :
    ∃ a ∈ env.actions nd.state, recommendSoftF cfg py (viewOf env m st nd) raw iter = some a ∧ ∀ b ∈ env.actions nd.state,
      sgn (isOpponent m nd.time) * (moveValue env m next (remaining m (nd.depth + 1)) nd.time nd.state b : ℝ) ≤
        sgn (isOpponent m nd.time) * moveValue env m next (remaining m (nd.depth + 1)) nd.time nd.state a + 2 * ε := by
  exact recommend_near (mv := fun a => (moveValue env m next (remaining m (nd.depth + 1)) nd.time nd.state a : ℝ)) hne hv htb hr hq hx hd hleaf hth
    (fun a c hc => by rw [hε]; exact c94_action_value G F hdet hlr hne hv H hvis hu htb hr hq hx hd hc) hlow raw hi

end

/-! ## A concrete search -/

/-- MENTS backups with doubles and an arbitrary choice of actions. -/
noncomputable def freeMentsF {S A : Type} [DecidableEq S] [DecidableEq A] (ex lg : ℚ → ℚ) (cfg : MentsCfg) (lr : S → A → ℚ) : Alg S A ℚ SoftF SoftF :=
  { ments ex lg cfg lr with canSelect := fun v _ a => decide (a ∈ v.actions) }

def toyCfg : MentsCfg := { temp := 1 / 8, defaultQ := 0, epsilon := 1 / 2, rootEpsilon := -1, maxExplore := 1, threshold := 0, low := -10 ^ 308 }

def toyIdle : Phase Nat Nat ℚ → Bool
  | .idle => true
  | _ => false

/-- Every action of every node that is not a leaf has been tried. -/
def toyTried (st : St Nat Nat ℚ Unit Unit) : Bool :=
  (List.range st.dn.length).all fun d => (st.dn[d]?).any fun nd => isLeaf Toy.env Toy.mgr nd ||
    (Toy.env.actions nd.state).all fun a => (childC st d a).isSome

theorem toy_exec : ((execFrom Toy.env Toy.mgr (free Nat Nat ℚ 0) (init Toy.env Toy.mgr (free Nat Nat ℚ 0) 2 0 0 0 []) [] Toy.sched).any fun p =>
    p.1.ws.all toyIdle && toyTried p.1 && p.1.dn.length == 7 && decide (trialsBegun p.2 ≤ 6)) = true := by
  decide +kernel

/-- Two workers play out the game. -/
theorem toy_run {X Y : Type} (alg : Alg Nat Nat ℚ X Y) (hsel : ∀ v ctx a, alg.canSelect v ctx a = decide (a ∈ v.actions)) (h0 : alg.initVisits = 0) :
    ∃ st h, Reachable Toy.env Toy.mgr alg 2 0 0 0 [] st h ∧ Quiescent st ∧ Exhausted Toy.env Toy.mgr st ∧ st.dn.length = 7 ∧ trialsBegun h ≤ 6 := by
  obtain ⟨st, h, h1, h2⟩ := run_erase (env := Toy.env) (m := Toy.mgr) (alg := alg) hsel 2 0 0 0 Toy.sched
    (fun st h => (st.ws.all toyIdle && toyTried st && st.dn.length == 7 && decide (trialsBegun h ≤ 6)) = true) (by
      obtain ⟨p, h1, h2⟩ := (Option.any_eq_true _ _).1 toy_exec
      exact ⟨p, by rw [h0]; exact h1, h2⟩)
  simp only [Bool.and_eq_true, List.all_eq_true, beq_iff_eq, decide_eq_true_eq] at h2
  obtain ⟨⟨⟨h2, h3⟩, h4⟩, h5⟩ := h2
  refine ⟨st, h, h1, ?_, ?_, by simpa [St.erase] using h4, h5⟩
  · intro w p hp
    have := h2 p (by simpa [St.erase] using List.mem_of_getElem? hp)
    cases p <;> simp [toyIdle] at this ⊢
  · intro d nd hd hl a ha
    have hlt : d < st.dn.length := (List.getElem?_eq_some_iff.1 hd).1
    unfold toyTried at h3
    have := List.all_eq_true.1 h3 d (by simpa [St.erase] using hlt)
    simp only [St.erase, List.getElem?_map, hd, Option.map_some, Option.any_some, Bool.or_eq_true, List.all_eq_true] at this
    rcases this with h5 | h5
    · rw [show isLeaf Toy.env Toy.mgr nd.erase = isLeaf Toy.env Toy.mgr nd from rfl, hl] at h5
      simp at h5
    · have h6 := h5 a ha
      obtain ⟨c, hc⟩ := Option.isSome_iff_exists.1 h6
      refine ⟨c, ?_⟩
      simpa [childC, St.erase, hd, DNode.erase] using hc

theorem toy_soft_run (ex lg : ℚ → ℚ) (cfg : MentsCfg) : ∃ st h, Reachable Toy.env Toy.mgr (freeMentsF ex lg cfg Toy.lr) 2 0 0 0 [] st h ∧
    Quiescent st ∧ Exhausted Toy.env Toy.mgr st ∧ st.dn.length = 7 ∧ trialsBegun h ≤ 6 :=
  toy_run _ (fun _ _ _ => rfl) rfl

theorem toy_soft_fits {h : List (Event Nat Nat ℚ)} (ht : trialsBegun h ≤ 6) : SoftFits Toy.env Toy.mgr toyCfg Toy.lr 1 4 1 2 2 (1 / 100) (1 / 100) 0 h where
  temp := by decide +kernel
  low := by decide +kernel
  default := by norm_num [toyCfg]
  heur s := (toy_heur s).2
  local_ s a ha := toy_reward s a _ ha
  succs s a _ := by simp [Toy.env]
  few := by norm_num
  acts s := by simp [Toy.env]
  small := by norm_num
  depth := by decide
  trials := by omega
  one := by norm_num
  above := by norm_num [toyCfg]
  below := by norm_num [toyCfg]
  range := by
    have h1 := Real.log_two_lt_d9
    have h2 : (unit : ℝ) ≤ 1 / 10 ^ 6 := by
      have : unit ≤ 1 / 10 ^ 6 := by rw [unit_eq]; norm_num
      have := (Rat.cast_le (K := ℝ)).2 this
      push_cast at this
      exact this
    have h3 : (tiny : ℝ) ≤ 1 / 10 ^ 6 := by
      have : tiny ≤ 1 / 10 ^ 6 := by decide +kernel
      have := (Rat.cast_le (K := ℝ)).2 this
      push_cast at this
      exact this
    unfold softError toyCfg
    push_cast
    linarith

/-- There are library functions as assumed, and the hypotheses of C94 hold in that run: the value of the root is that of the game up to 0.2. -/
example : ∃ ex lg st h v, GoodMath ex lg (1 / 100) (1 / 100) ∧ Reachable Toy.env Toy.mgr (freeMentsF ex lg toyCfg Toy.lr) 2 0 0 0 [] st h ∧ st.dn.length = 7 ∧
    softDF id st st.root = some v ∧ |(v : ℝ) - gameValue Toy.env Toy.mgr Toy.next 2 0 0| ≤ 1 / 5 := by
  obtain ⟨ex, e1, e2⟩ := exp_exists
  obtain ⟨lg, l1⟩ := log_exists
  have G : GoodMath ex lg (1 / 100) (1 / 100) := ⟨e1, e2, l1, by norm_num, by norm_num⟩
  obtain ⟨st, h, h1, h2, h3, h4, h5⟩ := toy_soft_run ex lg toyCfg
  have hv : (freeMentsF ex lg toyCfg Toy.lr).Valid := by
    intro v _ a h
    simpa [freeMentsF] using h
  obtain ⟨nd, r1, r2, r3, r4⟩ := root_node (reach_inv hv (by intro p hp; simp at hp) h1).tree
  obtain ⟨v, g1, g2⟩ := c94_game_value (next := Toy.next) (px := id) (py := id) G (toy_soft_fits h5)
    (fun _ _ _ => rfl) (fun _ _ _ => rfl) (fun _ _ => by simp [Toy.env]) hv
    ⟨fun _ _ _ _ => rfl, fun _ _ _ _ => rfl, fun _ _ => rfl, fun _ => rfl, fun _ _ _ => rfl, fun _ _ _ _ _ => rfl⟩
    (fun _ => rfl) rfl (by intro p hp; simp at hp) h1 h2 h3 r1
  rw [r2, r3, r4] at g2
  refine ⟨ex, lg, st, h, v, G, h1, h4, g1, le_trans g2 ?_⟩
  have q1 := Real.log_two_lt_d9
  have q2 : (unit : ℝ) ≤ 1 / 10 ^ 6 := by
    have : unit ≤ 1 / 10 ^ 6 := by rw [unit_eq]; norm_num
    have := (Rat.cast_le (K := ℝ)).2 this
    push_cast at this
    exact this
  have q3 : (tiny : ℝ) ≤ 1 / 10 ^ 6 := by
    have : tiny ≤ 1 / 10 ^ 6 := by decide +kernel
    have := (Rat.cast_le (K := ℝ)).2 this
    push_cast at this
    exact this
  have q4 : remaining Toy.mgr 0 = 2 := by decide
  rw [q4]
  unfold softError toyCfg
  push_cast
  linarith

end Verif.Fp
