import Verif.Proofs.Dents
import Verif.Props.MentsSelect
import Verif.Props.Dp

/-!
# Properties of DB-MENTS, DENTS and EST: C42, C56, C57, and C36-C40 for these algorithms
-/

set_option linter.unusedSectionVars false
set_option linter.unusedSimpArgs false

namespace Verif.Dents

open Verif.Search Verif.Sampling Verif.Backups Verif.Ments Verif.Decay Filter
open Verif.Uct (IterOk)

variable {S A X Y : Type} [DecidableEq S] [DecidableEq A] {cfg : DCfg S A}

/-! ## C42 -/

/-- C42.  The Q-value DENTS gives to an action that has a child with value estimate `V` (the DP value, or the average return) and
subtree entropy `H`; for the opponent with the sign changed. -/
theorem c42_dents_tried {v : View S A X DY} {a : A} {n : Nat} {y : DY} (hk : find? a v.kids = some (n, y)) {V H : ℝ}
    (hV : if cfg.useDp then y.dp.val = some V else y.emp.avg = V) (hH : y.ent.sub = some H) :
    dentsQ cfg v a = .ok ((if v.opp then -1 else 1) * (V + valueTempD cfg v.depth v.visits * H)) := by
  have : estimate cfg y.dp y.emp = some V := by
    unfold estimate
    split
    · next h => simpa [h] using hV
    · next h => simpa [h] using hV
  simp only [dentsQ, hk, this, hH]
  cases v.opp <;> simp [oppCoeff]

/-- C42.  The Q-value EST gives to such an action. -/
theorem c42_est_tried {v : View S A X DY} {a : A} {n : Nat} {y : DY} (hk : find? a v.kids = some (n, y)) {V : ℝ}
    (hV : if cfg.useDp then y.dp.val = some V else y.emp.avg = V) :
    estQ cfg v a = .ok ((if v.opp then -1 else 1) * V) := by
  have : estimate cfg y.dp y.emp = some V := by
    unfold estimate
    split
    · next h => simpa [h] using hV
    · next h => simpa [h] using hV
  simp only [estQ, hk, this]
  cases v.opp <;> simp [oppCoeff]

/-- C42.  Both agree with MENTS on actions without a child. -/
theorem c42_untried {v : View S A X DY} {a : A} (hk : find? a v.kids = none) :
    dentsQ cfg v a = mentsQ cfg.toCfg DY.soft v a ∧ estQ cfg v a = mentsQ cfg.toCfg DY.soft v a := by
  constructor
  · simp only [dentsQ, hk]
  · simp only [estQ, hk]

/-- C42.  If the value temperature is zero, DENTS and EST agree (the entropies being numbers) ... -/
theorem c42_agree_at_zero_temp {v : View S A X DY} (ht : valueTempD cfg v.depth v.visits = 0)
    (hH : ∀ k ∈ v.kids, ∃ r, k.2.2.ent.sub = some r) (a : A) : dentsQ cfg v a = estQ cfg v a := by
  unfold dentsQ estQ
  cases hk : find? a v.kids with
  | none => rfl
  | some p =>
    obtain ⟨n, y⟩ := p
    obtain ⟨r, hr⟩ := hH _ (find?_mem' hk)
    simp only at hr
    cases he : estimate cfg y.dp y.emp with
    | none => simp only [hr, he]
    | some x => simp only [hr, he, ht]; simp [mul_comm]

/-- C42.  ... and in general they differ by the value temperature times the entropy. -/
theorem c42_difference {v : View S A X DY} {a : A} {n : Nat} {y : DY} (hk : find? a v.kids = some (n, y)) {qd qe H : ℝ}
    (hd : dentsQ cfg v a = .ok qd) (he : estQ cfg v a = .ok qe) (hH : y.ent.sub = some H) :
    qd - qe = (if v.opp then -1 else 1) * (valueTempD cfg v.depth v.visits * H) := by
  unfold dentsQ at hd
  unfold estQ at he
  simp only [hk, hH] at hd he
  cases hx : estimate cfg y.dp y.emp with
  | none => simp [hx] at he
  | some x =>
    simp only [hx, Except.ok.injEq] at hd he
    rw [← hd, ← he]
    cases v.opp <;> simp [oppCoeff]

/-- C42.  The value temperature: without a decay function constant; with one it never falls below the configured minimum, never
rises with the number of visits, and tends to the minimum (which it reaches if that is positive).  The scale is that of the
configuration for the depth of the node. -/
theorem c42_value_temp_decays {f : ℝ → ℝ} (hf : ValidDecay f) (hd : cfg.valueDecay = some f) (hi : 0 ≤ cfg.valueInit)
    (hs : 0 < cfg.valueScale) (depth : Int) :
    (∀ n, cfg.valueMin ≤ valueTempD cfg depth n) ∧ (∀ n k, n ≤ k → valueTempD cfg depth k ≤ valueTempD cfg depth n) ∧
    valueTempD cfg depth 0 = max cfg.valueInit cfg.valueMin ∧
    (0 ≤ cfg.valueMin → Tendsto (fun n => valueTempD cfg depth n) atTop (nhds cfg.valueMin)) ∧
    (0 < cfg.valueMin → ∀ᶠ n in atTop, valueTempD cfg depth n = cfg.valueMin) := by
  have e : ∀ n, valueTempD cfg depth n = decayedTemp f cfg.valueInit cfg.valueMin n
      (if depth = 0 ∧ cfg.valueRootScale > 0 then cfg.valueRootScale else cfg.valueScale) := by
    intro n; simp only [valueTempD, hd]
  have hsc : 0 < (if depth = 0 ∧ cfg.valueRootScale > 0 then cfg.valueRootScale else cfg.valueScale) := by
    split
    · next h => exact h.2
    · exact hs
  generalize (if depth = 0 ∧ cfg.valueRootScale > 0 then cfg.valueRootScale else cfg.valueScale) = sc at e hsc
  simp only [e]
  exact ⟨fun n => c35_at_least_min _ _ _ _ _, fun n k h => c35_antitone hf hi hsc.le h, (c35_at_most_init hf hi hsc.le 0).2,
    fun h => (c35_limit hf h hsc).1, fun h => (c35_limit hf h.le hsc).2 h⟩

theorem c42_value_temp_constant (hd : cfg.valueDecay = none) (depth : Int) (n : Nat) : valueTempD cfg depth n = cfg.valueInit := by
  simp only [valueTempD, hd]

/-- A DENTS configuration with the default settings and no prior. -/
noncomputable def exD : DCfg Unit Bool :=
  { temp := 1, priorWeight := 0, epsilon := 1 / 2, rootEpsilon := -1, maxExplore := 1, decay := none, minTemp := 1 / 10 ^ 6,
    scale := 1, rootScale := -1, defaultQ := 0, shift := false, offset := 0, threshold := 0, mostVisited := false, prior := none,
    low := -10 ^ 308, valueDecay := some invSqrt, valueInit := 1, valueMin := 1 / 10 ^ 6, valueScale := 1, valueRootScale := -1,
    useDp := true }

/-- A node with three visits and one child, at the opponent's turn. -/
noncomputable def exV : View Unit Bool DX DY :=
  { state := (), depth := 1, time := 1, opp := true, visits := 3, actions := [false, true],
    x := { soft := { n := 0, val := some 0 }, dp := { n := 1, val := some 0 }, emp := { n := 1, avg := 0 },
           ent := { n := 1, loc := some 0, sub := some 0 } },
    kids := [(true, 2, { visits := 2, soft := { n := 2, val := some 0 }, dp := { n := 2, val := some 7 }, emp := { n := 0, avg := 0 },
                          ent := { n := 2, sub := some 4 } })] }

example : dentsQ exD exV true = .ok (-9) ∧ estQ exD exV true = .ok (-7) ∧ dentsQ exD exV false = .ok 0 := by
  have h1 : dentsQ exD exV true = .ok (-1 * (7 + valueTempD exD 1 3 * 4)) := c42_dents_tried (n := 2) rfl (V := 7) (H := 4) (by simp [exD]) rfl
  have h2 : estQ exD exV true = .ok (-1 * 7) := c42_est_tried (n := 2) rfl (V := 7) (by simp [exD])
  have h3 : valueTempD exD 1 3 = 1 / 2 := by
    have : √(4 : ℝ) = 2 := by rw [show (4 : ℝ) = 2 ^ 2 by norm_num]; exact Real.sqrt_sq (by norm_num)
    norm_num [valueTempD, exD, decayedTemp, invSqrt]
    rw [this]
    norm_num
  refine ⟨?_, ?_, ?_⟩
  · rw [h1, h3]; norm_num
  · rw [h2]; norm_num
  · rw [(c42_untried rfl).1]
    simp [mentsQ, exV, find?, untriedQ, exD]

/-! ## DP values of DB-MENTS, DENTS and EST -/

section
variable {env : Env S A ℝ} {m : Manager S ℝ} {eps : ℝ} {lr : S → A → ℝ} {k : Nat} {s0 : S} {dp tm : Int}
  {tb : List ((Int × S) × Option Nat)} {h : List (Event S A ℝ)}

/-- C38-C40 are about all algorithms that keep DP values: DB-MENTS, and DENTS and EST with `use_dp_value`. -/
theorem c38_instances (hu : cfg.useDp = true) : HasDp (dbments eps cfg.toCfg lr) DB.dp DB.dp lr ∧
    HasDp (dents eps cfg env m lr) DX.dp DY.dp lr ∧ HasDp (est eps cfg env m lr) DX.dp DY.dp lr :=
  ⟨dbments_hasDp eps _ lr, dents_hasDp eps env m lr hu, est_hasDp eps env m lr hu⟩

/-- C39 for DENTS (for DB-MENTS and EST it follows in the same way): whenever no trial is running, the DP values of a DENTS search
are Bellman consistent. -/
theorem c39_dents (hu : cfg.useDp = true) {st : St S A ℝ DX DY} (ht : m.useTable = false) (htb : Leftover tb)
    (hr : Reachable env m (dents eps cfg env m lr) k s0 dp tm tb st h) (hq : Quiescent st) :
    (∀ (d : Nat) nd, st.dn[d]? = some nd → returnsD d h ≠ [] →
      ∃ v, valD DX.dp st d = some v ∧ Best (isOpponent m nd.time) (backedKids DY.dp st h d) v) ∧
    (∀ (c : Nat) nc, st.cn[c]? = some nc → returnsC c h ≠ [] →
      ∃ l : List (Nat × ℝ), nc.kids.map (fun p => (cntD DX.dp st p.2, valD DX.dp st p.2)) = l.map (fun q => (q.1, some q.2)) ∧
        valC DY.dp st c = some (lr nc.state nc.action + wmean l)) :=
  c39_bellman_consistent (dents_valid eps cfg env m lr) (dents_hasDp eps env m lr hu) (fun _ => rfl) ht htb hr hq

/-! ## C56 -/

/-- C56.  With `use_dp_value` off, DENTS and EST keep average returns: `num_backups` counts the backed-up trials (decision nodes:
plus one), and the value is the mean of the returns handed to the node's backups, at decision nodes together with the heuristic
value as one more return. -/
theorem c56_average_returns (hu : cfg.useDp = false) {alg : Alg S A ℝ DX DY}
    (ha : alg = dents eps cfg env m lr ∨ alg = est eps cfg env m lr) {st : St S A ℝ DX DY}
    (hr : Reachable env m alg k s0 dp tm tb st h) :
    (∀ (d : Nat) nd, st.dn[d]? = some nd → nd.x.emp.n = 1 + (returnsD d h).length ∧
      nd.x.emp.avg = (nd.heur + (returnsD d h).sum) / (1 + (returnsD d h).length)) ∧
    (∀ (c : Nat) nc, st.cn[c]? = some nc → nc.y.emp.n = (returnsC c h).length ∧
      nc.y.emp.avg = (returnsC c h).sum / (returnsC c h).length) := by
  have H : HasEmp alg DX.emp DY.emp 1 := by
    rcases ha with rfl | rfl
    · exact dents_hasEmp eps env m lr hu
    · exact est_hasEmp eps env m lr hu
  have E := emp_reach H hr
  constructor
  · intro d nd hd
    obtain ⟨h1, h2, _⟩ := E.d d nd hd
    refine ⟨h1, ?_⟩
    have h3 : ((nd.x.emp.n : ℕ) : ℝ) = 1 + (returnsD d h).length := by rw [h1]; push_cast; ring
    have h4 : (0 : ℝ) < 1 + (returnsD d h).length := by positivity
    rw [h3] at h2
    rw [eq_div_iff h4.ne', mul_comm, h2]
    push_cast
    ring
  · intro c nc hc
    obtain ⟨h1, h2, h3⟩ := E.c c nc hc
    refine ⟨h1, ?_⟩
    by_cases h0 : nc.y.emp.n = 0
    · rw [h3 h0]
      have : (returnsC c h).length = 0 := by rw [← h1]; exact h0
      simp [this]
    · have h4 : ((returnsC c h).length : ℝ) ≠ 0 := by
        rw [← h1]; exact_mod_cast h0
      rw [eq_div_iff h4, mul_comm, ← h1, h2]

/-- C40 for these averages. -/
theorem c40_averages_bounded (hu : cfg.useDp = false) {alg : Alg S A ℝ DX DY}
    (ha : alg = dents eps cfg env m lr ∨ alg = est eps cfg env m lr) {lo hi : ℝ} (hb : Bounded env m lo hi) (htb : Leftover tb)
    {st : St S A ℝ DX DY} (hr : Reachable env m alg k s0 dp tm tb st h) :
    (∀ (d : Nat) nd, st.dn[d]? = some nd → Within lo hi (remaining m nd.depth + 1) nd.x.emp.avg) ∧
    (∀ (c : Nat) nc, st.cn[c]? = some nc → Within lo hi (remaining m nc.depth + 1) nc.y.emp.avg) := by
  have H : HasEmp alg DX.emp DY.emp 1 := by
    rcases ha with rfl | rfl
    · exact dents_hasEmp eps env m lr hu
    · exact est_hasEmp eps env m lr hu
  have V : alg.Valid := by
    rcases ha with rfl | rfl
    · exact dents_valid eps cfg env m lr
    · exact est_valid eps cfg env m lr
  have I := reach_inv V htb hr
  have R := ret_reach hb V htb hr
  have G := emp_reach H hr
  constructor
  · intro d nd hd
    obtain ⟨h1, h2, h3⟩ := G.d d nd hd
    have hh : nd.heur = heurOf env m nd.state := I.tree.heap.dHeur d nd.skel (by simp [hd])
    refine within_avg (h0 := nd.heur) h1 h2 ?_ (R.d d nd hd) h3
    rw [hh]
    exact (Within.one (hb.heur nd.state)).mono hb.lo0 hb.hi0 (by omega)
  · intro c nc hc
    obtain ⟨h1, h2, h3⟩ := G.c c nc hc
    refine within_avg (p := 0) (h0 := 0) (l := returnsC c h) (by omega) (by simpa using h2) ?_ (R.c c nc hc) h3
    exact (Within.one ⟨hb.lo0, hb.hi0⟩).mono hb.lo0 hb.hi0 (by omega)

/-! ## Selections: C36 for DB-MENTS and EST, C57 for DENTS -/

/-- DB-MENTS never fails to select (like MENTS).  Here and below `nd` is a node of the tree with the visit being made already counted;
the statement holds for every `nd` whose children are nodes of the tree. -/
theorem c36_dbments_never_fails {cfg : Cfg S A} {st : St S A ℝ DB DB} (G : GoodCfg cfg env) (htb : Leftover tb) (heps : 0 ≤ eps)
    (hr : Reachable env m (dbments eps cfg lr) k s0 dp tm tb st h) (nd : DNode S A ℝ DB)
    (hv : 0 < nd.visits) (hne : env.actions nd.state ≠ []) {u : ℝ} (h0 : 0 ≤ u)
    (h1 : u < 1 - (env.actions nd.state).length * (1 / 10 ^ 16)) {iter : List (A × ℝ) → List (A × ℝ)} (hi : ∀ l, List.Perm (iter l) l) :
    ∃ a ∈ env.actions nd.state,
      selectAction eps cfg (mentsQ cfg DB.soft (viewOf env m st nd)) (viewOf env m st nd) u iter = .ok (.key a) := by
  obtain ⟨_, D⟩ := local_reach (dbments_local m eps G.total lr) (dbments_valid eps cfg lr) htb hr
  obtain ⟨Q, hQ⟩ := mentsQ_total (v := viewOf env m st nd) G.total rfl DB.soft (by
    intro k hk
    obtain ⟨c, nc, _, h2, h3⟩ := mem_kidsY.1 hk
    rw [h3]
    exact D.c c nc h2)
  rcases c36_selects_valid_action hQ hv hne (goodCfg_wellFormed G rfl) heps hi h0 with h2 | ⟨_, h2⟩
  · exact h2
  · exact absurd h1 (not_lt.2 h2)

/-- EST never fails to select, for every epsilon. -/
theorem c36_est_never_fails {st : St S A ℝ DX DY} (G : GoodCfg cfg.toCfg env) (htb : Leftover tb) (heps : 0 ≤ eps)
    (hr : Reachable env m (est eps cfg env m lr) k s0 dp tm tb st h) (nd : DNode S A ℝ DX)
    (hv : 0 < nd.visits) (hne : env.actions nd.state ≠ []) {u : ℝ} (h0 : 0 ≤ u)
    (h1 : u < 1 - (env.actions nd.state).length * (1 / 10 ^ 16)) {iter : List (A × ℝ) → List (A × ℝ)} (hi : ∀ l, List.Perm (iter l) l) :
    ∃ a ∈ env.actions nd.state,
      selectAction eps cfg.toCfg (estQ cfg (viewOf env m st nd)) (viewOf env m st nd) u iter = .ok (.key a) := by
  obtain ⟨Q, hQ⟩ := estQ_total (v := viewOf env m st nd) G.total rfl (by
    intro k hk
    obtain ⟨c, nc, _, h2, h3⟩ := mem_kidsY.1 hk
    rw [h3]
    exact est_finite htb hr c nc h2)
  rcases c36_selects_valid_action hQ hv hne (goodCfg_wellFormed G rfl) heps hi h0 with h2 | ⟨_, h2⟩
  · exact h2
  · exact absurd h1 (not_lt.2 h2)

/-- C57, for a positive epsilon: in every reachable state of a DENTS search all values and entropies are numbers ... -/
theorem c57_finite_partial {st : St S A ℝ DX DY} (G : GoodCfg cfg.toCfg env) (he : 0 < cfg.epsilon) (htb : Leftover tb)
    (hr : Reachable env m (dents eps cfg env m lr) k s0 dp tm tb st h) :
    (∀ (d : Nat) nd, st.dn[d]? = some nd → (∃ r, nd.x.ent.loc = some r) ∧ ∃ r, nd.x.ent.sub = some r) ∧
    (∀ (c : Nat) nc, st.cn[c]? = some nc → ∃ r, nc.y.ent.sub = some r) := by
  obtain ⟨h1, h2⟩ := dents_finite G.total G.some he htb hr
  exact ⟨fun d nd hd => (h1 d nd hd).2, fun c nc hc => (h2 c nc hc).2⟩

/-- C57, for a positive epsilon: ... and every draw below `1 - |A|·1e-16` selects a valid action.  Missing: epsilon 0. -/
theorem c57_never_fails_partial {st : St S A ℝ DX DY} (G : GoodCfg cfg.toCfg env) (he : 0 < cfg.epsilon) (htb : Leftover tb) (heps : 0 ≤ eps)
    (hr : Reachable env m (dents eps cfg env m lr) k s0 dp tm tb st h) (nd : DNode S A ℝ DX)
    (hv : 0 < nd.visits) (hne : env.actions nd.state ≠ []) {u : ℝ} (h0 : 0 ≤ u)
    (h1 : u < 1 - (env.actions nd.state).length * (1 / 10 ^ 16)) {iter : List (A × ℝ) → List (A × ℝ)} (hi : ∀ l, List.Perm (iter l) l) :
    ∃ a ∈ env.actions nd.state,
      selectAction eps cfg.toCfg (dentsQ cfg (viewOf env m st nd)) (viewOf env m st nd) u iter = .ok (.key a) := by
  obtain ⟨_, D⟩ := dents_finite G.total G.some he htb hr
  obtain ⟨Q, hQ⟩ := dentsQ_total (v := viewOf env m st nd) G.total rfl (by
    intro k hk
    obtain ⟨c, nc, _, h2, h3⟩ := mem_kidsY.1 hk
    rw [h3]
    exact D c nc h2)
  rcases c36_selects_valid_action hQ hv hne (goodCfg_wellFormed G rfl) heps hi h0 with h2 | ⟨_, h2⟩
  · exact h2
  · exact absurd h1 (not_lt.2 h2)

end

/-! ### Epsilon 0 -/

/-- One state, one action. -/
def zEnv : Env Unit Unit ℝ := { isSink := fun _ => false, actions := fun _ => [()], succ := fun _ _ => [()], reward := fun _ _ _ => 1 }

def zMgr : Manager Unit ℝ :=
  { maxDepth := 1, mctsMode := true, twoPlayer := false, useTable := false, numMutexes := 0, heuristic := none }

/-- The default configuration, but with another epsilon. -/
noncomputable def zCfgE (e : ℝ) : DCfg Unit Unit :=
  { temp := 1, priorWeight := 0, epsilon := e, rootEpsilon := -1, maxExplore := 1, decay := none, minTemp := 1 / 10 ^ 6,
    scale := 1, rootScale := -1, defaultQ := 0, shift := false, offset := 0, threshold := 0, mostVisited := false, prior := none,
    low := -10 ^ 308, valueDecay := some invSqrt, valueInit := 1, valueMin := 1 / 10 ^ 6, valueScale := 1, valueRootScale := -1,
    useDp := true }

/-- Without uniform exploration. -/
noncomputable abbrev zCfg : DCfg Unit Unit := zCfgE 0

theorem zGood {e : ℝ} (he : 0 ≤ e) : GoodCfg (zCfgE e).toCfg zEnv := by
  refine ⟨by simp [zCfgE], by simpa [zCfgE] using he, by simp [zCfgE], by simp [zCfgE], ?_, by simp [zCfgE], ?_, ?_, ?_⟩
  · simp only [zCfgE]; exact Real.log_nonneg (by norm_num)
  · intro f hf; simp [zCfgE] at hf
  · intro f hf; simp [zCfgE] at hf
  · intro f hf; simp [zCfgE] at hf

/-- A new node's entropy is not a number. -/
theorem z_init (s : Unit) (dep tim : Int) (heur : ℝ) : (dentsInitD zCfg zEnv zMgr s dep tim heur).ent.sub = none := by
  have h1 : ∀ v : View Unit Unit DX DY, v.visits = 0 → v.actions = [()] → v.kids = [] →
      actionDistr zCfg.toCfg (dentsQ zCfg v) v = .error .nan := by
    intro v h1 h2 h3
    have hq : dentsQ zCfg v () = .ok (zCfg.defaultQ * oppCoeff v.opp) := by
      simp [dentsQ, h3, find?, mentsQ, untriedQ, zCfgE]
    have hl : lambda zCfg.toCfg v = .error .nan := by
      norm_num [lambda, h1, zCfgE, isRoot]
    simp [actionDistr, fullDistr, h2, qList, hq, hl]
  simp only [dentsInitD]
  rw [h1 _ rfl rfl rfl]
  rfl

theorem z_first {e : ℝ} (he : 0 ≤ e) (v : View Unit Unit DX DY) (h1 : v.visits = 1) (h2 : v.actions = [()]) (h3 : v.kids = []) (ctx : Ctx Unit ℝ) :
    (dents 0 (zCfgE e) zEnv zMgr fun _ _ => 1).canSelect v ctx () = true := by
  have hq : QIs (dentsQ (zCfgE e) v) v (fun _ => (zCfgE e).defaultQ * oppCoeff v.opp) := by
    intro a _
    simp [dentsQ, h3, find?, mentsQ, untriedQ, zCfgE]
  show selectable _ _ _ _ _ = true
  unfold selectable
  rw [@decide_eq_true_eq _ (Classical.propDecidable _)]
  have hne : v.actions ≠ [] := by simp [h2]
  refine ⟨0, id, le_rfl, one_pos, fun l => List.Perm.refl l, ?_⟩
  rcases c36_selects_valid_action hq (by omega) hne (goodCfg_wellFormed (zGood he) (by rw [h2]; rfl)) (le_refl (0 : ℝ)) (iter := id)
    (fun l => List.Perm.refl l) (le_refl (0 : ℝ)) with ⟨a, _, h⟩ | ⟨_, h⟩
  · exact h
  · rw [h2] at h
    norm_num at h

/-- One trial of one worker in that environment, and the start of the next one. -/
theorem z_run (alg : Alg Unit Unit ℝ X Y) (hi : alg.initVisits = 0)
    (hsel : ∀ v, v.visits = 1 → v.actions = [()] → v.kids = [] → ∀ ctx, alg.canSelect v ctx () = true) :
    ∃ (v : View Unit Unit X Y) (ctx ctx' : Ctx Unit ℝ) (args args' : BArgs ℝ) (h : List (Event Unit Unit ℝ)), Reachable zEnv zMgr alg 1 () 0 0 []
      { root := 0,
        dn := [{ state := (), depth := 0, time := 0, visits := 1, heur := 0, kids := [((), 0)], x := alg.backupD v ctx args },
               { state := (), depth := 1, time := 1, visits := 1, heur := 0, kids := [], x := alg.visitD true (alg.initD () 1 1 0) }],
        cn := [{ state := (), action := (), depth := 0, time := 0, visits := 1, kids := [((), 1)],
                 y := alg.backupC () () (alg.visitC (alg.initC () () 0 0)) [((), alg.visitD true (alg.initD () 1 1 0))] args' }],
        table := [], ws := [.sel 0 [] [] false], ctxs := [ctx'], crashed := none } h := by
  obtain ⟨iv, f1, f2, f3, f4, f5, f6, f7, f8⟩ := alg
  dsimp only at hi hsel
  subst hi
  refine ⟨?_, ?_, ?_, ?_, ?_, ?_, [(0, .go), (0, .act ()), (0, .obs ()), (0, .go), (0, .go), (0, .go), (0, .go), (0, .go)], ?_⟩
  rotate_left 6
  · simp [execFrom, step, init, newD, St.setW, St.setCtx, shouldContinue, isLeaf, zEnv, zMgr, blockD, viewOf, kidsY]
    rw [hsel _ rfl rfl rfl _]
    rfl

/-- C57 fails for epsilon 0: after one trial the Q-value of the root's only action is not a number, and no draw selects an
action (the code throws). -/
theorem c57_epsilon_zero_false : ∃ st h nd, Reachable zEnv zMgr (dents 0 zCfg zEnv zMgr fun _ _ => 1) 1 () 0 0 [] st h ∧
    st.crashed = none ∧ st.ws[0]? = some (.sel 0 [] [] false) ∧ st.dn[0]? = some nd ∧ shouldContinue zEnv zMgr nd false = true ∧
    (∀ u iter d, selectAction 0 zCfg.toCfg (dentsQ zCfg (viewOf zEnv zMgr st { nd with visits := nd.visits + 1 }))
      (viewOf zEnv zMgr st { nd with visits := nd.visits + 1 }) u iter ≠ .ok d) ∧
    (∀ a, step zEnv zMgr (dents 0 zCfg zEnv zMgr fun _ _ => 1) st 0 (.act a) = none) := by
  obtain ⟨v, ctx, ctx', args, args', h, hr⟩ := z_run (dents 0 zCfg zEnv zMgr fun _ _ => 1) rfl (z_first le_rfl)
  have hy : ((dents 0 zCfg zEnv zMgr fun _ _ => 1).backupC () () ((dents 0 zCfg zEnv zMgr fun _ _ => 1).visitC
      ((dents 0 zCfg zEnv zMgr fun _ _ => 1).initC () () 0 0))
      [((), (dents 0 zCfg zEnv zMgr fun _ _ => 1).visitD true ((dents 0 zCfg zEnv zMgr fun _ _ => 1).initD () 1 1 0))] args').ent.sub =
      none := by
    have h0 := z_init () 1 1 0
    simp only [dents, dentsBackupC, entC, List.map_cons, List.map_nil, dentsVisitD, finiteEntD, h0]
    cases (dentsInitD zCfg zEnv zMgr () 1 1 0).ent.loc <;> rfl
  have stuck : ∀ (w : View Unit Unit DX DY) (n : Nat) (y : DY), w.actions = [()] → w.kids = [((), n, y)] → y.ent.sub = none →
      ∀ u iter d, selectAction 0 zCfg.toCfg (dentsQ zCfg w) w u iter ≠ .ok d := by
    intro w n y h1 h2 h3 u iter d
    have hq : dentsQ zCfg w () = .error .nan := by
      simp only [dentsQ, h2, find?, if_true, h3]
      cases estimate zCfg y.dp y.emp <;> rfl
    have : actionDistr zCfg.toCfg (dentsQ zCfg w) w = .error .nan := by
      simp only [actionDistr, fullDistr, h1, qList, hq]
    simp only [selectAction, this, ne_eq, reduceCtorEq, not_false_eq_true]
  refine ⟨_, h, _, hr, rfl, rfl, rfl, rfl, stuck _ 1 _ rfl rfl hy, ?_⟩
  rintro ⟨⟩
  have hn : ∀ (w : View Unit Unit DX DY) (n : Nat) (y : DY), w.actions = [()] → w.kids = [((), n, y)] → y.ent.sub = none →
      ∀ ctx, (dents 0 zCfg zEnv zMgr fun _ _ => 1).canSelect w ctx () = false := by
    intro w n y h1 h2 h3 _
    show selectable _ _ _ _ _ = false
    unfold selectable
    rw [@decide_eq_false_iff_not _ (Classical.propDecidable _)]
    rintro ⟨u, iter, _, _, _, hx⟩
    exact stuck w n y h1 h2 h3 u iter _ hx
  simp only [step, Option.isSome_none, Bool.false_eq_true, if_false, List.getElem?_cons_zero]
  rw [if_pos (by rfl)]
  unfold blockD
  dsimp only
  rw [if_neg]
  rw [hn _ 1 _ rfl rfl hy _]
  simp

/-- With the default epsilon the same run can continue. -/
example : ∃ st h nd a, Reachable zEnv zMgr (dents 0 (zCfgE (1 / 2)) zEnv zMgr fun _ _ => 1) 1 () 0 0 [] st h ∧
    st.ws[0]? = some (.sel 0 [] [] false) ∧ st.dn[0]? = some nd ∧
    selectAction 0 (zCfgE (1 / 2)).toCfg (dentsQ (zCfgE (1 / 2)) (viewOf zEnv zMgr st nd)) (viewOf zEnv zMgr st nd) (1 / 3) id = .ok (.key a) := by
  obtain ⟨v, ctx, ctx', args, args', h, hr⟩ := z_run (dents 0 (zCfgE (1 / 2)) zEnv zMgr fun _ _ => 1) rfl (z_first (by norm_num))
  have key : ∀ st, Reachable zEnv zMgr (dents 0 (zCfgE (1 / 2)) zEnv zMgr fun _ _ => 1) 1 () 0 0 [] st h → ∀ nd, st.dn[0]? = some nd →
      0 < nd.visits → ∃ a, selectAction 0 (zCfgE (1 / 2)).toCfg (dentsQ (zCfgE (1 / 2)) (viewOf zEnv zMgr st nd)) (viewOf zEnv zMgr st nd)
        (1 / 3) id = .ok (.key a) := by
    intro st hr nd _ hv
    obtain ⟨a, _, ha⟩ := c57_never_fails_partial (zGood (by norm_num)) (by norm_num [zCfgE]) (by intro p hp; simp at hp) le_rfl hr nd
      hv (by simp [zEnv]) (u := 1 / 3) (by norm_num) (by norm_num [zEnv]) (iter := id) (fun l => List.Perm.refl l)
    exact ⟨a, ha⟩
  obtain ⟨a, ha⟩ := key _ hr _ rfl (by norm_num)
  exact ⟨_, h, _, a, hr, rfl, rfl, ha⟩

/-! ## Recommendations -/

/-- C37 for DENTS and EST: at any node with at least one action the recommendation is a valid action of one of the children, if there
are any; with `use_dp_value` one of largest DP value for the player to move among those that meet the visit threshold (measured in
DP backups), otherwise of largest average return. -/
theorem c37_dents_recommends {v : View S A X DY} (hne : v.actions ≠ []) (hmv : cfg.mostVisited = false)
    (hk : ∀ k ∈ v.kids, k.1 ∈ v.actions) {val : DY → ℝ} {cnt : DY → Nat}
    (hval : ∀ k ∈ v.kids, if cfg.useDp then k.2.2.dp.val = some (val k.2.2) ∧ k.2.2.dp.n = cnt k.2.2
      else k.2.2.emp.avg = val k.2.2 ∧ k.2.2.emp.n = cnt k.2.2)
    (hlow : ∀ k ∈ v.kids, cfg.low ≤ (if v.opp then -1 else 1) * val k.2.2) (lowI : Int) (raw : Nat)
    {iter : List (A × ℝ) → List (A × ℝ)} (hi : IterOk iter) (iterI : List (A × Int) → List (A × Int)) :
    ∃ a ∈ v.actions, recommendDents cfg lowI v raw iter iterI = some a ∧
      (v.kids ≠ [] → ∃ k ∈ v.kids, k.1 = a ∧
        ((∃ k' ∈ v.kids, cfg.threshold ≤ (cnt k'.2.2 : Int)) → cfg.threshold ≤ (cnt k.2.2 : Int) ∧
          ∀ k' ∈ v.kids, cfg.threshold ≤ (cnt k'.2.2 : Int) →
            (if v.opp then -1 else 1) * val k'.2.2 ≤ (if v.opp then -1 else 1) * val k.2.2) ∧
        ((¬ ∃ k' ∈ v.kids, cfg.threshold ≤ (cnt k'.2.2 : Int)) →
          ∀ k' ∈ v.kids, (if v.opp then -1 else 1) * val k'.2.2 ≤ (if v.opp then -1 else 1) * val k.2.2)) := by
  have hrec : recommendDents cfg lowI v raw iter iterI = recommendBestOrRandom cfg.low cfg.threshold v.opp v.actions
      (v.kids.map fun k => (k.1, cnt k.2.2, val k.2.2)) raw iter := by
    unfold recommendDents recommendDB
    rw [hmv]
    cases hu : cfg.useDp with
    | true =>
      simp only [Bool.false_eq_true, if_false, if_true]
      congr 1
      refine List.map_congr_left fun k hk' => ?_
      have := hval k hk'
      rw [hu] at this
      simp only [if_true] at this
      simp [this.1, this.2]
    | false =>
      simp only [Bool.false_eq_true, if_false]
      congr 1
      refine List.map_congr_left fun k hk' => ?_
      have := hval k hk'
      rw [hu] at this
      simp only [Bool.false_eq_true, if_false] at this
      simp [this.1, this.2]
  rw [hrec]
  by_cases hkids : v.kids = []
  · rw [hkids]
    obtain ⟨a, ha, h1⟩ := c37_no_child (𝕜 := ℝ) (low := cfg.low) (threshold := cfg.threshold) (opp := v.opp) hne raw iter
    exact ⟨a, ha, h1, fun h => absurd rfl h⟩
  · obtain ⟨a, n, x, hm, h1, h2, h3⟩ := c37_best_value (low := cfg.low) (threshold := cfg.threshold) (opp := v.opp)
      (kids := v.kids.map fun k => (k.1, cnt k.2.2, val k.2.2)) (by simpa using hkids) (by
        intro p hp
        obtain ⟨k, hk', rfl⟩ := List.mem_map.1 hp
        exact hlow k hk') raw hi
    obtain ⟨k, hk', he⟩ := List.mem_map.1 hm
    simp only [Prod.mk.injEq] at he
    obtain ⟨rfl, rfl, rfl⟩ := he
    refine ⟨k.1, hk k hk', ?_, fun _ => ⟨k, hk', rfl, ?_, ?_⟩⟩
    · unfold recommendBestOrRandom
      rw [if_neg (by simpa using hkids), h1]
    · rintro ⟨k', g1, g2⟩
      obtain ⟨f1, f2⟩ := h2 ⟨_, List.mem_map_of_mem g1, g2⟩
      exact ⟨f1, fun k'' g g' => f2 _ (List.mem_map_of_mem g) g'⟩
    · intro hno k' g
      refine h3 ?_ _ (List.mem_map_of_mem g)
      rintro ⟨p, hp, hp'⟩
      obtain ⟨k'', g'', rfl⟩ := List.mem_map.1 hp
      exact hno ⟨k'', g'', hp'⟩

/-- C37.  The hypotheses of `c37_dents_recommends` hold at every node of every DENTS or EST search with DP values: the children have
values, and belong to valid actions.  (Average returns are always numbers.) -/
theorem c37_dents_in_search {env : Env S A ℝ} {m : Manager S ℝ} {eps : ℝ} {lr : S → A → ℝ} {k : Nat} {s0 : S} {dp tm : Int}
    {tb : List ((Int × S) × Option Nat)} {h : List (Event S A ℝ)} {st : St S A ℝ DX DY} (htb : Leftover tb) {alg : Alg S A ℝ DX DY}
    (ha : alg = dents eps cfg env m lr ∨ alg = est eps cfg env m lr) (hu : cfg.useDp = true)
    (hr : Reachable env m alg k s0 dp tm tb st h) {d : Nat} {nd : DNode S A ℝ DX} (hd : st.dn[d]? = some nd) :
    ∀ k ∈ (viewOf env m st nd).kids, k.1 ∈ (viewOf env m st nd).actions ∧ ∃ x, k.2.2.dp.val = some x := by
  have hv : alg.Valid := by
    rcases ha with rfl | rfl
    · exact dents_valid eps cfg env m lr
    · exact est_valid eps cfg env m lr
  have H : HasDp alg DX.dp DY.dp lr := by
    rcases ha with rfl | rfl
    · exact dents_hasDp eps env m lr hu
    · exact est_hasDp eps env m lr hu
  obtain ⟨I, _, D⟩ := dp_reach hv H htb hr
  intro k hk
  obtain ⟨c, nc, g1, g2, g3⟩ := mem_kidsY.1 hk
  obtain ⟨nd2, nc2, f1, f2, _, _, _, _, _, f8⟩ := childC_facts I.tree (childC_of_mem I.tree hd g1)
  rw [hd] at f1
  obtain rfl := Option.some.inj f1
  refine ⟨f8, ?_⟩
  rw [g3]
  exact (D.c c nc g2).2

end Verif.Dents
