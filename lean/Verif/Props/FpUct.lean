import Verif.Proofs.FpUct
import Verif.Props.FpSearch
import Verif.Props.Ints
import Verif.Props.Uct

/-!
# C93: UCT and PUCT choose well in floating point

`ucbScore` (the UCB formula in real arithmetic), `ucbError`, `AccurateTerm`, `AccurateSqrt`, `AccuratePow` and `BiasIs` are defined in `Verif.Spec.FpUct`, `AccurateLog` in
`Verif.Spec.FpExp`, `avgError` in `Verif.Spec.FpSearch`; `PriorIs`, `uctExplore`, `puctExplore` in `Verif.Spec.Uct`.
-/

set_option linter.unusedSectionVars false
set_option linter.unusedSimpArgs false

namespace Verif.Fp

open Verif.Search Verif.Sampling Verif.Spec
open Verif.Backups (remaining)
open Verif.Uct (Stats Cfg avgOf visitsOf Tried kid oppCoeff hasPrior untried PriorIs IterOk)

variable {S A : Type} [DecidableEq S] [DecidableEq A]

/-! ## One value, one selection -/

/-- C93.  The exploration term of UCT, with a `log` of relative error `β`. -/
theorem c93_uct_term {lg sq : ℚ → ℚ} {β : ℝ} (hβ : β ≤ 1 / 200) (hβ0 : 0 ≤ β) (hl : AccurateLog lg β) (hs : AccurateSqrt sq) :
    AccurateTerm (uctTerm lg sq) Uct.uctExplore (β + 7 * unit) := uctTerm_accurate hβ hβ0 hl hs

/-- C93.  The exploration term of PUCT, with a `pow` of relative error `γ`. -/
theorem c93_puct_term {pw : ℚ → ℚ → ℚ} {sq : ℚ → ℚ} {p : ℚ} {γ : ℝ} (hγ : γ ≤ 1 / 200) (hγ0 : 0 ≤ γ) (hp : 0 ≤ p) (hw : AccuratePow pw p γ)
    (hs : AccurateSqrt sq) : AccurateTerm (puctTerm pw sq p) (Uct.puctExplore p) (γ + 5 * unit) := puctTerm_accurate hγ hγ0 hp hw hs

/-- C93.  The value computed for an action is the UCB formula's up to `ucbError`. -/
theorem c93_value {cfg : Cfg S A ℚ} {v : View S A (Stats ℚ) (Stats ℚ)} {prior : A → ℚ} (hp : PriorIs cfg v prior) {bias : ℚ} (hb : BiasIs cfg v bias)
    {explore : Nat → Nat → ℝ} {δ : ℝ} (hδ : δ ≤ 1 / 100) (hterm : AccurateTerm cfg.term explore δ) {a : A} (ha : a ∈ v.actions) (hN : v.visits < 2 ^ 31)
    (hn : visitsOf v a < 2 ^ 31) :
    ∃ val, ucbValue cfg v a = some val ∧ |(val : ℝ) - ucbScore explore prior bias v a| ≤ ucbError δ explore prior bias v a :=
  ucbValue_err hp hb hδ hterm ha hN hn

/-- C93.  Whatever the random draws and the order of the map: without epsilon exploration the action selected is an untried one (only without prior), or its UCB value
in real arithmetic is the best one up to the errors of two values. -/
theorem c93_selects {cfg : Cfg S A ℚ} {v : View S A (Stats ℚ) (Stats ℚ)} {prior : A → ℚ} (hp : PriorIs cfg v prior) {bias : ℚ} (hb : BiasIs cfg v bias)
    {explore : Nat → Nat → ℝ} {δ : ℝ} (hδ : δ ≤ 1 / 100) (hterm : AccurateTerm cfg.term explore δ) (hN : v.visits < 2 ^ 31)
    (hn : ∀ a ∈ v.actions, visitsOf v a < 2 ^ 31) (he : cfg.epsilon ≤ 0) {u : ℚ} {raw : Nat} {iter : List (A × ℚ) → List (A × ℚ)} (hi : IterOk iter) {a : A}
    (hs : selectAction cfg v u raw iter = some a) :
    a ∈ v.actions ∧ ((cfg.prior = none ∧ ¬ Tried v a) ∨ ((cfg.prior = none → ∀ b ∈ v.actions, Tried v b) ∧ ∀ b ∈ v.actions,
      ucbScore explore prior bias v b ≤ ucbScore explore prior bias v a + (ucbError δ explore prior bias v a + ucbError δ explore prior bias v b))) := by
  have hmem := (selectAction_mem hi hs).1
  refine ⟨hmem, ?_⟩
  rw [selectAction, if_neg (fun hc => absurd hc.1 (not_lt.2 he)), selectUcb] at hs
  split at hs
  · rename_i hc
    left
    have h1 := (Uct.sampleUniform_mem hs).1
    rw [untried, List.mem_filter] at h1
    refine ⟨by simpa [hasPrior] using hc.1, ?_⟩
    rw [← Uct.kid_some_iff]
    simpa using h1.2
  · rename_i hc
    right
    constructor
    · intro hpr b hbm
      have h0 : untried v = [] := by
        rw [← List.length_eq_zero_iff]
        by_contra h
        exact hc ⟨by simp [hasPrior, hpr], by omega⟩
      rw [untried, List.filter_eq_nil_iff] at h0
      have := h0 b hbm
      rw [← Uct.kid_some_iff, Option.isSome_iff_ne_none]
      simpa using this
    · intro b hbm
      cases hf : fillFrom cfg v v.actions with
      | none => rw [hf] at hs; simp at hs
      | some vals =>
        rw [hf] at hs
        simp only [Option.bind_some] at hs
        obtain ⟨h1, -⟩ := Uct.getMaxKey_some hs
        rw [Uct.isBest_iter hi] at h1
        obtain ⟨va, hva, hmax⟩ := h1
        obtain ⟨-, g2, g3⟩ := fill_get hf
        obtain ⟨vb, hvb⟩ := g3 b hbm
        obtain ⟨va', e1, e2⟩ := ucbValue_err hp hb hδ hterm hmem hN (hn a hmem)
        obtain ⟨vb', f1, f2⟩ := ucbValue_err hp hb hδ hterm hbm hN (hn b hbm)
        have e3 := g2 _ hva
        have f3 := g2 _ hvb
        dsimp only at e3 f3
        rw [e1] at e3
        rw [f1] at f3
        obtain rfl := Option.some.inj e3
        obtain rfl := Option.some.inj f3
        have h2 : (vb' : ℝ) ≤ va' := by exact_mod_cast hmax _ hvb
        have h3 := abs_le.1 e2
        have h4 := abs_le.1 f2
        linarith

/-! ## Whole searches -/

section
variable {env : Env S A ℚ} {m : Manager S ℚ} {cfg : Cfg S A ℚ} {k : Nat} {s0 : S} {dp tm : Int} {tb : List ((Int × S) × Option Nat)}
  {st : St S A ℚ (Stats ℚ) (Stats ℚ)} {h : List (Event S A ℚ)}

theorem avgOf_view (T : Tree env m s0 dp tm st) {d : Nat} {nd nd' : DNode S A ℚ (Stats ℚ)} (hd : st.dn[d]? = some nd) (hk : nd'.kids = nd.kids) (a : A) :
    avgOf (viewOf env m st nd') a = ((childC st d a).bind fun c => (st.cn[c]?).map fun nc => nc.y.avg).getD 0 ∧
    visitsOf (viewOf env m st nd') a = ((childC st d a).bind fun c => (st.cn[c]?).map fun nc => nc.visits).getD 0 := by
  have h1 := find?_kidsY T hd hk a
  have h2 : childC st d a = find? a nd.kids := by simp [childC, hd]
  unfold avgOf visitsOf viewOf
  simp only [h1, h2]
  cases find? a nd.kids with
  | none => simp
  | some c =>
    simp only [Option.bind_some]
    generalize st.cn[c]? = x
    cases x <;> simp

/-- C93.  In every history of every concurrent search with fewer than 2^31 trials: at each selection the node is in a state (that of `s1`, with the visit counted) in which
the action selected is untried or, in real arithmetic, has the best UCB value up to two errors.  `prior s a` is the prior probability (one without prior). -/
theorem c93_search (htb : Leftover tb) (hr : Reachable env m (uct cfg) k s0 dp tm tb st h) {prior : S → A → ℚ}
    (hp : ∀ s, ∀ a ∈ env.actions s, match cfg.prior with | none => prior s a = 1 | some f => find? a (f s) = some (prior s a))
    {explore : Nat → Nat → ℝ} {δ : ℝ} (hδ : δ ≤ 1 / 100) (hterm : AccurateTerm cfg.term explore δ) (hn : cfg.pseudo + trialsBegun h < 2 ^ 31)
    (he : cfg.epsilon ≤ 0) {h2 h1 : List (Event S A ℚ)} {w d c : Nat} {a : A} (hh : h = h2 ++ .selected w d a c :: h1) :
    ∃ s1 nd v, Reachable env m (uct cfg) k s0 dp tm tb s1 h1 ∧ s1.dn[d]? = some nd ∧ v = viewOf env m s1 { nd with visits := nd.visits + 1 } ∧
      a ∈ env.actions nd.state ∧
      ∀ bias, BiasIs cfg v bias → (cfg.prior = none ∧ ¬ Tried v a) ∨ ((cfg.prior = none → ∀ b ∈ env.actions nd.state, Tried v b) ∧ ∀ b ∈ env.actions nd.state,
        ucbScore explore (prior nd.state) bias v b ≤ ucbScore explore (prior nd.state) bias v a +
          (ucbError δ explore (prior nd.state) bias v a + ucbError δ explore (prior nd.state) bias v b)) := by
  obtain ⟨s1, s2, w', g1, _, E, g2, L⟩ := reach_prefix hr hh
  obtain ⟨I, C⟩ := reach_both (uct_valid cfg) htb g1
  have hex : ∃ nd : DNode S A ℚ (Stats ℚ), s1.dn[d]? = some nd ∧ selectable cfg (viewOf env m s1 { nd with visits := nd.visits + 1 }) a = true := by
    cases E with
    | @selOld cur path rs new nd a c hw hd hl hm ha hf => exact ⟨nd, hd, ha⟩
    | @selNew cur path rs new nd a hw hd hl hm ha hf => exact ⟨nd, hd, ha⟩
  obtain ⟨nd, hd, hs⟩ := hex
  have hbegun : trialsBegun h1 ≤ trialsBegun h ∧ trialsBegun (Event.selected w d a c :: h1) ≤ trialsBegun h := by
    rw [hh]
    unfold trialsBegun
    simp only [List.countP_append, List.countP_cons]
    omega
  have hvis : nd.visits + 1 < 2 ^ 31 := by
    have q1 := C.v1 d nd hd
    have hl : d < s2.dn.length := by
      have : d < s1.dn.length := (List.getElem?_eq_some_iff.1 hd).1
      have hlen : s1.dn.length ≤ s2.dn.length := by cases E <;> simp
      omega
    have q2 := through_le (uct_valid cfg) htb g2 (List.getElem?_eq_getElem hl)
    have q3 : (uct cfg : Alg S A ℚ (Stats ℚ) (Stats ℚ)).initVisits = cfg.pseudo := rfl
    have q4 : (Event.selected w d a c :: h1).countP (Event.selAt d) = h1.countP (Event.selAt d) + 1 := by
      rw [List.countP_cons]; simp [Event.selAt]
    have q5 : h1.countP (Event.endAt d) ≤ (Event.selected w d a c :: h1).countP (Event.endAt d) := by
      rw [List.countP_cons]; omega
    omega
  have hkid : ∀ b, visitsOf (viewOf env m s1 { nd with visits := nd.visits + 1 }) b < 2 ^ 31 := by
    intro b
    rw [(avgOf_view I.tree hd (nd' := { nd with visits := nd.visits + 1 }) rfl b).2]
    cases hc : childC s1 d b with
    | none => simp
    | some cb =>
      obtain ⟨_, nc, _, k2, _⟩ := childC_facts I.tree hc
      simp only [Option.bind_some, k2, Option.map_some, Option.getD_some]
      rw [C.v2 cb nc k2]
      have := via_le (uct_valid cfg) htb g1 k2
      omega
  obtain ⟨u, raw, iter, _, _, hi, hsel⟩ := (selectable_iff cfg _ a).1 hs
  refine ⟨s1, nd, _, g1, hd, rfl, ?_, fun bias hbias => ?_⟩
  · exact (selectAction_mem hi hsel).1
  · exact (c93_selects (prior := prior nd.state) (v := viewOf env m s1 { nd with visits := nd.visits + 1 }) (fun b hb => by have := hp nd.state b hb; cases hpr : cfg.prior <;> rw [hpr] at this <;> exact this) hbias hδ hterm hvis
      (fun b _ => hkid b) he hi hsel).2

/-- C93.  When no trial is running, the action recommended by the average returns has the best mean of the exact returns of its trials, up to the errors of the averages
(C91). -/
theorem c93_recommends {ρ : ℚ} (hbd : FpBounded env m ρ) (htb : Leftover tb) (hr : Reachable env m (uct cfg) k s0 dp tm tb st h) (hq : Quiescent st) {d : Nat}
    {nd : DNode S A ℚ (Stats ℚ)} (hd : st.dn[d]? = some nd) (hL : remaining m nd.depth ≤ 2 ^ 49) {M : ℚ} (hM : IsDouble M)
    (hMρ : 2 * (remaining m nd.depth + 1) * ρ ≤ M) (hn : trialsBegun h ≤ 2 ^ 53) (hm : cfg.mostVisited = false) {lowI : Int} {raw : Nat}
    {iter : List (A × ℚ) → List (A × ℚ)} (hi : IterOk iter) {iterI : List (A × Int) → List (A × Int)} {a : A}
    (hrec : Uct.recommend cfg lowI (viewOf env m st nd) raw iter iterI = some a) {b : A} {cb : Nat} (hcb : childC st d b = some cb) :
    ∃ ca, childC st d a = some ca ∧
      (if isOpponent m nd.time then -1 else 1) * exactMean (returnsC cb h) ≤ (if isOpponent m nd.time then -1 else 1) * exactMean (returnsC ca h) +
        (avgError (remaining m nd.depth) (returnsC ca h).length ρ M + avgError (remaining m nd.depth) (returnsC cb h).length ρ M) := by
  obtain ⟨I, C⟩ := reach_both (uct_valid cfg) htb hr
  obtain ⟨B, -⟩ := reach_bk hr
  have hv := uct_valid cfg
  -- stored averages of children
  have avg : ∀ x c, childC st d x = some c → |avgOf (viewOf env m st nd) x - exactMean (returnsC c h)| ≤ avgError (remaining m nd.depth) (returnsC c h).length ρ M := by
    intro x c hc
    obtain ⟨nd1, nc, k1, k2, _⟩ := childC_facts I.tree hc
    obtain ⟨nd2, nc2, e1, e2, _, _, e3, e4⟩ := c14_chance_child hv htb hr hc
    rw [hd] at e1
    obtain rfl := Option.some.inj e1
    rw [k2] at e2
    obtain rfl := Option.some.inj e2
    rw [(avgOf_view I.tree hd rfl x).1, hc]
    simp only [Option.bind_some, k2, Option.map_some, Option.getD_some]
    have q1 := B.c c
    rw [sum_idle hq _ rfl] at q1
    have q2 := via_le hv htb hr k2
    have q3 : returnsC c h ≠ [] := by
      rw [← List.length_pos_iff]
      obtain ⟨w, hw⟩ := reach_selKid hr d nd x c hd (find?_mem (by simpa [childC, hd] using hc))
      have q4 := C.v3 c
      have q5 : st.ws.countP (Phase.inSamp c) = 0 := by
        rw [List.countP_eq_zero]
        intro p hp
        obtain ⟨i, hi⟩ := List.mem_iff_getElem?.1 hp
        rw [hq i p hi]
        simp [Phase.inSamp]
      have q6 : 0 < h.countP (Event.selVia c) := List.countP_pos_iff.2 ⟨_, hw, by simp [Event.selVia]⟩
      omega
    have := (c91_chance_average hbd hv (uct_has cfg) htb hr k2 (by rw [e3]; exact hL) hM (by rw [e3]; exact hMρ) q3 (by omega)).2
    rw [e3] at this
    exact this
  -- the recommendation
  have htried : Tried (viewOf env m st nd) b := by
    rw [Tried]
    exact (mem_kidsY_keys I.tree hd rfl b).2 ⟨cb, by simpa [childC, hd] using hcb⟩
  rw [Uct.recommend, if_neg (by simp [hm]), Uct.recommendBest] at hrec
  have hbm : (b, oppCoeff (viewOf env m st nd) * avgOf (viewOf env m st nd) b) ∈
      (viewOf env m st nd).actions.filterMap fun a => (kid (viewOf env m st nd) a).map fun y => (a, oppCoeff (viewOf env m st nd) * y.2.avg) := by
    obtain ⟨nd1, nc, k1, k2, k3⟩ := childC_facts I.tree hcb
    rw [hd] at k1
    obtain rfl := Option.some.inj k1
    refine List.mem_filterMap.2 ⟨b, k3.2.2.2.2.2, ?_⟩
    obtain ⟨y, hy⟩ := Option.isSome_iff_exists.1 ((Uct.kid_some_iff _ b).2 htried)
    unfold kid at hy ⊢
    simp [hy, avgOf]
  rw [if_neg (fun h0 => by rw [List.length_eq_zero_iff.1 h0] at hbm; simp at hbm)] at hrec
  obtain ⟨h1, -⟩ := Uct.getMaxKey_some hrec
  rw [Uct.isBest_iter hi] at h1
  obtain ⟨va, hva, hmax⟩ := h1
  have h2 := hmax _ hbm
  obtain ⟨a', ha', hk'⟩ := List.mem_filterMap.1 hva
  cases hka : kid (viewOf env m st nd) a' with
  | none => rw [hka] at hk'; simp at hk'
  | some y =>
    rw [hka] at hk'
    simp only [Option.map_some, Option.some.injEq, Prod.mk.injEq] at hk'
    obtain ⟨rfl, rfl⟩ := hk'
    have hta : Tried (viewOf env m st nd) a' := (Uct.kid_some_iff _ a').1 (by rw [hka]; rfl)
    have hya : avgOf (viewOf env m st nd) a' = y.2.avg := by unfold kid at hka; simp [avgOf, hka]
    obtain ⟨ca, hca⟩ := (mem_kidsY_keys I.tree hd rfl a').1 hta
    have hca' : childC st d a' = some ca := by simpa [childC, hd] using hca
    refine ⟨ca, hca', ?_⟩
    have g1 := abs_le.1 (avg a' ca hca')
    have g2 := abs_le.1 (avg b cb hcb)
    rw [← hya] at h2
    have h3 : oppCoeff (viewOf env m st nd) = if isOpponent m nd.time then -1 else 1 := rfl
    dsimp only at h2
    rw [h3] at h2
    split at h2 <;> rename_i ho
    · rw [if_pos ho]
      linarith
    · rw [if_neg ho]
      linarith

end

/-! ## Non-vacuity of the assumptions on the library -/

/-- A positive real number can be rounded with a relative error of two units. -/
theorem round_exists {r : ℝ} (hr : 0 < r) (ht : (tiny : ℝ) ≤ 1 / 4 * unit * r) : ∃ q : ℚ, IsDouble q ∧ |(q : ℝ) - r| ≤ 2 * unit * r := by
  have hu : (0 : ℝ) < unit := by exact_mod_cast unit_pos
  obtain ⟨x, h1, h2⟩ := exists_rat_btwn (show r * (1 - 1 / 4 * unit) < r by nlinarith)
  have hu' : (unit : ℝ) ≤ 1 / 1000 := by have := (Rat.cast_le (K := ℝ)).2 unit_le; push_cast at this; exact this
  have h0 : (0 : ℝ) < x := by nlinarith
  have e := (Rat.cast_le (K := ℝ)).2 (fl_err' x)
  push_cast at e
  rw [abs_of_pos h0] at e
  have h3 : (unit : ℝ) * x ≤ unit * r := mul_le_mul_of_nonneg_left h2.le hu.le
  have h4 := abs_le.1 e
  refine ⟨fl x, isDouble_fl x, ?_⟩
  rw [abs_le]
  have : 0 < unit * r := mul_pos hu hr
  constructor <;> nlinarith

theorem tiny_ge {r : ℝ} (h : (unit : ℝ) ≤ r) : (tiny : ℝ) ≤ 1 / 4 * unit * r := by
  have h3 : (tiny : ℝ) ≤ unit * unit * unit * unit := by exact_mod_cast tiny_le
  have hu : (0 : ℝ) < unit := by exact_mod_cast unit_pos
  have hu' : (unit : ℝ) ≤ 1 / 1000 := by have := (Rat.cast_le (K := ℝ)).2 unit_le; push_cast at this; exact this
  have h4 : (unit : ℝ) * unit ≤ unit * r := mul_le_mul_of_nonneg_left h hu.le
  have h5 : (unit : ℝ) * unit ≤ 1 / 4 := by nlinarith
  have h6 : (unit : ℝ) * unit * (unit * unit) ≤ 1 / 4 * (unit * unit) := mul_le_mul_of_nonneg_right h5 (by positivity)
  linarith

theorem sqrt_exists : ∃ sq, AccurateSqrt sq := by
  have : ∀ x : ℚ, ∃ q : ℚ, 0 ≤ x → IsDouble x → IsDouble q ∧ |(q : ℝ) - √x| ≤ 2 * unit * √x := by
    intro x
    by_cases hx : 0 < x ∧ IsDouble x
    · obtain ⟨hx, hdx⟩ := hx
      have hp : (0 : ℝ) < √x := Real.sqrt_pos.2 (by exact_mod_cast hx)
      obtain ⟨mm, hmm⟩ := hdx.multiple
      have hpw : (0 : ℚ) < 2 ^ (-1074 : ℤ) := by positivity
      have hm1 : (1 : ℚ) ≤ mm := by
        have : (0 : ℚ) < mm := by
          rw [hmm] at hx
          exact (mul_pos_iff_of_pos_right hpw).1 hx
        exact_mod_cast this
      have hge : (2 : ℝ) ^ (-1074 : ℤ) ≤ (x : ℝ) := by
        have : (2 : ℚ) ^ (-1074 : ℤ) ≤ x := by rw [hmm]; nlinarith
        have := (Rat.cast_le (K := ℝ)).2 this
        push_cast at this
        exact this
      have hroot : (2 : ℝ) ^ (-537 : ℤ) ≤ √x := by
        apply Real.le_sqrt_of_sq_le
        rw [← zpow_natCast, ← zpow_mul]
        exact hge
      have ht : (tiny : ℝ) ≤ 1 / 4 * unit * √x := by
        have e1 : (tiny : ℝ) = 2 ^ (-1075 : ℤ) := by unfold tiny; push_cast; rfl
        have e2 : (unit : ℝ) = 2 ^ (-53 : ℤ) := by unfold unit; push_cast; rfl
        have e3 : (2 : ℝ) ^ (-1075 : ℤ) ≤ 1 / 4 * 2 ^ (-53 : ℤ) * 2 ^ (-537 : ℤ) := by
          rw [show (1 / 4 : ℝ) = 2 ^ (-2 : ℤ) by norm_num, ← zpow_add₀ (by norm_num), ← zpow_add₀ (by norm_num)]
          exact zpow_le_zpow_right₀ (by norm_num) (by norm_num)
        rw [e1, e2]
        refine le_trans e3 (mul_le_mul_of_nonneg_left hroot (by positivity))
      obtain ⟨q, h1, h2⟩ := round_exists hp ht
      exact ⟨q, fun _ _ => ⟨h1, h2⟩⟩
    · refine ⟨0, fun h0 hd => ?_⟩
      have : x = 0 := le_antisymm (not_lt.1 fun h => hx ⟨h, hd⟩) h0
      subst this
      exact ⟨isDouble_zero, by simp⟩
  choose sq hsq using this
  exact ⟨sq, fun x h0 hd => hsq x h0 hd⟩

theorem pow_exists {p : ℚ} (hp : 0 ≤ p) : ∃ pw, AccuratePow pw p (2 * unit) := by
  have : ∀ x : ℚ, ∃ q : ℚ, 1 ≤ x → |(q : ℝ) - (x : ℝ) ^ (p : ℝ)| ≤ 2 * unit * (x : ℝ) ^ (p : ℝ) := by
    intro x
    by_cases hx : 1 ≤ x
    · have h1 : (1 : ℝ) ≤ (x : ℝ) ^ (p : ℝ) := Real.one_le_rpow (by exact_mod_cast hx) (by exact_mod_cast hp)
      have hu' : (unit : ℝ) ≤ 1 / 1000 := by have := (Rat.cast_le (K := ℝ)).2 unit_le; push_cast at this; exact this
      obtain ⟨q, _, h2⟩ := round_exists (by linarith) (tiny_ge (by linarith : (unit : ℝ) ≤ (x : ℝ) ^ (p : ℝ)))
      exact ⟨q, fun _ => h2⟩
    · exact ⟨0, fun h => absurd h hx⟩
  choose pw hpw using this
  exact ⟨fun x _ => pw x, fun x h _ => hpw x h⟩

/-- There are library functions as assumed, so there are accurate exploration terms of UCT and PUCT. -/
example : ∃ lg sq, AccurateTerm (uctTerm lg sq) Uct.uctExplore (1 / 200 + 7 * unit) := by
  obtain ⟨sq, h1⟩ := sqrt_exists
  have : ∃ lg, AccurateLog lg (1 / 200) := by
    have : ∀ x : ℚ, ∃ q : ℚ, 1 ≤ x → IsDouble x → IsDouble q ∧ |(q : ℝ) - Real.log x| ≤ 1 / 200 * Real.log x + tiny := by
      intro x
      by_cases hx : 1 < x
      · have hp : 0 < Real.log (x : ℝ) := Real.log_pos (by exact_mod_cast hx)
        obtain ⟨r, q1, q2⟩ := exists_rat_btwn (show Real.log (x : ℝ) * (1 - 1 / 1000) < Real.log x by linarith)
        have e := (Rat.cast_le (K := ℝ)).2 (fl_err' r)
        push_cast at e
        have h0 : (0 : ℝ) < r := by linarith
        rw [abs_of_pos h0] at e
        have hu : (unit : ℝ) ≤ 1 / 1000 := by have := (Rat.cast_le (K := ℝ)).2 unit_le; push_cast at this; exact this
        have h3 : (unit : ℝ) * r ≤ 1 / 1000 * r := mul_le_mul_of_nonneg_right hu h0.le
        have h4 := abs_le.1 e
        refine ⟨fl r, fun _ _ => ⟨isDouble_fl _, ?_⟩⟩
        rw [abs_le]
        constructor <;> linarith
      · refine ⟨0, fun h _ => ⟨isDouble_zero, ?_⟩⟩
        have : x = 1 := le_antisymm (not_lt.1 hx) h
        subst this
        simp
        exact tiny_pos.le
    choose lg hlg using this
    exact ⟨lg, fun x h hd => hlg x h hd⟩
  obtain ⟨lg, h2⟩ := this
  exact ⟨lg, sq, c93_uct_term le_rfl (by norm_num) h2 h1⟩

example : ∃ pw sq, AccurateTerm (puctTerm pw sq (3 / 4)) (Uct.puctExplore ((3 / 4 : ℚ) : ℝ)) (2 * unit + 5 * unit) := by
  obtain ⟨sq, h1⟩ := sqrt_exists
  obtain ⟨pw, h2⟩ := pow_exists (p := 3 / 4) (by norm_num)
  have hu : (0 : ℝ) < unit := by exact_mod_cast unit_pos
  have hu' : (unit : ℝ) ≤ 1 / 1000 := by have := (Rat.cast_le (K := ℝ)).2 unit_le; push_cast at this; exact this
  exact ⟨pw, sq, c93_puct_term (by linarith) (by linarith) (by norm_num) h2 h1⟩

/-! ## A search -/

namespace UctToy

/-- A simple exploration term, rounded. -/
def term (N n : Nat) : ℚ := fl (N / (n + 1))

theorem term_accurate : AccurateTerm term (fun N n => (N : ℝ) / (n + 1)) (1 / 100) := by
  intro N n hN hn
  refine ⟨by positivity, isDouble_fl _, ?_⟩
  have hu' : (unit : ℝ) ≤ 1 / 1000 := by have := (Rat.cast_le (K := ℝ)).2 unit_le; push_cast at this; exact this
  by_cases h0 : N = 0
  · subst h0
    simp [term, fl_zero]
  · have h1 : (1 : ℝ) ≤ N := by exact_mod_cast Nat.one_le_iff_ne_zero.2 h0
    have e := (Rat.cast_le (K := ℝ)).2 (fl_err' ((N : ℚ) / (n + 1)))
    push_cast at e
    have hy : (0 : ℝ) ≤ (N : ℝ) / (n + 1) := by positivity
    rw [abs_of_nonneg hy] at e
    have ht := tiny_small (α := (N : ℝ)) (n := n + 1) (by linarith) (by omega) (by omega)
    push_cast at ht
    have := mul_le_mul_of_nonneg_right hu' hy
    refine le_trans e ?_
    linarith

def cfg : Cfg Nat Nat ℚ where
  bias := -1
  pseudo := 0
  mostVisited := false
  epsilon := 0
  prior := none
  term := term
  low := -1000000

/-- Three trials of two workers in the game of `Verif.Fp.Toy`, the first two interleaved: both actions of the root are tried, then one is repeated. -/
def sched (a b : Nat) : List (Nat × Choice Nat Nat) :=
  [(0, .go), (1, .go), (0, .act 0), (1, .act 1), (0, .obs 1), (1, .obs 2), (0, .act 0), (1, .act 0), (1, .obs 5), (0, .obs 3)] ++
  List.replicate 6 (1, .go) ++ List.replicate 6 (0, .go) ++ [(1, .go), (1, .act a), (1, .obs (a + 1)), (1, .act b), (1, .obs (2 * a + b + 3))] ++
  List.replicate 6 (1, .go)

def final (a b : Nat) : Option (St Nat Nat ℚ (Stats ℚ) (Stats ℚ) × List (Event Nat Nat ℚ)) :=
  execFrom Toy.env Toy.mgr (uct cfg) (init Toy.env Toy.mgr (uct cfg) 2 0 0 0 []) [] (sched a b)

theorem run (a b : Nat) (P : St Nat Nat ℚ (Stats ℚ) (Stats ℚ) → List (Event Nat Nat ℚ) → Bool) (h : ((final a b).any (fun p => P p.1 p.2)) = true) :
    ∃ st h, Reachable Toy.env Toy.mgr (uct cfg) 2 0 0 0 [] st h ∧ P st h = true := by
  cases hf : final a b with
  | none => rw [hf] at h; simp at h
  | some p => rw [hf] at h; exact ⟨p.1, p.2, ⟨_, hf⟩, by simpa using h⟩

end UctToy

/-- In the third trial UCT may select one action of the root and not the other one. -/
example : (UctToy.final 1 1).isSome = true ∧ (UctToy.final 0 1).isSome = false := by decide +kernel

/-- A search that meets the hypotheses of `c93_search`: with an exploration term of accuracy 1/100, and fewer than 2^31 trials. -/
example : ∃ st h, Reachable Toy.env Toy.mgr (uct UctToy.cfg) 2 0 0 0 [] st h ∧
    decide (UctToy.cfg.pseudo + trialsBegun h < 2 ^ 31 ∧ trialsBegun h = 3 ∧ trialsCompleted h = 3) = true :=
  UctToy.run 1 1 _ (by decide +kernel)

/-! ## What rounding breaks -/

def bigCfg (term : Nat → Nat → ℚ) : Cfg Unit Bool ℚ :=
  { bias := 1, pseudo := 0, mostVisited := true, epsilon := 0, prior := none, term := term, low := -1000000 }

/-- A node visited 1001 times, with a thousand visits of one action and one of the other, and equal averages of `2^60`. -/
def bigView : View Unit Bool (Stats ℚ) (Stats ℚ) :=
  { state := (), depth := 0, time := 0, opp := false, visits := 1001, x := ⟨1001, 2 ^ 60⟩, actions := [false, true],
    kids := [(false, 1000, ⟨1000, 2 ^ 60⟩), (true, 1, ⟨1, 2 ^ 60⟩)] }

theorem big_absorbs {t : ℚ} (h0 : 0 ≤ t) (h1 : t ≤ 4) : fl (t + 2 ^ 60) = 2 ^ 60 := by
  have e1 : fl (4 + 2 ^ 60) = 2 ^ 60 := by decide +kernel
  have e2 : fl (2 ^ 60) = 2 ^ 60 := by decide +kernel
  apply le_antisymm
  · rw [← e1]; exact fl_mono (by linarith)
  · conv_lhs => rw [← e2]
    exact fl_mono (by linarith)

theorem explore_bounds : 2 ≤ Uct.uctExplore 1001 1 ∧ Uct.uctExplore 1001 1 ≤ 3 ∧ 0 ≤ Uct.uctExplore 1001 1000 ∧ Uct.uctExplore 1001 1000 ≤ 1 := by
  have h2 := Real.log_two_gt_d9
  have h2' := Real.log_two_lt_d9
  have l1 : Real.log 1001 ≤ 7 := by
    have : Real.log 1001 ≤ Real.log (2 ^ 10) := Real.log_le_log (by norm_num) (by norm_num)
    rw [Real.log_pow] at this
    push_cast at this
    linarith
  have l2 : 4 ≤ Real.log 1001 := by
    have : Real.log (2 ^ 9) ≤ Real.log 1001 := Real.log_le_log (by norm_num) (by norm_num)
    rw [Real.log_pow] at this
    push_cast at this
    linarith
  unfold Uct.uctExplore
  refine ⟨?_, ?_, Real.sqrt_nonneg _, ?_⟩
  · apply Real.le_sqrt_of_sq_le
    norm_num
    linarith
  · rw [Real.sqrt_le_left (by norm_num)]
    norm_num
    linarith
  · rw [Real.sqrt_le_left (by norm_num)]
    norm_num
    linarith

/-- C93 does not extend to the exploration itself: of two actions with equal averages the one tried a thousand times can be selected again, although the UCB value of the
one tried once is larger by one.  Averages of `2^60` absorb the exploration term, so that both values are equal, and ties are broken at random. -/
theorem c93_less_tried_false {term : Nat → Nat → ℚ} {δ : ℝ} (hδ : δ ≤ 1 / 100) (hterm : AccurateTerm term Uct.uctExplore δ) :
    avgOf bigView false = avgOf bigView true ∧ visitsOf bigView true = 1 ∧ visitsOf bigView false = 1000 ∧ BiasIs (bigCfg term) bigView 1 ∧
    ucbScore Uct.uctExplore (fun _ => 1) 1 bigView false + 1 ≤ ucbScore Uct.uctExplore (fun _ => 1) 1 bigView true ∧
    selectable (bigCfg term) bigView false = true := by
  obtain ⟨b1, b2, b3, b4⟩ := explore_bounds
  have val : ∀ n : Nat, n < 2 ^ 31 → Uct.uctExplore 1001 n ≤ 3 → fadd (fmul (fadd 0 (term 1001 n)) 1) (1 * 2 ^ 60) = 2 ^ 60 := by
    intro n hn h3
    obtain ⟨q0, q1, q2⟩ := hterm 1001 n (by norm_num) hn
    have q3 : δ * Uct.uctExplore 1001 n ≤ 1 / 100 * Uct.uctExplore 1001 n := mul_le_mul_of_nonneg_right hδ q0
    have q4 := abs_le.1 q2
    have t0 : (0 : ℝ) ≤ term 1001 n := by linarith
    have t1 : (term 1001 n : ℝ) ≤ 4 := by linarith
    have e : fmul (fadd 0 (term 1001 n)) 1 = term 1001 n := by
      rw [zero_fadd q1]
      unfold fmul
      rw [mul_one]
      exact q1
    rw [e, one_mul]
    exact big_absorbs (by exact_mod_cast t0) (by exact_mod_cast t1)
  refine ⟨by decide +kernel, by decide +kernel, by decide +kernel, ?_, ?_, ?_⟩
  · unfold BiasIs bigCfg
    rw [if_neg (by norm_num)]
  · have e1 : visitsOf bigView true = 1 := by decide +kernel
    have e2 : visitsOf bigView false = 1000 := by decide +kernel
    have e3 : avgOf bigView false = avgOf bigView true := by decide +kernel
    have e4 : bigView.visits = 1001 := rfl
    unfold ucbScore
    rw [e1, e2, e3, e4]
    push_cast
    linarith
  · rw [selectable_iff]
    refine ⟨0, 0, id, le_rfl, one_pos, Uct.iterOk_id, ?_⟩
    have v0 : ucbValue (bigCfg term) bigView false = some (2 ^ 60) := by
      have := val 1000 (by norm_num) (by linarith)
      rw [← this]
      rfl
    have v1 : ucbValue (bigCfg term) bigView true = some (2 ^ 60) := by
      have := val 1 (by norm_num) b2
      rw [← this]
      rfl
    have hf : fillFrom (bigCfg term) bigView bigView.actions = some [(false, 2 ^ 60), (true, 2 ^ 60)] := by
      show fillFrom (bigCfg term) bigView [false, true] = _
      simp only [fillFrom, v0, v1]
    have hu : untried bigView = [] := by decide +kernel
    unfold selectAction
    rw [if_neg (by simp [bigCfg])]
    unfold selectUcb
    rw [if_neg (by simp [hu]), hf]
    show getMaxKey (-1000000 : ℚ) [(false, 2 ^ 60), (true, 2 ^ 60)] 0 = some false
    decide +kernel

end Verif.Fp
