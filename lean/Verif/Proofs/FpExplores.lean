import Verif.Proofs.FpRandom
import Verif.Proofs.FpBounded
import Verif.Proofs.RandomLossy
import Verif.Proofs.RandomSearch

/-! # MENTS and DB-MENTS with doubles explore (C98) -/

set_option linter.unusedSectionVars false
set_option linter.unusedSimpArgs false

namespace Verif.Fp

open Verif.Search Verif.Backups Verif.Props Verif.Random
open Verif.Sampling (Draw)

variable {S A X Y : Type} [DecidableEq S] [DecidableEq A]
  {env : Env S A ℚ} {m : Manager S ℚ} {alg : Alg S A ℚ X Y} {px : X → SoftF} {py : Y → SoftF} {ex lg : ℚ → ℚ} {cfg : MentsCfg} {lr : S → A → ℚ}
  {k : Nat} {s0 : S} {dp tm : Int} {tb : List ((Int × S) × Option Nat)} {st : St S A ℚ X Y} {h : List (Event S A ℚ)}
  {ρ M : ℚ} {K n D N : Nat} {α β η : ℝ}

theorem minEpsF_le (cfg : MentsCfg) (v : View S A X Y) :
    minEpsF cfg ≤ (if v.depth = 0 ∧ cfg.rootEpsilon > 0 then cfg.rootEpsilon else cfg.epsilon) := by
  unfold minEpsF
  by_cases h : 0 < cfg.rootEpsilon
  · simp only [h, if_true, gt_iff_lt, and_true]
    split
    · exact min_le_left _ _
    · exact min_le_right _ _
  · simp [h]

theorem FpExploring.nonneg_eps (E : FpExploring cfg n N η) : 0 ≤ minEpsF cfg := by
  unfold minEpsF
  split
  · next h => exact le_min h.le E.eps
  · exact E.eps

theorem FpExploring.low (E : FpExploring cfg n N η) (hn : 1 ≤ n) (hη : 0 ≤ η) : 120 * (unit : ℝ) ≤ exploreLow cfg N := by
  refine le_trans ?_ E.big
  have hu : (0 : ℝ) < unit := by exact_mod_cast unit_pos
  have h1 : (1 : ℝ) ≤ n := by exact_mod_cast hn
  have h2 : (0 : ℝ) ≤ 4 * n * η := by positivity
  have h3 : (120 : ℝ) ≤ n * (48 * n + 72) := by nlinarith
  have := mul_le_mul_of_nonneg_right h3 hu.le
  linarith

theorem lambda_real {β L LN l e eps u t f : ℝ} (hβ : β ≤ 1 / 100) (hL : 69 / 100 ≤ L) (hLN : L ≤ LN) (hl : |l - L| ≤ β * L + t) (he0 : 0 ≤ e) (he : e ≤ eps) (hu0 : 0 ≤ u)
    (hu : u ≤ 1 / 1000) (ht : t ≤ u) (hf : |f - eps / l| ≤ u * |eps / l| + t) (hmin : 120 * u ≤ e / (2 * LN)) : e / (2 * LN) ≤ f := by
  obtain ⟨a1, a2⟩ := abs_le.1 hl
  have hb : β * L ≤ 1 / 100 * L := mul_le_mul_of_nonneg_right hβ (by linarith)
  have hl0 : 1 / 2 ≤ l := by linarith
  have hl1 : l ≤ 102 / 100 * LN := by linarith
  have hq : e / (102 / 100 * LN) ≤ eps / l := div_le_div₀ (by linarith) he (by linarith) hl1
  have hq0 : 0 ≤ eps / l := div_nonneg (by linarith) (by linarith)
  rw [abs_of_nonneg hq0] at hf
  have hf1 := (abs_le.1 hf).1
  have hLN0 : LN ≠ 0 := by linarith
  have e1 : e / (102 / 100 * LN) = (200 / 102) * (e / (2 * LN)) := by
    field_simp
    ring
  rw [e1] at hq
  generalize e / (2 * LN) = x at *
  generalize eps / l = q at *
  have h5 : u * q ≤ 1 / 1000 * q := mul_le_mul_of_nonneg_right hu hq0
  linarith

/-- The weight of exploration, computed. -/
theorem lambda_low (hlog : AccurateLog lg β) (hβ0 : 0 ≤ β) (hβ : β ≤ 1 / 100) (E : FpExploring cfg n N η) (hn : 1 ≤ n) (hη : 0 ≤ η) (hN : N ≤ 2 ^ 50) (v : View S A X Y)
    (h0 : 0 < v.visits) (h1 : v.visits ≤ N) :
    IsDouble (mentsLambda lg cfg v) ∧ mentsLambda lg cfg v ≤ 1 ∧ exploreLow cfg N ≤ mentsLambda lg cfg v := by
  have hu : (0 : ℝ) < unit := by exact_mod_cast unit_pos
  have hti : (0 : ℝ) < tiny := by exact_mod_cast tiny_pos
  have hlow := E.low hn hη
  unfold mentsLambda
  rw [if_neg (by omega)]
  generalize he : (if v.depth = 0 ∧ cfg.rootEpsilon > 0 then cfg.rootEpsilon else cfg.epsilon) = eps
  have hme : minEpsF cfg ≤ eps := he ▸ minEpsF_le cfg v
  have hme0 := E.nonneg_eps
  unfold exploreProb
  try dsimp only
  split
  · refine ⟨E.max.1, E.max.2, ?_⟩
    unfold exploreLow
    exact min_le_right _ _
  · next hx =>
    refine ⟨isDouble_fl _, le_trans (not_lt.1 hx) E.max.2, ?_⟩
    refine le_trans (min_le_left _ _) ?_
    have hvR : (1 : ℝ) ≤ v.visits := by exact_mod_cast h0
    have hvN : (v.visits : ℝ) ≤ N := by exact_mod_cast h1
    have hdb : IsDouble ((v.visits : ℚ) + 1) := by
      have := isDouble_nat (n := v.visits + 1) (by omega)
      push_cast at this
      exact this
    obtain ⟨_, hl⟩ := hlog ((v.visits : ℚ) + 1) (by linarith [show (0 : ℚ) ≤ v.visits by positivity]) hdb
    push_cast at hl
    have hl2 : (69 / 100 : ℝ) ≤ Real.log ((v.visits : ℝ) + 1) := by
      have := Real.log_le_log (by norm_num) (show (2 : ℝ) ≤ (v.visits : ℝ) + 1 by linarith)
      have h3 := Real.log_two_gt_d9
      norm_num at h3
      linarith
    have hlN : Real.log ((v.visits : ℝ) + 1) ≤ Real.log ((N : ℝ) + 1) := Real.log_le_log (by linarith) (by linarith)
    have htu : (tiny : ℝ) ≤ unit := by
      have h := tiny_le_unit
      have h2 : unit * unit ≤ unit := by
        have : unit ≤ 1 := by rw [unit_eq]; norm_num
        have h3 := unit_pos
        calc unit * unit ≤ unit * 1 := mul_le_mul_of_nonneg_left this h3.le
          _ = unit := mul_one _
      exact_mod_cast le_trans h h2
    have hu1 : (unit : ℝ) ≤ 1 / 1000 := by
      have h : unit ≤ 1 / 1000 := by rw [unit_eq]; norm_num
      have := (Rat.cast_le (K := ℝ)).2 h
      push_cast at this
      exact this
    have hfl := (Rat.cast_le (K := ℝ)).2 (fl_err' (eps / lg ((v.visits : ℚ) + 1)))
    push_cast at hfl
    have hmin : 120 * (unit : ℝ) ≤ minEpsF cfg / (2 * Real.log (N + 1)) := by
      refine le_trans hlow ?_
      unfold exploreLow
      exact min_le_left _ _
    exact lambda_real hβ hl2 hlN hl (by exact_mod_cast hme0) (by exact_mod_cast hme) hu.le hu1 htu hfl hmin

theorem length_softQs (cfg : MentsCfg) (py : Y → SoftF) (v : View S A X Y) : (softQs cfg py v).length = v.actions.length := by simp [softQs]

/-- Every action has its share of the draws, and few draws fail. -/
theorem fp_select {us : List ℚ} (G : GoodMath ex lg α β) (F : ∀ h, trialsBegun h ≤ N → SoftFits env m cfg lr ρ M K n D α β dp h) (hKN : K * N ≤ 2 ^ 50) (hN : N ≤ 2 ^ 50)
    (hv : alg.Valid) (H : HasFpSoft alg px py ex lg cfg lr)
    (htb : Leftover tb) (U : EvenDraws us η) (E : FpExploring cfg n N η) (hl : env.Live)
    {iter : View S A X Y → List (A × ℚ) → List (A × ℚ)} (hit : ∀ v l, List.Perm (iter v l) l)
    (hr : Reachable env m alg k s0 dp tm tb st h) (h0 : alg.initVisits = 0) (hb : trialsBegun h ≤ N) {w cur : Nat} {path : List (Nat × Nat)} {rs : List ℚ} {new : Bool} {nd : DNode S A ℚ X}
    (hw : st.ws[w]? = some (.sel cur path rs new)) (hd : st.dn[cur]? = some nd) (hs : shouldContinue env m nd new = true) {v : View S A X Y}
    (hvv : v = viewOf env m st { nd with visits := nd.visits + 1, x := alg.visitD false nd.x }) :
    (∀ a ∈ env.actions nd.state, fpExplore cfg n N ≤
      share us fun u => selectMents ex cfg.temp cfg.low (mentsLambda lg cfg v) (iter v) (softQs cfg py v) u = .key a) ∧
    1 - failRate n η ≤ share us fun u => ∃ a ∈ env.actions nd.state,
      selectMents ex cfg.temp cfg.low (mentsLambda lg cfg v) (iter v) (softQs cfg py v) u = .key a := by
    have F0 := F h hb
    have hη := U.nonneg
    have hva : v.actions = env.actions nd.state := by rw [hvv]; rfl
    have hvis : v.visits ≤ N := by
      have := visits_lt_of_sel hv htb hr hw hd
      rw [hvv]
      simp only [viewOf]
      omega
    have hpos : 0 < v.visits := by rw [hvv]; exact Nat.succ_pos _
    have hne : v.actions ≠ [] := by rw [hva]; exact hl.acts _ (cont_notSink hs)
    have hlen1 : 1 ≤ v.actions.length := List.length_pos_of_ne_nil hne
    have hlenn : v.actions.length ≤ n := by rw [hva]; exact F0.acts _
    have hn1 : 1 ≤ n := le_trans hlen1 hlenn
    obtain ⟨l1, l2, l3⟩ := lambda_low G.logErr G.β.1 G.β.2 E hn1 hη hN v hpos hvis
    have hlenR : (v.actions.length : ℝ) ≤ n := by exact_mod_cast hlenn
    have hlenR1 : (1 : ℝ) ≤ v.actions.length := by exact_mod_cast hlen1
    have huR : (0 : ℝ) < unit := by exact_mod_cast unit_pos
    have hbig : ((softQs cfg py v).length * (48 * (softQs cfg py v).length + 72) * unit + 4 * (softQs cfg py v).length * η : ℝ) ≤ mentsLambda lg cfg v := by
      rw [length_softQs]
      refine le_trans ?_ (le_trans E.big l3)
      have e1 : (v.actions.length : ℝ) * (48 * v.actions.length + 72) ≤ n * (48 * n + 72) := mul_le_mul hlenR (by linarith) (by linarith) (by linarith)
      have e2 := mul_le_mul_of_nonneg_right e1 huR.le
      have e3 := mul_le_mul_of_nonneg_right hlenR hη
      linarith
    have hlow : ∀ p ∈ softQs cfg py v, cfg.low ≤ fdiv p.2 cfg.temp := by
      intro p hp
      have hpM : |p.2| ≤ M := by
        rw [hvv] at hp
        exact softQs_bounded G F hKN hv H htb hr hb hd p hp
      have hB2 : M / cfg.temp ≤ 10 ^ 6 := by rw [div_le_iff₀ F0.temp.2]; exact F0.below
      have hmill : IsDouble (-10 ^ 6 : ℚ) := by decide +kernel
      have h1 : -(M / cfg.temp) ≤ p.2 / cfg.temp := by
        rw [← neg_div]
        exact div_le_div_of_nonneg_right (abs_le.1 hpM).1 F0.temp.2.le
      have h2 : fl (-10 ^ 6 : ℚ) ≤ fl (p.2 / cfg.temp) := fl_mono (by linarith)
      rw [show fl (-10 ^ 6 : ℚ) = -10 ^ 6 from hmill] at h2
      exact le_trans F0.low h2
    have hkeys : (softQs cfg py v).map Prod.fst = v.actions := by simp [softQs, Function.comp_def]
    obtain ⟨s1, s2⟩ := ments_share U G.exp (temp := cfg.temp) (low := cfg.low) (qs := softQs cfg py v) (by simpa [softQs] using hne) hlow
      (by rw [length_softQs]; exact le_trans hlenn E.few) l1 l2 hbig (hit v)
    rw [hkeys, length_softQs] at s1 s2
    rw [← hva]
    refine ⟨fun a ha => le_trans ?_ (s1 a ha), le_trans ?_ s2⟩
    · unfold fpExplore
      have hpos' : (0 : ℝ) ≤ exploreLow cfg N := le_trans (by positivity) (E.low hn1 hη)
      exact div_le_div₀ (le_trans hpos' l3) l3 (by linarith) (by linarith)
    · unfold failRate
      have := mul_le_mul_of_nonneg_right hlenR huR.le
      linarith

/-- They explore, and selections fail with probability at most `failRate`. -/
theorem fp_explores {us : List ℚ} (G : GoodMath ex lg α β) (F : ∀ h, trialsBegun h ≤ N → SoftFits env m cfg lr ρ M K n D α β dp h) (hKN : K * N ≤ 2 ^ 50) (hN : N ≤ 2 ^ 50)
    (hv : alg.Valid) (H : HasFpSoft alg px py ex lg cfg lr) (h0 : alg.initVisits = 0) (hcan : ∀ v ctx a, alg.canSelect v ctx a = mentsCanSelect ex lg cfg py v a)
    (htb : Leftover tb) (U : EvenDraws us η) (E : FpExploring cfg n N η) (hl : env.Live) (hnd : ∀ s, (env.actions s).Nodup)
    {iter : View S A X Y → List (A × ℚ) → List (A × ℚ)} (hit : ∀ v l, List.Perm (iter v l) l) {obs : S → A → List (S × ℝ)} {po : ℝ}
    (hobs : ∀ s a, env.isSink s = false → a ∈ env.actions s →
      Eval.IsDistr (obs s a) ∧ (∀ p ∈ obs s a, p.2 ≠ 0 → p.1 ∈ env.succ s a) ∧ ∀ o ∈ env.succ s a, po ≤ Spec.weightOf (obs s a) o) :
    LossyExplores env m alg (fpDice us ex lg cfg py iter obs) k s0 dp tm tb N (fpExplore cfg n N) po (failRate n η) where
  obs := hobs
  sel := by
    intro st h w cur path rs new nd hr hb hw hd hs v
    obtain ⟨s1, s2⟩ := fp_select G F hKN hN hv H htb U E hl hit hr h0 hb hw hd hs (v := v) rfl
    have hndv : v.actions.Nodup := hnd _
    have hsum := share_sum (us := us) (fun u => selectMents ex cfg.temp cfg.low (mentsLambda lg cfg v) (iter v) (softQs cfg py v) u) (l := v.actions) Draw.key
      (fun a b hab => by cases hab; rfl) hndv
    have hmass : Spec.mass ((fpDice us ex lg cfg py iter obs).sel v (st.ctxOf w)) =
        (v.actions.map fun a => share us fun u => selectMents ex cfg.temp cfg.low (mentsLambda lg cfg v) (iter v) (softQs cfg py v) u = .key a).sum := by
      unfold Spec.mass fpDice
      simp only [List.map_map]
      rfl
    refine ⟨?_, ?_, ?_, ?_, ?_⟩
    · intro p hp
      obtain ⟨a, _, rfl⟩ := List.mem_map.1 hp
      exact share_nonneg _ _
    · show Spec.mass ((fpDice us ex lg cfg py iter obs).sel v (st.ctxOf w)) ≤ 1
      rw [hmass, hsum]
      exact share_le_one _ _
    · show 1 - failRate n η ≤ Spec.mass ((fpDice us ex lg cfg py iter obs).sel v (st.ctxOf w))
      rw [hmass, hsum]
      exact s2
    · intro p hp hp0
      obtain ⟨a, _, rfl⟩ := List.mem_map.1 hp
      obtain ⟨u, hu, hsel⟩ := share_ne_zero hp0
      obtain ⟨g1, g2, g3⟩ := U.range u hu
      rw [hcan]
      unfold mentsCanSelect
      rw [@decide_eq_true_eq _ (Classical.propDecidable _)]
      exact ⟨u, iter v, g2, g3, g1, hit v, hsel⟩
    · intro a ha
      show _ ≤ Spec.weightOf (v.actions.map fun a => (a, share us fun u =>
        selectMents ex cfg.temp cfg.low (mentsLambda lg cfg v) (iter v) (softQs cfg py v) u = .key a)) a
      rw [weightOf_map hndv _ ha]
      exact s1 a ha

theorem share_not {us : List ℚ} (h : us ≠ []) (P : ℚ → Prop) : share us (fun u => ¬ P u) = 1 - share us P := by
  classical
  unfold share
  have hl : (us.length : ℝ) ≠ 0 := by simpa using h
  rw [eq_sub_iff_add_eq, ← add_div, div_eq_one_iff_eq hl]
  have := List.length_eq_countP_add_countP (fun u => @decide (P u) (Classical.propDecidable _)) (l := us)
  rw [this]
  push_cast
  rw [add_comm]
  congr 2
  refine List.countP_congr fun u _ => ?_
  simp

theorem fpExplore_range (E : FpExploring cfg n N η) (hη : 0 ≤ η) : 0 ≤ fpExplore cfg n N ∧ fpExplore cfg n N ≤ 1 := by
  unfold fpExplore
  rcases Nat.eq_zero_or_pos n with rfl | hn
  · simp
  have h1 := E.low hn hη
  have hu : (0 : ℝ) < unit := by exact_mod_cast unit_pos
  have h2 : exploreLow cfg N ≤ 1 := le_trans (min_le_right _ _) (by exact_mod_cast E.max.2)
  have h3 : (1 : ℝ) ≤ n := by exact_mod_cast hn
  refine ⟨div_nonneg (by linarith) (by linarith), ?_⟩
  rw [div_le_one (by linarith)]
  linarith

theorem failRate_lt (hn : n ≤ 800) (hη : η ≤ 1 / 2) : failRate n η < 1 := by
  unfold failRate
  have h1 : ((unit : ℚ) : ℝ) ≤ 1 / 10 ^ 9 := by
    have h : unit ≤ 1 / 10 ^ 9 := by rw [unit_eq]; norm_num
    have := (Rat.cast_le (K := ℝ)).2 h
    push_cast at this
    exact this
  have h2 : (n : ℝ) ≤ 800 := by exact_mod_cast hn
  have h3 : (5 * (n : ℝ) + 9) * unit ≤ (5 * 800 + 9) * (1 / 10 ^ 9) := mul_le_mul (by linarith) h1 (by exact_mod_cast unit_pos.le) (by norm_num)
  norm_num at *
  linarith

end Verif.Fp
