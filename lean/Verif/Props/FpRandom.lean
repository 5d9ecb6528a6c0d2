import Verif.Proofs.FpExplores
import Verif.Proofs.FpGrid
import Verif.Model.FpDbMents
import Verif.Props.FpSearch
import Verif.Props.FpSoftTree
import Verif.Props.RandomSearch
import Mathlib.Analysis.SpecialFunctions.Log.Basic

/-! # C98: whole random searches with doubles -/

set_option linter.unusedSectionVars false
set_option linter.unusedSimpArgs false

namespace Verif.Fp

open Verif.Search Verif.Backups Verif.Props Verif.Random
open Verif.Sampling (Draw)
open Verif.Uct (IterOk)
open Verif.Ments (sgn)

section
variable {S A X Y : Type} [DecidableEq S] [DecidableEq A]
  {env : Env S A ℚ} {m : Manager S ℚ} {alg : Alg S A ℚ X Y} {px : X → SoftF} {py : Y → SoftF} {ex lg : ℚ → ℚ} {cfg : MentsCfg} {lr : S → A → ℚ}
  {k : Nat} {s0 : S} {dp tm : Int} {tb : List ((Int × S) × Option Nat)} {st : St S A ℚ X Y} {h : List (Event S A ℚ)}
  {ρ M : ℚ} {K n D N : Nat} {α β η po : ℝ} {us : List ℚ} {iter : View S A X Y → List (A × ℚ) → List (A × ℚ)} {obs : S → A → List (S × ℝ)}
  {sched : Scheduler S A ℚ} {next : S → A → S}

/-- C98.  With doubles too, every action has at least the probability `fpExplore` whenever an action is selected in the first `N` trials, and a selection throws with
probability at most `failRate`.  For MENTS and all algorithms that select as MENTS does. -/
theorem c98_explores (G : GoodMath ex lg α β) (F : ∀ h, trialsBegun h ≤ N → SoftFits env m cfg lr ρ M K n D α β dp h) (hKN : K * N ≤ 2 ^ 50) (hN : N ≤ 2 ^ 50)
    (hv : alg.Valid) (H : HasFpSoft alg px py ex lg cfg lr) (h0 : alg.initVisits = 0)
    (htb : Leftover tb) (U : EvenDraws us η) (E : FpExploring cfg n N η) (hl : env.Live) (hit : ∀ v l, List.Perm (iter v l) l)
    (hr : Reachable env m alg k s0 dp tm tb st h) (hb : trialsBegun h ≤ N) {w cur : Nat} {path : List (Nat × Nat)} {rs : List ℚ} {new : Bool} {nd : DNode S A ℚ X}
    (hw : st.ws[w]? = some (.sel cur path rs new)) (hd : st.dn[cur]? = some nd) (hs : shouldContinue env m nd new = true) :
    let v := viewOf env m st { nd with visits := nd.visits + 1, x := alg.visitD false nd.x }
    let select := fun u => selectMents ex cfg.temp cfg.low (mentsLambda lg cfg v) (iter v) (softQs cfg py v) u
    (∀ a ∈ env.actions nd.state, fpExplore cfg n N ≤ share us fun u => select u = .key a) ∧
    share us (fun u => ¬ ∃ a ∈ env.actions nd.state, select u = .key a) ≤ failRate n η := by
  intro v select
  obtain ⟨s1, s2⟩ := fp_select G F hKN hN hv H htb U E hl hit hr h0 hb hw hd hs (v := v) rfl
  refine ⟨s1, ?_⟩
  rw [share_not U.ne]
  linarith

theorem prob_mono_begun {alg : Alg S A ℚ X Y} {Dc : Dice S A ℚ X Y} {pa : ℝ} (hv : alg.Valid) (htb : Leftover tb) (ht : TableOk m tb)
    (hX : Explores env m alg Dc k s0 dp tm tb N pa po) {steps : Nat}
    {P Q : St S A ℚ X Y → List (Event S A ℚ) → Prop} (hPQ : ∀ st h, Reachable env m alg k s0 dp tm tb st h → trialsBegun h ≤ N → P st h → Q st h) :
    probAfter env m alg Dc k s0 dp tm tb N sched steps P ≤ probAfter env m alg Dc k s0 dp tm tb N sched steps Q := by
  classical
  unfold probAfter
  refine expect_le hv htb ht hX (fun st h hr hb => ?_) steps reach_start (by simp [trialsBegun])
  by_cases hP : P st h
  · simp [hP, hPQ st h hr hb hP]
  · rw [if_neg hP]
    split <;> norm_num

/-- C98.  With the stated probability the search ends, nothing has been thrown, and every action of every node that is not a leaf has been tried; and whatever follows
from that for the states a search can be in holds with this probability. -/
theorem c98_exhausts (G : GoodMath ex lg α β) (F : ∀ h, trialsBegun h ≤ N → SoftFits env m cfg lr ρ M K n D α β dp h) (hKN : K * N ≤ 2 ^ 50) (hN : N ≤ 2 ^ 50)
    (hv : alg.Valid) (H : HasFpSoft alg px py ex lg cfg lr) (h0 : alg.initVisits = 0) (hcan : ∀ v ctx a, alg.canSelect v ctx a = mentsCanSelect ex lg cfg py v a)
    (htb : Leftover tb) (ht : TableOk m tb) (U : EvenDraws us η) (hη : η ≤ 1 / 2) (E : FpExploring cfg n N η) (hl : env.Live) (hnd : ∀ s, (env.actions s).Nodup)
    (hit : ∀ v l, List.Perm (iter v l) l)
    (hobs : ∀ s a, env.isSink s = false → a ∈ env.actions s →
      Eval.IsDistr (obs s a) ∧ (∀ p ∈ obs s a, p.2 ≠ 0 → p.1 ∈ env.succ s a) ∧ ∀ o ∈ env.succ s a, po ≤ Spec.weightOf (obs s a) o)
    (hpo : 0 ≤ po ∧ po ≤ 1) (hdp : dp ≤ m.maxDepth) (hk : 0 < k) (hsch : Productive env m alg k s0 dp tm tb N sched) {steps : Nat}
    (hn : (4 * (m.maxDepth - dp).toNat + 4) * N ≤ steps) {Q : St S A ℚ X Y → List (Event S A ℚ) → Prop}
    (hQ : ∀ st h, Reachable env m alg k s0 dp tm tb st h → trialsBegun h ≤ N → Finished N st h → Exhausted env m st → Q st h) :
    1 - (plays env (m.maxDepth - dp).toNat s0).length * missBound (fpExplore cfg n N * po) (m.maxDepth - dp).toNat N - steps * failRate n η ≤
    probAfter env m alg (fpDice us ex lg cfg py iter obs) k s0 dp tm tb N sched steps (fun st h => Finished N st h ∧ Q st h) := by
  have hη0 := U.nonneg
  have hX := fp_explores (k := k) (s0 := s0) (tm := tm) G F hKN hN hv H h0 hcan htb U E hl hnd hit hobs
  have hφ0 : 0 ≤ failRate n η := by
    unfold failRate
    have : (0 : ℝ) ≤ unit := by exact_mod_cast unit_pos.le
    positivity
  have hφ := failRate_lt E.few hη
  have hf := filled_explores hX hφ
  refine le_trans ?_ (lossy_prob hv htb ht hX hφ0 hφ steps _)
  refine sub_le_sub_right (le_trans (c77_everything_found hv htb ht hf (fpExplore_range E hη0) hpo hdp hk hsch hn) ?_) _
  refine prob_mono_begun hv htb ht hf ?_
  rintro st h hr hb ⟨h1, h2⟩
  refine ⟨h1, hQ st h hr hb h1 fun d nd hd hleaf a ha => ?_⟩
  obtain ⟨c, hc, _⟩ := c77_complete hl hv htb hr h2 hd hleaf ha
  exact ⟨c, hc⟩

theorem certain_okF (hdet : ∀ s a, a ∈ env.actions s → env.succ s a = [next s a]) : ∀ s a, env.isSink s = false → a ∈ env.actions s →
    Eval.IsDistr (certain next s a) ∧ (∀ p ∈ certain next s a, p.2 ≠ 0 → p.1 ∈ env.succ s a) ∧ ∀ o ∈ env.succ s a, (1 : ℝ) ≤ Spec.weightOf (certain next s a) o := by
  intro s a _ ha
  refine ⟨⟨by simp [certain], by simp [certain]⟩, ?_, ?_⟩
  · intro p hp _
    simp only [certain, List.mem_singleton] at hp
    subst hp
    simp [hdet s a ha]
  · intro o ho
    rw [hdet s a ha, List.mem_singleton] at ho
    subst ho
    simp [certain, Spec.weightOf]

/-- C98.  A MENTS search (or one of any algorithm with MENTS's soft values and selection) of a deterministic game: with the stated probability all trials are over, nothing
has been thrown, the root's soft value is near the value of the game, and every recommended action is near optimal. -/
theorem c98_solves (G : GoodMath ex lg α β) (F : ∀ h, trialsBegun h ≤ N → SoftFits env m cfg lr ρ M K n D α β dp h) (hKN : K * N ≤ 2 ^ 50) (hN : N ≤ 2 ^ 50)
    (hdet : ∀ s a, a ∈ env.actions s → env.succ s a = [next s a]) (hlr : ∀ s a, a ∈ env.actions s → lr s a = env.reward s a (next s a))
    (hv : alg.Valid) (H : HasFpSoft alg px py ex lg cfg lr) (hvis : ∀ x, alg.visitD false x = x) (h0 : alg.initVisits = 0)
    (hcan : ∀ v ctx a, alg.canSelect v ctx a = mentsCanSelect ex lg cfg py v a) (hu : m.useTable = false)
    (htb : Leftover tb) (U : EvenDraws us η) (hη : η ≤ 1 / 2) (E : FpExploring cfg n N η) (hl : env.Live) (hnd : ∀ s, (env.actions s).Nodup)
    (hit : ∀ v l, List.Perm (iter v l) l) (hdp : dp < m.maxDepth) (hs0 : env.isSink s0 = false) (hth : cfg.threshold ≤ 1) {ε : ℝ}
    (hε : ε = remaining m dp * softError K n cfg.temp M α β + remaining m (dp + 1) * (cfg.temp * Real.log n))
    (hlow : ∀ a ∈ env.actions s0, cfg.low + ε ≤ sgn (isOpponent m tm) * moveValue env m next (remaining m (dp + 1)) tm s0 a)
    (hk : 0 < k) (hsch : Productive env m alg k s0 dp tm tb N sched) {steps : Nat} (hn : (4 * (m.maxDepth - dp).toNat + 4) * N ≤ steps) :
    1 - (plays env (m.maxDepth - dp).toNat s0).length * missBound (fpExplore cfg n N) (m.maxDepth - dp).toNat N - steps * failRate n η ≤
    probAfter env m alg (fpDice us ex lg cfg py iter (certain next)) k s0 dp tm tb N sched steps (fun st h => Finished N st h ∧
      (∃ v, softDF px st st.root = some v ∧
        |(v : ℝ) - gameValue env m next (remaining m dp) tm s0| ≤ remaining m dp * (softError K n cfg.temp M α β + cfg.temp * Real.log n)) ∧
      ∀ nd, st.dn[st.root]? = some nd → ∀ (raw : Nat) (it : List (A × ℚ) → List (A × ℚ)), IterOk it →
        ∃ a ∈ env.actions s0, recommendSoftF cfg py (viewOf env m st nd) raw it = some a ∧ ∀ b ∈ env.actions s0,
          sgn (isOpponent m tm) * (moveValue env m next (remaining m (dp + 1)) tm s0 b : ℝ) ≤
            sgn (isOpponent m tm) * moveValue env m next (remaining m (dp + 1)) tm s0 a + 2 * ε) := by
  have ht : TableOk m tb := fun h => by rw [hu] at h; exact absurd h (by simp)
  have := c98_exhausts (k := k) (s0 := s0) (tm := tm) G F hKN hN hv H h0 hcan htb ht U hη E hl hnd hit (certain_okF hdet) ⟨zero_le_one, le_rfl⟩ hdp.le hk hsch hn
    (Q := fun st h => (∃ v, softDF px st st.root = some v ∧
        |(v : ℝ) - gameValue env m next (remaining m dp) tm s0| ≤ remaining m dp * (softError K n cfg.temp M α β + cfg.temp * Real.log n)) ∧
      ∀ nd, st.dn[st.root]? = some nd → ∀ (raw : Nat) (it : List (A × ℚ) → List (A × ℚ)), IterOk it →
        ∃ a ∈ env.actions s0, recommendSoftF cfg py (viewOf env m st nd) raw it = some a ∧ ∀ b ∈ env.actions s0,
          sgn (isOpponent m tm) * (moveValue env m next (remaining m (dp + 1)) tm s0 b : ℝ) ≤
            sgn (isOpponent m tm) * moveValue env m next (remaining m (dp + 1)) tm s0 a + 2 * ε) ?_
  · rwa [mul_one] at this
  · intro st h hr hb hf hx
    obtain ⟨nr, g1, g2, g3, g4⟩ := root_node (reach_inv hv htb hr).tree
    constructor
    · have := c94_game_value G (F h hb) hdet hlr hl.acts hv H hvis hu htb hr hf.1 hx g1
      rwa [g2, g3, g4] at this
    · intro nd hd raw it hi
      rw [hd] at g1
      obtain rfl := Option.some.inj g1
      have := c94_recommends G (F h hb) hdet hlr hl.acts hv H hvis hu htb hr hf.1 hx hd (by simp [isLeaf, g2, g3, hs0, hdp]) hth (ε := ε)
        (by rw [g3]; exact hε) (by rw [g2, g3, g4]; exact hlow) raw hi
      rwa [g2, g3, g4] at this

/-- C98 for MENTS. -/
theorem c98_ments_solves {iter : View S A SoftF SoftF → List (A × ℚ) → List (A × ℚ)} (G : GoodMath ex lg α β)
    (F : ∀ h, trialsBegun h ≤ N → SoftFits env m cfg lr ρ M K n D α β dp h) (hKN : K * N ≤ 2 ^ 50) (hN : N ≤ 2 ^ 50)
    (hdet : ∀ s a, a ∈ env.actions s → env.succ s a = [next s a]) (hlr : ∀ s a, a ∈ env.actions s → lr s a = env.reward s a (next s a)) (hu : m.useTable = false)
    (htb : Leftover tb) (U : EvenDraws us η) (hη : η ≤ 1 / 2) (E : FpExploring cfg n N η) (hl : env.Live) (hnd : ∀ s, (env.actions s).Nodup)
    (hit : ∀ v l, List.Perm (iter v l) l) (hdp : dp < m.maxDepth) (hs0 : env.isSink s0 = false) (hth : cfg.threshold ≤ 1) {ε : ℝ}
    (hε : ε = remaining m dp * softError K n cfg.temp M α β + remaining m (dp + 1) * (cfg.temp * Real.log n))
    (hlow : ∀ a ∈ env.actions s0, cfg.low + ε ≤ sgn (isOpponent m tm) * moveValue env m next (remaining m (dp + 1)) tm s0 a)
    (hk : 0 < k) (hsch : Productive env m (ments ex lg cfg lr) k s0 dp tm tb N sched) {steps : Nat} (hn : (4 * (m.maxDepth - dp).toNat + 4) * N ≤ steps) :
    1 - (plays env (m.maxDepth - dp).toNat s0).length * missBound (fpExplore cfg n N) (m.maxDepth - dp).toNat N - steps * failRate n η ≤
    probAfter env m (ments ex lg cfg lr) (fpDice us ex lg cfg id iter (certain next)) k s0 dp tm tb N sched steps (fun st h => Finished N st h ∧
      (∃ v, softDF id st st.root = some v ∧
        |(v : ℝ) - gameValue env m next (remaining m dp) tm s0| ≤ remaining m dp * (softError K n cfg.temp M α β + cfg.temp * Real.log n)) ∧
      ∀ nd, st.dn[st.root]? = some nd → ∀ (raw : Nat) (it : List (A × ℚ) → List (A × ℚ)), IterOk it →
        ∃ a ∈ env.actions s0, recommendSoftF cfg id (viewOf env m st nd) raw it = some a ∧ ∀ b ∈ env.actions s0,
          sgn (isOpponent m tm) * (moveValue env m next (remaining m (dp + 1)) tm s0 b : ℝ) ≤
            sgn (isOpponent m tm) * moveValue env m next (remaining m (dp + 1)) tm s0 a + 2 * ε) :=
  c98_solves G F hKN hN hdet hlr (ments_valid ex lg cfg lr) (ments_hasFpSoft ex lg cfg lr) (fun _ => rfl) rfl (fun _ _ _ => rfl) hu htb U hη E hl hnd hit hdp hs0 hth hε hlow hk
    hsch hn

/-- DB-MENTS with doubles only selects valid actions. -/
theorem dbmentsF_valid (ex lg : ℚ → ℚ) (cfg : MentsCfg) (lr : S → A → ℚ) : (dbmentsF ex lg cfg lr).Valid := by
  intro v ctx a h
  have h' : mentsCanSelect ex lg cfg DBF.soft v a = true := h
  unfold mentsCanSelect at h'
  obtain ⟨u, iter, _, _, _, hp, hs⟩ := @of_decide_eq_true _ (Classical.propDecidable _) h'
  unfold selectMents sampleFrom at hs
  have := sampleLoop_mem hs
  rw [(hp _).map Prod.fst |>.mem_iff] at this
  obtain ⟨p, hp1, rfl⟩ := List.mem_map.1 this
  have hp2 := (List.mem_filter.1 hp1).1
  unfold mixture mixtureW actionWeights softQs at hp2
  simp only [List.map_map, List.mem_map, Function.comp_def] at hp2
  obtain ⟨b, hb, rfl⟩ := hp2
  exact hb

theorem dbmentsF_hasFpSoft (ex lg : ℚ → ℚ) (cfg : MentsCfg) (lr : S → A → ℚ) : HasFpSoft (dbmentsF ex lg cfg lr) DBF.soft DBF.soft ex lg cfg lr :=
  ⟨fun _ _ _ _ => rfl, fun _ _ _ _ => rfl, fun _ _ => rfl, fun _ => rfl, fun _ _ _ => rfl, fun _ _ _ _ _ => rfl⟩

theorem dbmentsF_hasFpDp (ex lg : ℚ → ℚ) (cfg : MentsCfg) (lr : S → A → ℚ) : HasFpDp (dbmentsF ex lg cfg lr) DBF.dp DBF.dp lr :=
  ⟨fun _ _ _ _ => rfl, fun _ _ _ _ => rfl, fun _ _ => rfl, fun _ => rfl, fun _ _ _ => rfl, fun _ _ _ _ _ => rfl⟩

/-- C98 for DB-MENTS: the DP value of the root is the value of the game up to rounding errors, and the recommended action is optimal up to rounding errors. -/
theorem c98_dbments_solves {iter : View S A DBF DBF → List (A × ℚ) → List (A × ℚ)} (G : GoodMath ex lg α β)
    (F : ∀ h, trialsBegun h ≤ N → SoftFits env m cfg lr ρ M K n D α β dp h) (F2 : ∀ h, trialsBegun h ≤ N → FpFits env m lr ρ K D dp h) (hKN : K * N ≤ 2 ^ 50) (hN : N ≤ 2 ^ 50)
    (hdet : ∀ s a, a ∈ env.actions s → env.succ s a = [next s a]) (hlr : ∀ s a, a ∈ env.actions s → lr s a = env.reward s a (next s a)) (hu : m.useTable = false)
    (htb : Leftover tb) (U : EvenDraws us η) (hη : η ≤ 1 / 2) (E : FpExploring cfg n N η) (hl : env.Live) (hnd : ∀ s, (env.actions s).Nodup)
    (hit : ∀ v l, List.Perm (iter v l) l) (hdp : dp < m.maxDepth) (hs0 : env.isSink s0 = false) (hth : cfg.threshold ≤ 1)
    (hlow : ∀ a ∈ env.actions s0, cfg.low + remaining m dp * dpError K D ρ ≤
      (if isOpponent m tm then -1 else 1) * moveValue env m next (remaining m (dp + 1)) tm s0 a)
    (hk : 0 < k) (hsch : Productive env m (dbmentsF ex lg cfg lr) k s0 dp tm tb N sched) {steps : Nat} (hn : (4 * (m.maxDepth - dp).toNat + 4) * N ≤ steps) :
    1 - (plays env (m.maxDepth - dp).toNat s0).length * missBound (fpExplore cfg n N) (m.maxDepth - dp).toNat N - steps * failRate n η ≤
    probAfter env m (dbmentsF ex lg cfg lr) (fpDice us ex lg cfg DBF.soft iter (certain next)) k s0 dp tm tb N sched steps (fun st h => Finished N st h ∧
      (∃ v, valD DBF.dp st st.root = some v ∧ |v - gameValue env m next (remaining m dp) tm s0| ≤ remaining m dp * dpError K D ρ) ∧
      ∀ nd, st.dn[st.root]? = some nd → ∀ (raw : Nat) (it : List (A × ℚ) → List (A × ℚ)), IterOk it →
        ∃ a ∈ env.actions s0, recommendDpF cfg DBF.dp (viewOf env m st nd) raw it = some a ∧
          NearBest env m next (remaining m (dp + 1)) tm s0 a (2 * (remaining m dp * dpError K D ρ))) := by
  have ht : TableOk m tb := fun h => by rw [hu] at h; exact absurd h (by simp)
  have hv := dbmentsF_valid ex lg cfg lr
  have H := dbmentsF_hasFpDp ex lg cfg lr
  have := c98_exhausts (k := k) (s0 := s0) (tm := tm) G F hKN hN hv (dbmentsF_hasFpSoft ex lg cfg lr) rfl (fun _ _ _ => rfl) htb ht U hη E hl hnd hit (certain_okF hdet)
    ⟨zero_le_one, le_rfl⟩ hdp.le hk hsch hn
    (Q := fun st h => (∃ v, valD DBF.dp st st.root = some v ∧ |v - gameValue env m next (remaining m dp) tm s0| ≤ remaining m dp * dpError K D ρ) ∧
      ∀ nd, st.dn[st.root]? = some nd → ∀ (raw : Nat) (it : List (A × ℚ) → List (A × ℚ)), IterOk it →
        ∃ a ∈ env.actions s0, recommendDpF cfg DBF.dp (viewOf env m st nd) raw it = some a ∧
          NearBest env m next (remaining m (dp + 1)) tm s0 a (2 * (remaining m dp * dpError K D ρ))) ?_
  · rwa [mul_one] at this
  · intro st h hr hb hf hx
    obtain ⟨nr, g1, g2, g3, g4⟩ := root_node (reach_inv hv htb hr).tree
    constructor
    · have := c91_game_value (F2 h hb) hdet hlr hl.acts hv H (fun _ => rfl) hu htb hr hf.1 hx g1
      rwa [g2, g3, g4] at this
    · intro nd hd raw it hi
      rw [hd] at g1
      obtain rfl := Option.some.inj g1
      have := c91_recommends (F2 h hb) hdet hlr hl.acts hv H (fun _ => rfl) hu htb hr hf.1 hx hd (by simp [isLeaf, g2, g3, hs0, hdp]) (low := cfg.low) hth
        (by rw [g2, g3, g4]; exact hlow) raw hi
      rw [g2, g3, g4] at this
      exact this

end

/-! ## More trials help -/

open Filter Topology in
/-- C98.  The probability that some play is not explored tends to zero as the number of trials grows. -/
theorem c98_bound_vanishes {cfg : MentsCfg} {n : Nat} (hn : 1 ≤ n) (he : 0 < minEpsF cfg) (hm : 0 < cfg.maxExplore ∧ cfg.maxExplore ≤ 1) (L : Nat) :
    Tendsto (fun N => missBound (fpExplore cfg n N) L N) atTop (𝓝 0) := by
  have hnR : (1 : ℝ) ≤ n := by exact_mod_cast hn
  have heR : (0 : ℝ) < minEpsF cfg := by exact_mod_cast he
  have hmR : (0 : ℝ) < cfg.maxExplore := by exact_mod_cast hm.1
  have hmR1 : (cfg.maxExplore : ℝ) ≤ 1 := by exact_mod_cast hm.2
  have hlog0 : ∀ N : Nat, 0 ≤ Real.log (N + 1) := fun N => Real.log_nonneg (by linarith [show (0 : ℝ) ≤ N by positivity])
  have hlow0 : ∀ N : Nat, 0 ≤ exploreLow cfg N := fun N => le_min (div_nonneg heR.le (by linarith [hlog0 N])) hmR.le
  refine c77_bound_vanishes L (fun N => div_nonneg (hlow0 N) (by linarith)) ?_ fun N => ?_
  · -- at least `c / log (N + 1)`
    obtain ⟨c, hc, hcN⟩ : ∃ c : ℝ, 0 < c ∧ ∀ N : Nat, 1 ≤ N → c / Real.log (N + 1) ≤ fpExplore cfg n N := by
      refine ⟨min ((minEpsF cfg : ℝ) / 2) (cfg.maxExplore * Real.log 2) / (4 * n), by have := Real.log_pos (show (1 : ℝ) < 2 by norm_num); positivity, fun N hN => ?_⟩
      have hl2 : Real.log 2 ≤ Real.log (N + 1) := Real.log_le_log (by norm_num) (by linarith [show (1 : ℝ) ≤ N by exact_mod_cast hN])
      have hl0 : 0 < Real.log (N + 1) := lt_of_lt_of_le (Real.log_pos (by norm_num)) hl2
      unfold fpExplore
      rw [div_right_comm]
      refine div_le_div_of_nonneg_right ?_ (by linarith)
      unfold exploreLow
      refine le_min ?_ ?_
      · rw [← div_div]
        exact div_le_div_of_nonneg_right (min_le_left _ _) hl0.le
      · rw [div_le_iff₀ hl0]
        exact le_trans (min_le_right _ _) (mul_le_mul_of_nonneg_left hl2 hmR.le)
    have h1 := (Real.tendsto_pow_log_div_mul_add_atTop 1 (-1) L one_ne_zero).comp (tendsto_natCast_atTop_atTop.comp (tendsto_add_atTop_nat 1))
    have h2 : Tendsto (fun N : Nat => c ^ L * (Real.log ((N : ℝ) + 1) ^ L / N)⁻¹) atTop atTop := by
      refine Tendsto.const_mul_atTop (pow_pos hc L) (Tendsto.inv_tendsto_nhdsGT_zero ?_)
      refine tendsto_nhdsWithin_iff.2 ⟨?_, ?_⟩
      · refine h1.congr fun N => ?_
        simp only [Function.comp_apply]
        push_cast
        ring_nf
      · filter_upwards [eventually_ge_atTop 1] with N hN
        have h3 : (1 : ℝ) ≤ N := by exact_mod_cast hN
        have : 0 < Real.log ((N : ℝ) + 1) := Real.log_pos (by linarith)
        exact Set.mem_Ioi.2 (by positivity)
    refine tendsto_atTop_mono' _ ?_ h2
    filter_upwards [eventually_ge_atTop 1] with N hN
    have h3 : (1 : ℝ) ≤ N := by exact_mod_cast hN
    have h4 : 0 < Real.log ((N : ℝ) + 1) := Real.log_pos (by linarith)
    have h5 := pow_le_pow_left₀ (div_nonneg hc.le h4.le) (hcN N hN) L
    have h6 := mul_le_mul_of_nonneg_left h5 (show (0 : ℝ) ≤ N by linarith)
    refine le_trans (le_of_eq ?_) h6
    rw [inv_div, div_pow]
    ring
  · unfold fpExplore
    rw [div_le_one (by linarith)]
    exact le_trans (min_le_right _ _) (by linarith)

/-! ## The failure rate cannot be dropped -/

section
variable {S A X Y : Type} [DecidableEq S] [DecidableEq A] {env : Env S A ℚ} {m : Manager S ℚ} {alg : Alg S A ℚ X Y} {N : Nat} {sched : Scheduler S A ℚ}

theorem mean1_mass {B : Type} {l : List (B × ℝ)} (h0 : ∀ p ∈ l, 0 ≤ p.2) {f : B → ℝ} (hf : ∀ b, f b ≤ 1) : Eval.mean1 l f ≤ (l.map Prod.snd).sum := by
  unfold Eval.mean1
  induction l with
  | nil => simp
  | cons p l ih =>
    simp only [List.map_cons, List.sum_cons]
    have := ih fun q hq => h0 q (by simp [hq])
    have := mul_le_mul_of_nonneg_left (hf p.1) (h0 p (by simp))
    linarith

/-- Probabilities are at most one, also if selections may fail. -/
theorem expect_le_one {Dc : Dice S A ℚ X Y} (h1 : ∀ st nd ctx, (∀ p ∈ Dc.sel (viewOf env m st nd) ctx, 0 ≤ p.2) ∧ Spec.mass (Dc.sel (viewOf env m st nd) ctx) ≤ 1)
    (h2 : ∀ s a, (∀ p ∈ Dc.obs s a, 0 ≤ p.2) ∧ Spec.mass (Dc.obs s a) ≤ 1) (steps : Nat) (st : St S A ℚ X Y) (h : List (Event S A ℚ)) :
    expectAfter env m alg Dc N sched (fun _ _ => 1) steps st h ≤ 1 := by
  induction steps generalizing st h with
  | zero => exact le_refl _
  | succ n ih =>
    rw [expectAfter]
    split
    · have hd : (∀ p ∈ draws env m alg Dc st (sched h), 0 ≤ p.2) ∧ ((draws env m alg Dc st (sched h)).map Prod.snd).sum ≤ 1 := by
        unfold draws
        split
        · split
          · split
            · obtain ⟨g1, g2⟩ := h1 st { (‹DNode S A ℚ X›) with visits := (‹DNode S A ℚ X›).visits + 1, x := alg.visitD false (‹DNode S A ℚ X›).x } (st.ctxOf (sched h))
              refine ⟨fun p hp => ?_, ?_⟩
              · obtain ⟨q, hq, rfl⟩ := List.mem_map.1 hp
                exact g1 q hq
              · rw [List.map_map]
                exact g2
            · simp
          · simp
        · split
          · next nc _ =>
            obtain ⟨g1, g2⟩ := h2 nc.state nc.action
            refine ⟨fun p hp => ?_, ?_⟩
            · obtain ⟨q, hq, rfl⟩ := List.mem_map.1 hp
              exact g1 q hq
            · rw [List.map_map]
              exact g2
          · simp
        · simp
      refine le_trans (mean1_mass hd.1 fun ch => ?_) hd.2
      split
      · exact ih _ _
      · exact ih _ _
    · exact ih _ _

end

theorem share_pos {us : List ℚ} {u : ℚ} (hu : u ∈ us) {P : ℚ → Prop} (hP : P u) : 0 < share us P := by
  classical
  unfold share
  have h1 : 0 < us.countP (fun u => @decide (P u) (Classical.propDecidable _)) := List.countP_pos_iff.2 ⟨u, hu, by simpa using hP⟩
  have h2 : 0 < us.length := List.length_pos_of_mem hu
  have h1' : (0 : ℝ) < us.countP (fun u => @decide (P u) (Classical.propDecidable _)) := by exact_mod_cast h1
  have h2' : (0 : ℝ) < us.length := by exact_mod_cast h2
  exact div_pos h1' h2'

namespace Ten

/-- Ten actions, one move. -/
def env : Env Nat Nat ℚ where
  isSink s := decide (1 ≤ s)
  actions _ := List.range 10
  succ s _ := [s + 1]
  reward _ _ _ := 0

def mgr : Manager Nat ℚ where
  maxDepth := 1
  mctsMode := false
  twoPlayer := false
  useTable := false
  numMutexes := 1
  heuristic := none

def cfg : MentsCfg := { temp := 1, defaultQ := 0, epsilon := 1, rootEpsilon := -1, maxExplore := 1 / 2, threshold := 0, low := -10 ^ 308 }

def next (s _ : Nat) : Nat := s + 1

end Ten

theorem ten_select {ex : ℚ → ℚ} (hex : ex 0 = 1) : selectMents ex 1 (-10 ^ 308) (1 / 2) id ((List.range 10).map fun i => (i, (0 : ℚ))) (1 - 1 / 2 ^ 53) = .tooLittle := by
  have h1 : actionWeights ex 1 (-10 ^ 308) ((List.range 10).map fun i => (i, (0 : ℚ))) = (List.range 10).map fun i => (i, (1 : ℚ)) := by
    unfold actionWeights
    have h2 : fsub (fdiv 0 1) (normTerm 1 (-10 ^ 308) ((List.range 10).map fun i => (i, (0 : ℚ)))) = 0 := by decide +kernel
    rw [List.map_map]
    refine List.map_congr_left fun i _ => ?_
    simp only [Function.comp_apply]
    rw [h2, hex]
  unfold selectMents actionDistr
  rw [h1]
  decide +kernel

/-- C98.  With ten actions and a generator that may return `1 - 2^-53` the first action selection of MENTS throws with positive probability: however long the search
runs, the probability that nothing is thrown is less than one. -/
theorem c98_throws {ex lg : ℚ → ℚ} {α β : ℝ} (G : GoodMath ex lg α β) {us : List ℚ} (hu : 1 - 1 / 2 ^ 53 ∈ us) {N steps : Nat} (hN : 1 ≤ N) (hs : 2 ≤ steps) :
    probAfter Ten.env Ten.mgr (ments ex lg Ten.cfg fun _ _ => 0) (fpDice us ex lg Ten.cfg id (fun _ => id) (certain Ten.next)) 1 0 0 0 [] N (fun _ => 0) steps
      (fun _ _ => True) < 1 := by
  obtain ⟨n, rfl⟩ := Nat.exists_eq_add_of_le' hs
  set alg := ments (S := Nat) (A := Nat) ex lg Ten.cfg fun _ _ => 0 with halg
  set Dc := fpDice (S := Nat) (X := SoftF) us ex lg Ten.cfg id (fun _ => id) (certain Ten.next) with hDc
  let st0 : St Nat Nat ℚ SoftF SoftF := init Ten.env Ten.mgr alg 1 0 0 0 []
  let st1 : St Nat Nat ℚ SoftF SoftF := (st0.setCtx 0 {}).setW 0 (.sel 0 [] [] false)
  let nd : DNode Nat Nat ℚ SoftF := newD Ten.env Ten.mgr alg 0 0 0
  let v : View Nat Nat SoftF SoftF := viewOf Ten.env Ten.mgr st1 { nd with visits := nd.visits + 1, x := alg.visitD false nd.x }
  have hne : us ≠ [] := List.ne_nil_of_mem hu
  have hsum : ∀ v : View Nat Nat SoftF SoftF, v.actions.Nodup → ∀ ctx, Spec.mass (Dc.sel v ctx) =
      share us fun u => ∃ a ∈ v.actions, selectMents ex Ten.cfg.temp Ten.cfg.low (mentsLambda lg Ten.cfg v) id (softQs Ten.cfg id v) u = .key a := by
    intro v hnd ctx
    rw [← share_sum (us := us) (fun u => selectMents ex Ten.cfg.temp Ten.cfg.low (mentsLambda lg Ten.cfg v) id (softQs Ten.cfg id v) u) (l := v.actions) Draw.key
      (fun a b hab => by cases hab; rfl) hnd]
    unfold Spec.mass
    rw [hDc]
    unfold fpDice
    simp only [List.map_map]
    rfl
  have hdice : ∀ (st : St Nat Nat ℚ SoftF SoftF) nd ctx, (∀ p ∈ Dc.sel (viewOf Ten.env Ten.mgr st nd) ctx, 0 ≤ p.2) ∧
      Spec.mass (Dc.sel (viewOf Ten.env Ten.mgr st nd) ctx) ≤ 1 := by
    intro st nd ctx
    refine ⟨fun p hp => ?_, ?_⟩
    · obtain ⟨a, _, rfl⟩ := List.mem_map.1 hp
      exact share_nonneg _ _
    · rw [hsum _ (show (List.range 10).Nodup from List.nodup_range)]
      exact share_le_one _ _
  have hobs : ∀ s a, (∀ p ∈ Dc.obs s a, 0 ≤ p.2) ∧ Spec.mass (Dc.obs s a) ≤ 1 := by
    intro s a
    show (∀ p ∈ certain Ten.next s a, 0 ≤ p.2) ∧ Spec.mass (certain Ten.next s a) ≤ 1
    simp [certain, Spec.mass]
  have hlam : mentsLambda lg Ten.cfg v = 1 / 2 := by
    show exploreProb 1 (lg (((0 + 1 : Nat) : ℚ) + 1)) (1 / 2) = 1 / 2
    have h2 : (((0 + 1 : Nat) : ℚ) + 1) = 2 := by norm_num
    rw [h2]
    obtain ⟨_, hl⟩ := G.logErr 2 (by norm_num) (by decide +kernel)
    unfold exploreProb
    dsimp only
    rw [if_pos]
    have q1 := Real.log_two_lt_d9
    have q2 := Real.log_two_gt_d9
    have q3 : (tiny : ℝ) ≤ 1 / 10 ^ 6 := by
      have : tiny ≤ 1 / 10 ^ 6 := by decide +kernel
      have := (Rat.cast_le (K := ℝ)).2 this
      push_cast at this
      exact this
    have q4 : β * Real.log 2 ≤ 1 / 100 * 1 := mul_le_mul G.β.2 (by linarith) (by linarith) (by norm_num)
    push_cast at hl
    obtain ⟨a1, a2⟩ := abs_le.1 hl
    have b1 : (lg 2 : ℝ) ≤ 1 := by linarith
    have b2 : (0 : ℝ) < lg 2 := by linarith
    have c1 : lg 2 ≤ 1 := by exact_mod_cast b1
    have c2 : 0 < lg 2 := by exact_mod_cast b2
    have h3 : (1 : ℚ) ≤ 1 / lg 2 := by rw [le_div_iff₀ c2]; linarith
    have h4 : fl 1 ≤ fl (1 / lg 2) := fl_mono h3
    rw [fl_one] at h4
    show 1 / 2 < fl (1 / lg 2)
    linarith
  have hfail : selectMents ex Ten.cfg.temp Ten.cfg.low (mentsLambda lg Ten.cfg v) id (softQs Ten.cfg id v) (1 - 1 / 2 ^ 53) = .tooLittle := by
    have hqs : softQs Ten.cfg id v = (List.range 10).map fun i => (i, (0 : ℚ)) := by
      show (List.range 10).map (fun a => (a, (0 : ℚ) * oppSign _)) = _
      refine List.map_congr_left fun a _ => ?_
      rw [zero_mul]
    have h := ten_select G.exp.zero
    rw [← hqs] at h
    rw [hlam]
    exact h
  have hmass : Spec.mass (Dc.sel v (st1.ctxOf 0)) < 1 := by
    rw [hsum v (show (List.range 10).Nodup from List.nodup_range)]
    have h1 := share_not hne fun u => ∃ a ∈ v.actions, selectMents ex Ten.cfg.temp Ten.cfg.low (mentsLambda lg Ten.cfg v) id (softQs Ten.cfg id v) u = .key a
    have h2 := share_pos hu (P := fun u => ¬ ∃ a ∈ v.actions, selectMents ex Ten.cfg.temp Ten.cfg.low (mentsLambda lg Ten.cfg v) id (softQs Ten.cfg id v) u = .key a) (by
      rintro ⟨a, _, ha⟩
      rw [hfail] at ha
      cases ha)
    linarith
  have e1 : mayRun N st0 [] 0 := by
    show trialsBegun [] < N
    simp [trialsBegun]
    omega
  have e2 : draws Ten.env Ten.mgr alg Dc st0 0 = [(.go, 1)] := rfl
  have e3 : step Ten.env Ten.mgr alg st0 0 .go = some (st1, .began 0) := rfl
  have e4 : mayRun N st1 [.began 0] 0 := trivial
  have e5 : draws Ten.env Ten.mgr alg Dc st1 0 = (Dc.sel v (st1.ctxOf 0)).map fun p => (.act p.1, p.2) := rfl
  unfold probAfter
  simp only [if_true]
  show expectAfter Ten.env Ten.mgr alg Dc N (fun _ => 0) _ (n + 1 + 1) st0 [] < 1
  rw [expectAfter, if_pos e1, e2]
  simp only [Eval.mean1, List.map_cons, List.map_nil, List.sum_cons, List.sum_nil, one_mul, add_zero, e3]
  rw [expectAfter, if_pos e4, e5]
  refine lt_of_le_of_lt (mean1_mass ?_ fun ch => ?_) ?_
  · intro p hp
    obtain ⟨q, hq, rfl⟩ := List.mem_map.1 hp
    exact (hdice _ _ _).1 q hq
  · split
    · exact expect_le_one hdice hobs _ _ _
    · exact expect_le_one hdice hobs _ _ _
  · rw [List.map_map]
    exact hmass

/-- The hypotheses of `c98_throws` are met. -/
example : ∃ ex lg, GoodMath ex lg (1 / 100) (1 / 100) ∧ EvenDraws (grid 53) (1 / 2 ^ 53) ∧ 1 - 1 / 2 ^ 53 ∈ grid 53 := by
  obtain ⟨ex, e1, e2⟩ := exp_exists
  obtain ⟨lg, l1⟩ := log_exists
  refine ⟨ex, lg, ⟨e1, e2, l1, by norm_num, by norm_num⟩, grid_even (le_refl _), List.mem_map.2 ⟨2 ^ 53 - 1, List.mem_range.2 (by norm_num), ?_⟩⟩
  norm_num

/-! ## A search that succeeds with probability 0.99 -/

theorem toy_fits_any {h : List (Event Nat Nat ℚ)} (ht : trialsBegun h ≤ 2 ^ 36) : SoftFits Toy.env Toy.mgr toyCfg Toy.lr 1 4 1 2 2 (1 / 100) (1 / 100) 0 h :=
  have F := toy_soft_fits (h := []) (by simp [trialsBegun])
  { temp := F.temp, low := F.low, default := F.default, heur := F.heur, local_ := F.local_, succs := F.succs, few := F.few, acts := F.acts, small := F.small,
    depth := F.depth, trials := by omega, one := F.one, above := F.above, below := F.below, range := F.range }

theorem log_big : Real.log ((2 ^ 36 : Nat) + 1) ≤ 26 := by
  have h1 : Real.log (((2 ^ 36 : Nat) : ℝ) + 1) ≤ Real.log (2 ^ 37) := Real.log_le_log (by positivity) (by norm_num)
  rw [Real.log_pow] at h1
  have := Real.log_two_lt_d9
  push_cast at h1 ⊢
  linarith

theorem toy_low : (1 : ℝ) / 104 ≤ exploreLow toyCfg (2 ^ 36) := by
  unfold exploreLow
  refine le_min ?_ ?_
  · have h1 : minEpsF toyCfg = 1 / 2 := by decide +kernel
    have h2 : 0 < Real.log ((2 ^ 36 : Nat) + 1) := Real.log_pos (by norm_num)
    have h3 := log_big
    generalize Real.log (((2 ^ 36 : Nat) : ℝ) + 1) = L at *
    rw [h1, div_le_div_iff₀ (by norm_num) (by linarith)]
    push_cast
    linarith
  · norm_num [toyCfg]

theorem toy_exploring : FpExploring toyCfg 2 (2 ^ 36) (1 / 2 ^ 53) where
  eps := by norm_num [toyCfg]
  max := by decide +kernel
  few := by norm_num
  big := by
    refine le_trans ?_ toy_low
    rw [unit_eq]
    norm_num

theorem miss_small {p : ℝ} {n N : Nat} (h3 : 1 / 832 ≤ p) (hn : N - 2 = n) (hn2 : (60000000000 : ℝ) ≤ n) : missBound p 2 N ≤ 1 / 10 ^ 4 := by
  unfold missBound
  rw [hn]
  have hp : (1 / 832 : ℝ) ^ 2 ≤ p ^ 2 := pow_le_pow_left₀ (by norm_num) h3 2
  have hb := one_add_mul_le_pow (a := p ^ 2 / 2) (by linarith [sq_nonneg p]) n
  have hc : (40001 : ℝ) ≤ (1 + p ^ 2 / 2) ^ n := by
    refine le_trans ?_ hb
    have := mul_le_mul hn2 hp (by positivity) (by positivity)
    norm_num at this
    linarith
  generalize (1 + p ^ 2 / 2) ^ n = q at *
  rw [div_le_div_iff₀ (by linarith) (by norm_num)]
  linarith

theorem toy_miss : (plays Toy.env (Toy.mgr.maxDepth - 0).toNat 0).length * missBound (fpExplore toyCfg 2 (2 ^ 36)) (Toy.mgr.maxDepth - 0).toNat (2 ^ 36) +
    ((12 * 2 ^ 36 : Nat) : ℝ) * failRate 2 (1 / 2 ^ 53) ≤ 1 / 100 := by
  have h1 : (plays Toy.env (Toy.mgr.maxDepth - 0).toNat 0).length = 7 := by decide +kernel
  have h2 : (Toy.mgr.maxDepth - 0).toNat = 2 := by decide
  rw [h1, h2]
  have h3 : (1 : ℝ) / 832 ≤ fpExplore toyCfg 2 (2 ^ 36) := by
    unfold fpExplore
    have := toy_low
    rw [le_div_iff₀ (by norm_num)]
    norm_num at *
    linarith
  have h4 : failRate 2 (1 / 2 ^ 53) ≤ 1 / 10 ^ 14 := by
    unfold failRate
    rw [unit_eq]
    norm_num
  have h5 : missBound (fpExplore toyCfg 2 (2 ^ 36)) 2 (2 ^ 36) ≤ 1 / 10 ^ 4 := by
    exact miss_small h3 rfl (by norm_num)
  push_cast
  have h6 : (12 * 2 ^ 36 : ℝ) * failRate 2 (1 / 2 ^ 53) ≤ (12 * 2 ^ 36) * (1 / 10 ^ 14) := mul_le_mul_of_nonneg_left h4 (by norm_num)
  norm_num at h6 ⊢
  linarith

/-- A MENTS search with doubles: two workers, 2^36 trials, every draw a multiple of 2^-53.  Whatever the schedule, with probability at least 0.99 nothing is thrown and the root's
value is that of the game up to 0.2. -/
example : ∃ ex lg, GoodMath ex lg (1 / 100) (1 / 100) ∧ (∃ sched, Productive Toy.env Toy.mgr (ments ex lg toyCfg Toy.lr) 2 0 0 0 [] (2 ^ 36) sched) ∧
    ∀ sched, Productive Toy.env Toy.mgr (ments ex lg toyCfg Toy.lr) 2 0 0 0 [] (2 ^ 36) sched → 99 / 100 ≤ probAfter Toy.env Toy.mgr (ments ex lg toyCfg Toy.lr) (fpDice (grid 53) ex lg toyCfg id (fun _ => id) (certain Toy.next)) 2 0 0 0 [] (2 ^ 36) sched
      (12 * 2 ^ 36) (fun st h => Finished (2 ^ 36) st h ∧ ∃ v, softDF id st st.root = some v ∧ |(v : ℝ) - gameValue Toy.env Toy.mgr Toy.next 2 0 0| ≤ 1 / 5) := by
  obtain ⟨ex, e1, e2⟩ := exp_exists
  obtain ⟨lg, l1⟩ := log_exists
  have G : GoodMath ex lg (1 / 100) (1 / 100) := ⟨e1, e2, l1, by norm_num, by norm_num⟩
  have hl : Toy.env.Live := ⟨fun _ _ => by simp [Toy.env], fun _ _ _ _ => by simp [Toy.env]⟩
  have hv := ments_valid ex lg toyCfg Toy.lr
  have htb : Leftover ([] : List ((Int × Nat) × Option Nat)) := by intro p hp; simp at hp
  have ht : TableOk Toy.mgr ([] : List ((Int × Nat) × Option Nat)) := fun h => by simp [Toy.mgr] at h
  refine ⟨ex, lg, G, ?_, fun sched hsch => ?_⟩
  · exact Random.productive_exists hv htb ht
  have := c98_exhausts (k := 2) (s0 := 0) (tm := 0) (iter := fun _ => id) (obs := certain Toy.next) G (fun h hb => toy_fits_any hb) (by norm_num) (by norm_num) hv
    (ments_hasFpSoft ex lg toyCfg Toy.lr) rfl (fun _ _ _ => rfl) htb ht (grid_even (le_refl 53)) (by norm_num) toy_exploring hl (fun s => by simp [Toy.env])
    (fun _ _ => List.Perm.refl _) (certain_okF fun _ _ _ => rfl) ⟨zero_le_one, le_rfl⟩ (by decide) (by norm_num) hsch (steps := 12 * 2 ^ 36)
    (by have : (Toy.mgr.maxDepth - 0).toNat = 2 := by decide
        rw [this]) (Q := fun st h => ∃ v, softDF id st st.root = some v ∧ |(v : ℝ) - gameValue Toy.env Toy.mgr Toy.next 2 0 0| ≤ 1 / 5) ?_
  · refine le_trans ?_ this
    have := toy_miss
    rw [mul_one]
    linarith
  · intro st h hr hb hf hx
    obtain ⟨nd, r1, r2, r3, r4⟩ := root_node (reach_inv hv htb hr).tree
    obtain ⟨v, g1, g2⟩ := c94_game_value (next := Toy.next) G (toy_fits_any hb) (fun _ _ _ => rfl) (fun _ _ _ => rfl) (fun _ _ => by simp [Toy.env]) hv
      (ments_hasFpSoft ex lg toyCfg Toy.lr) (fun _ => rfl) rfl htb hr hf.1 hx r1
    rw [r2, r3, r4] at g2
    refine ⟨v, g1, le_trans g2 ?_⟩
    have q1 := Real.log_two_lt_d9
    have q2 : (unit : ℝ) ≤ 1 / 10 ^ 6 := by
      have : unit ≤ 1 / 10 ^ 6 := by rw [unit_eq]; norm_num
      have := (Rat.cast_le (K := ℝ)).2 this
      push_cast at this
      exact this
    have q3 : (tiny : ℝ) ≤ 1 / 10 ^ 6 := by
      have : tiny ≤ 1 / 10 ^ 6 := by decide +kernel
      have := (Rat.cast_le (K := ℝ)).2 this
      push_cast at this
      exact this
    have q4 : remaining Toy.mgr 0 = 2 := by decide
    rw [q4]
    unfold softError toyCfg
    push_cast
    linarith

end Verif.Fp
