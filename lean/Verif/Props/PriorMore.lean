import Verif.Props.Prior
import Verif.Props.Tents
import Verif.Props.Rents

/-!
# Property C114 for TENTS and RENTS

Both replace the Boltzmann policy of MENTS by another base policy and mix in the prior in the same way; `mixture` (`Verif.Spec.Tents`) is
the documented mixture for a base policy, `IsSparsemax` and `relPolicy` are the base policies.
-/

set_option linter.unusedSectionVars false
set_option linter.unusedSimpArgs false

namespace Verif.Prior

open Verif.Search Verif.Spec Verif.Sampling Verif.Ments Verif.Backups Verif.Tents

section
variable {S A X Y : Type} [DecidableEq S] [DecidableEq A] {cfg : Cfg S A} {v : View S A X Y} {q : A → Except Bad ℝ} {Q : A → ℝ}
  {f : S → List (A × ℝ)}

theorem covers_of_prior (hf : cfg.prior = some f) (hp : IsPrior f v) : PriorCovers cfg v := fun _ => ⟨f, hf, fun c hc => by
  obtain ⟨p, h1, _⟩ := hp.1 c hc
  simp [h1]⟩

theorem mixture_sum (hf : cfg.prior = some f) (hp : IsPrior f v) {b : A → ℝ} (hb : IsDistr v.actions b) :
    (v.actions.map (mixture cfg v b)).sum = 1 := by
  have hlen : (0 : ℝ) < v.actions.length := by exact_mod_cast List.length_pos_of_ne_nil hb.ne
  unfold mixture
  rw [sum_map_add, sum_map_add, sum_map_mul, sum_map_mul, sum_map_const]
  have e : (v.actions.map fun a => priorAt cfg v a) = v.actions.map fun a => (find? a (f v.state)).getD 0 := by
    apply List.map_congr_left
    intro a _
    simp [priorAt, hf]
  have e2 : ∀ l : List A, (l.map fun a => b a) = l.map b := fun _ => rfl
  rw [e, hp.2, e2, hb.sum]
  field_simp
  ring

/-- C114 is false for every base policy.  A negative entry of the mixture is dropped, the rest adds up to more than one, and the selection
throws for all draws close to one. -/
theorem c114_any_base_throws_false (hN : 0 < v.visits) (hf : cfg.prior = some f) (hp : IsPrior f v) {wt : A → ℝ} {s : ℝ}
    (hb : IsDistr v.actions fun a => wt a / s) {a : A} (ha : a ∈ v.actions) {eps : ℝ} (heps : 0 ≤ eps)
    (hneg : mixture cfg v (fun a => wt a / s) a + v.actions.length * (1 / 10 ^ 16) < -eps) {iter : List (A × ℝ) → List (A × ℝ)}
    (hi : ∀ l, List.Perm (iter l) l) :
    ∃ t < 1, ∀ u, t ≤ u → selectActionW eps cfg v (.ok (v.actions.map fun a => (a, wt a), s)) u iter = .ok .tooMuch := by
  generalize hM : mixture cfg v (fun a => wt a / s) = M at hneg
  have hE : 0 < EPS := by unfold EPS; positivity
  have hlen : (0 : ℝ) ≤ v.actions.length * EPS := mul_nonneg (Nat.cast_nonneg _) hE.le
  have hm : mass (v.actions.map fun c => (c, M c)) = 1 := by
    rw [← mixture_sum hf hp hb, hM]
    simp [mass, Function.comp_def]
  have hneg' : M a + v.actions.length * EPS < -eps := hneg
  have h1 := dropped_lt (v.actions.map fun c => (c, M c)) (p := (a, M a)) (List.mem_map.2 ⟨a, ha, rfl⟩) (by simp only; linarith)
  rw [hm, List.length_map] at h1
  simp only at h1
  have h2 : mass (iter ((v.actions.map fun c => (c, M c)).filter fun p => ¬ p.2 < EPS)) =
      mass ((v.actions.map fun c => (c, M c)).filter fun p => ¬ p.2 < EPS) := ((hi _).map Prod.snd).sum_eq
  obtain ⟨t, ht, hu⟩ := sampleLoop_throws heps (iter ((v.actions.map fun c => (c, M c)).filter fun p => ¬ p.2 < EPS)) 0 0 (Nat.zero_add _)
    (by norm_num) (by rw [h2]; linarith)
  refine ⟨t, ht, fun u hx => ?_⟩
  unfold selectActionW
  rw [actionDistrW, fullDistrW_eq hN (covers_of_prior hf hp), hM]
  simp only [sampleFrom, if_true]
  rw [hu u hx]

/-- C114 is false for TENTS: so it does if the mixture with the sparsemax of the values has a negative entry. -/
theorem c114_tents_throws_false (hq : QIs q v Q) (hN : 0 < v.visits) (hf : cfg.prior = some f) (hp : IsPrior f v) {bv : List (ℝ × A)}
    {ba : List (A × ℝ)} (H : MapsHold v.actions (fun a => Q a / getTemp cfg v) bv ba) (hne : v.actions ≠ []) {eps : ℝ} (heps : 0 ≤ eps) :
    ∃ p, IsSparsemax v.actions (fun a => Q a / getTemp cfg v) p ∧
      ∀ a ∈ v.actions, mixture cfg v p a + v.actions.length * (1 / 10 ^ 16) < -eps →
        ∀ iter : List (A × ℝ) → List (A × ℝ), (∀ l, List.Perm (iter l) l) →
          ∃ t < 1, ∀ u, t ≤ u → selectActionW eps cfg v (tentsWeights cfg q v bv) u iter = .ok .tooMuch := by
  obtain ⟨p, h1, _, h3⟩ := c44_weights (cfg := cfg) hq H hne
  refine ⟨p, h3, fun a ha hneg iter hi => ?_⟩
  have e : (fun a => p a / 1) = p := by funext a; simp
  rw [h1]
  exact c114_any_base_throws_false hN hf hp (by rw [e]; exact h3.1) ha heps (by rw [e]; exact hneg) hi

/-- C114 is false for RENTS: so it does if the mixture with the policy relative to the parent's has a negative entry. -/
theorem c114_rents_throws_false (hq : QIs q v Q) (hN : 0 < v.visits) (hf : cfg.prior = some f) (hp : IsPrior f v) {ctx : Ctx A ℝ}
    {parent : Option (List (A × ℝ))} (hpar : parentDistr v ctx = .ok parent) (h0 : ∀ a, 0 ≤ parentProb parent a) (hne : v.actions ≠ [])
    {eps : ℝ} (heps : 0 ≤ eps) :
    ∃ M, (cfg.low ≤ M ∧ (∀ a ∈ v.actions, Q a / getTemp cfg v ≤ M) ∧ (M = cfg.low ∨ ∃ a ∈ v.actions, M = Q a / getTemp cfg v)) ∧
      ∀ a ∈ v.actions, mixture cfg v (relPolicy (getTemp cfg v) (parentProb parent) Q M v.actions) a + v.actions.length * (1 / 10 ^ 16) < -eps →
        ∀ iter : List (A × ℝ) → List (A × ℝ), (∀ l, List.Perm (iter l) l) →
          ∃ t < 1, ∀ u, t ≤ u → selectActionW eps cfg v (rentsWS cfg q v ctx) u iter = .ok .tooMuch := by
  obtain ⟨M, hM, wt, s, hW, hb, hpol, _⟩ := rents_policy (cfg := cfg) (v := v) hq hpar h0 hne
  have hWS : rentsWS cfg q v ctx = .ok (v.actions.map (fun a => (a, wt a)), s) := by
    unfold rentsWS
    rw [hW]
  have hpol' : (fun a => wt a / s) = relPolicy (getTemp cfg v) (parentProb parent) Q M v.actions := funext hpol
  refine ⟨M, hM, fun a ha hneg iter hi => ?_⟩
  rw [hWS]
  exact c114_any_base_throws_false hN hf hp hb ha heps (by rw [hpol']; exact hneg) hi

/-- C114 for every base policy and every weight: at a node that has been visited at least `exp(weight) - 3` times the mixture is a distribution,
and every draw below `1 - |A|·1e-16` selects a valid action. -/
theorem c114_any_base_old_nodes_partial (hf : cfg.prior = some f) (hp : IsPrior f v) (ht : 0 < getTemp cfg v) (he : 0 ≤ epsilonAt cfg v)
    (hm0 : 0 ≤ cfg.maxExplore) (hm1 : cfg.maxExplore ≤ 1) (hN : 0 < v.visits) (hw : Real.exp cfg.priorWeight ≤ v.visits + 3)
    {wt : A → ℝ} {s : ℝ} (hb : IsDistr v.actions fun a => wt a / s) {eps : ℝ} (heps : 0 ≤ eps) :
    ((∀ a ∈ v.actions, 0 ≤ mixture cfg v (fun a => wt a / s) a) ∧ (v.actions.map (mixture cfg v fun a => wt a / s)).sum = 1) ∧
    ∀ (iter : List (A × ℝ) → List (A × ℝ)), (∀ l, List.Perm (iter l) l) → ∀ u : ℝ, 0 ≤ u → u < 1 - v.actions.length * (1 / 10 ^ 16) →
      ∃ a ∈ v.actions, selectActionW eps cfg v (.ok (v.actions.map fun a => (a, wt a), s)) u iter = .ok (.key a) := by
  have W : WellFormed cfg v := by
    refine ⟨ht, he, hm0, hm1, Or.inr ?_, covers_of_prior hf hp, fun _ a ha => ?_, fun _ => ?_⟩
    · rw [Real.le_log_iff_exp_le (by positivity)]
      exact hw
    · obtain ⟨p, h1, h2⟩ := hp.1 a ha
      simpa [priorAt, hf, h1] using h2
    · have : priorAt cfg v = fun a => (find? a (f v.state)).getD 0 := by funext a; simp [priorAt, hf]
      rw [this]
      exact hp.2
  obtain ⟨d1, d2⟩ := mixture_is_distribution hN hb W
  refine ⟨⟨fun a ha => (d1 a ha).2, d2⟩, fun iter hi u h0 hu => ?_⟩
  rcases selectW_valid hN W hb heps hi h0 with h | ⟨_, h⟩
  · exact h
  · linarith

/-- With a positive weight and no prior nothing can be selected from any weights. -/
theorem selectableW_null (hp : cfg.prior = none) (hw : 0 < cfg.priorWeight) {eps : ℝ} {ws : Except Bad (List (A × ℝ) × ℝ)} {a : A} :
    selectableW eps cfg v ws a = false := by
  by_contra hx
  rw [Bool.not_eq_false] at hx
  unfold selectableW at hx
  rw [@decide_eq_true_eq _ (Classical.propDecidable _)] at hx
  obtain ⟨u, iter, _, _, hi, hx⟩ := hx
  unfold selectActionW at hx
  cases hl : actionDistrW cfg v ws with
  | error e => simp [hl] at hx
  | ok l =>
    have hnil : l = [] := by
      unfold actionDistrW at hl
      cases hf : fullDistrW cfg v ws with
      | error e => simp [hf] at hl
      | ok l' =>
        simp only [hf, Except.ok.injEq] at hl
        unfold fullDistrW at hf
        split at hf
        · next w sum lam _ =>
          cases w with
          | nil => simp only [interpolateAll, Except.ok.injEq] at hf; rw [← hl, ← hf]; rfl
          | cons p ps =>
            obtain ⟨c, y⟩ := p
            simp [interpolateAll, interpolate, hw, hp] at hf
        · simp at hf
        · simp only [Except.ok.injEq] at hf; rw [← hl, ← hf]; rfl
        · simp at hf
    rw [hl, hnil] at hx
    simp only [Except.ok.injEq] at hx
    rw [List.Perm.eq_nil (hi [])] at hx
    simp [sampleFrom, sampleLoop] at hx

end

section
variable {S A : Type} [DecidableEq S] [DecidableEq A] {env : Env S A ℝ} {m : Manager S ℝ} {cfg : Cfg S A} {eps : ℝ} {lr : S → A → ℝ} {k : Nat}
  {s0 : S} {dp tm : Int} {tb : List ((Int × S) × Option Nat)} {h : List (Event S A ℝ)}

/-- C114 is false.  With a positive weight and no prior function no TENTS search ever selects an action, in any environment. -/
theorem c114_null_tents_false {st : St S A ℝ (Except TErr (TX A)) Soft} (hp : cfg.prior = none) (hw : 0 < cfg.priorWeight)
    (hr : Reachable env m (tents eps cfg env m lr) k s0 dp tm tb st h) (w d : Nat) (a : A) (c : Nat) : Event.selected w d a c ∉ h := by
  refine reach_induct (fun _ h => Event.selected w d a c ∉ h) (by simp) (fun st h w' e st' _ ih _ E => ?_) hr
  intro hm
  rcases List.mem_cons.1 hm with rfl | hm
  · cases E with
    | selOld hw' hd hl hm ha hf => simp [tents, selectableW_null hp hw] at ha
    | selNew hw' hd hl hm ha hf => simp [tents, selectableW_null hp hw] at ha
  · exact ih hm

/-- C114 is false.  So it is for RENTS. -/
theorem c114_null_rents_false {st : St S A ℝ Soft Soft} (hp : cfg.prior = none) (hw : 0 < cfg.priorWeight)
    (hr : Reachable env m (rents eps cfg lr) k s0 dp tm tb st h) (w d : Nat) (a : A) (c : Nat) : Event.selected w d a c ∉ h := by
  refine reach_induct (fun _ h => Event.selected w d a c ∉ h) (by simp) (fun st h w' e st' _ ih _ E => ?_) hr
  intro hm
  rcases List.mem_cons.1 hm with rfl | hm
  · cases E with
    | selOld hw' hd hl hm ha hf => simp [rents, selectableW_null hp hw] at ha
    | selNew hw' hd hl hm ha hf => simp [rents, selectableW_null hp hw] at ha
  · exact ih hm

end

/-! ## The game of one move -/

section
variable {cfg : Cfg Stage Bool} {eps : ℝ} {N : Nat} {X Y : Type} {v : View Stage Bool X Y}

/-- In the settings `Heavy` the mixture has a negative entry as soon as the base policy gives the better move a probability of 1/2. -/
theorem mixture_negative (H : Heavy cfg N) (hacts : v.actions = [true, false]) (hpos : 0 < v.visits) (hN : v.visits ≤ N) {b : Bool → ℝ}
    (hb : 1 / 2 ≤ b true) : mixture cfg v b true ≤ -(1 / 10) := by
  have hlogpos : 0 < Real.log ((v.visits : ℝ) + 3) := Real.log_pos (by
    have : (0 : ℝ) ≤ v.visits := Nat.cast_nonneg _
    linarith)
  have hlogle : Real.log ((v.visits : ℝ) + 3) ≤ Real.log (N + 3) := Real.log_le_log (by positivity) (by
    have : (v.visits : ℝ) ≤ N := by exact_mod_cast hN
    linarith)
  have hwpos : 0 < cfg.priorWeight := by
    have := H.weight
    linarith
  have hpw : 6 ≤ priorWeightAt cfg v := by
    unfold priorWeightAt
    rw [if_pos hwpos, le_div_iff₀ hlogpos]
    have := H.weight
    linarith
  have hpr : priorAt cfg v true = 1 / 10 := by simp [priorAt, H.prior, pickPrior, find?]
  obtain ⟨hu0, hu1⟩ := explore_range H hpos
  have hlen : (v.actions.length : ℝ) = 2 := by rw [hacts]; norm_num
  unfold mixture
  rw [hpr, hlen]
  set B := b true
  set l := uniformWeight cfg v
  set p := priorWeightAt cfg v
  have hX : (1 - p) * B + p * (1 / 10) ≤ -19 / 10 := by nlinarith
  have hL : (1 - l) * ((1 - p) * B + p * (1 / 10)) ≤ (1 - l) * (-19 / 10) := mul_le_mul_of_nonneg_left hX (by linarith)
  have e : (1 - l) * (1 - p) * B + (1 - l) * p * (1 / 10) = (1 - l) * ((1 - p) * B + p * (1 / 10)) := by ring
  rw [e]
  linarith

/-- C114 is false for TENTS in this game: at a node that knows the values 10 and 0 of the moves the selection throws, for every draw close to one. -/
theorem c114_tents_pick_false (H : Heavy cfg N) (hacts : v.actions = [true, false]) (hpos : 0 < v.visits) (hN : v.visits ≤ N)
    {q : Bool → Except Bad ℝ} (hq : QIs q v fun a => if a then 10 else 0) {bv : List (ℝ × Bool)} {ba : List (Bool × ℝ)}
    (M : MapsHold v.actions (fun a => (if a then 10 else 0) / getTemp cfg v) bv ba) (heps : 0 ≤ eps) (heps1 : eps < 1 / 20)
    {iter : List (Bool × ℝ) → List (Bool × ℝ)} (hi : ∀ l, List.Perm (iter l) l) :
    ∃ t < 1, ∀ u, t ≤ u → selectActionW eps cfg v (tentsWeights cfg q v bv) u iter = .ok .tooMuch := by
  have htemp : getTemp cfg v = 1 := by simp [getTemp, H.decay, H.temp]
  obtain ⟨p, hp, hx⟩ := c114_tents_throws_false (cfg := cfg) hq hpos H.prior (pick_isPrior hacts) M (by simp [hacts]) heps
  have hlen : (v.actions.length : ℝ) = 2 := by rw [hacts]; norm_num
  refine hx true (by simp [hacts]) ?_ iter hi
  have hb : 1 / 2 ≤ p true := by
    have h1 := hp.2 (fun a => if a then 1 else 0) ⟨by intro a _; cases a <;> simp, by simp [hacts]⟩
    have h2 := hp.1.sum
    rw [htemp, hacts] at h1
    rw [hacts] at h2
    simp at h1 h2
    have h3 : p false = 1 - p true := by linarith
    rw [h3] at h1
    nlinarith
  have := mixture_negative H hacts hpos hN hb
  rw [hlen]
  norm_num
  linarith

/-- C114 is false for RENTS in this game: so it does at the root if the better move is known to be worth 10 and the other at most that. -/
theorem c114_rents_pick_false (H : Heavy cfg N) (hacts : v.actions = [true, false]) (hpos : 0 < v.visits) (hN : v.visits ≤ N)
    (hdep : v.depth = 0) {q : Bool → Except Bad ℝ} {x : ℝ} (hx10 : x ≤ 10) (hq : QIs q v fun a => if a then 10 else x) (ctx : Ctx Bool ℝ)
    (heps : 0 ≤ eps) (heps1 : eps < 1 / 20) {iter : List (Bool × ℝ) → List (Bool × ℝ)} (hi : ∀ l, List.Perm (iter l) l) :
    ∃ t < 1, ∀ u, t ≤ u → selectActionW eps cfg v (rentsWS cfg q v ctx) u iter = .ok .tooMuch := by
  have htemp : getTemp cfg v = 1 := by simp [getTemp, H.decay, H.temp]
  have hpar : parentDistr v ctx = .ok none := by simp [parentDistr, hdep]
  obtain ⟨M, _, hx⟩ := c114_rents_throws_false (cfg := cfg) hq hpos H.prior (pick_isPrior hacts) hpar (fun _ => by simp [parentProb])
    (by simp [hacts]) heps
  have hlen : (v.actions.length : ℝ) = 2 := by rw [hacts]; norm_num
  refine hx true (by simp [hacts]) ?_ iter hi
  have hb : 1 / 2 ≤ relPolicy (getTemp cfg v) (parentProb none) (fun a => if a then 10 else x) M v.actions true := by
    unfold relPolicy
    split
    · rw [hlen]
    · unfold relPartition
      rw [htemp, hacts]
      simp only [parentProb, one_mul, List.map_cons, List.map_nil, List.sum_cons, List.sum_nil, if_true, div_one, add_zero, Bool.false_eq_true, if_false]
      have hex : Real.exp x ≤ Real.exp 10 := Real.exp_le_exp.2 hx10
      rw [le_div_iff₀ (by positivity)]
      linarith
  have := mixture_negative H hacts hpos hN hb
  rw [hlen]
  norm_num
  linarith

end

/-- A node visited ten times, with the settings of `heavyCfg`. -/
example : ∃ t < 1, ∀ u, t ≤ u → selectActionW 0 (heavyCfg 100) { freshView with visits := 10 }
    (tentsWeights (heavyCfg 100) (fun a => .ok (if a then 10 else 0)) { freshView with visits := 10 } [(0, false), (10, true)]) u id = .ok .tooMuch :=
  c114_tents_pick_false (N := 100) (ba := [(true, 10), (false, 0)]) (by constructor <;> norm_num [heavyCfg]) rfl (by norm_num) (by norm_num)
    (fun _ _ => rfl) ⟨by simp [freshView, getTemp, heavyCfg], by simpa [freshView, getTemp, heavyCfg] using List.Perm.swap _ _ _, by simp⟩ le_rfl
    (by norm_num) (fun l => List.Perm.refl l)

example : ∃ t < 1, ∀ u, t ≤ u → selectActionW 0 (heavyCfg 100) { freshView with visits := 10 }
    (rentsWS (heavyCfg 100) (fun a => .ok (if a then 10 else 0)) { freshView with visits := 10 } { acts := [], distrs := [] }) u id = .ok .tooMuch :=
  c114_rents_pick_false (N := 100) (x := 0) (by constructor <;> norm_num [heavyCfg]) rfl (by norm_num) (by norm_num) rfl (by norm_num)
    (fun _ _ => rfl) _ le_rfl (by norm_num) (fun l => List.Perm.refl l)

/-- With weight 2 and the base policy that always makes the better move the node is old enough after ten visits. -/
example : ∃ a ∈ [true, false], selectActionW 0 { heavyCfg 0 with priorWeight := 2 } { freshView with visits := 10 }
    (.ok ([true, false].map fun a => (a, if a then 1 else 0), 1)) (1 / 2) id = .ok (.key a) := by
  have h2 : Real.exp 2 ≤ 9 := by
    have e : (2 : ℝ) = 1 + 1 := by norm_num
    rw [e, Real.exp_add]
    nlinarith [Real.exp_one_lt_d9, Real.exp_pos 1]
  exact (c114_any_base_old_nodes_partial (cfg := { heavyCfg 0 with priorWeight := 2 }) (v := { freshView with visits := 10 })
    (wt := fun a => if a then 1 else 0) (s := 1) rfl (pick_isPrior rfl) (by simp [getTemp, heavyCfg])
    (by norm_num [epsilonAt, heavyCfg, isRoot, freshView]) (by norm_num [heavyCfg]) (by norm_num [heavyCfg]) (by norm_num)
    (by push_cast; linarith) ⟨by intro a _; cases a <;> simp, by simp [freshView]⟩ le_rfl).2 id (fun l => List.Perm.refl l)
    (1 / 2) (by norm_num) (by norm_num [freshView])

end Verif.Prior
