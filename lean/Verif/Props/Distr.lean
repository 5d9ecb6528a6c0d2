import Verif.Model.EnvDefaults
import Verif.Spec.Mixture
import Verif.Props.Sampling
import Verif.Proofs.Uct
import Mathlib.MeasureTheory.Measure.Real

/-! # Properties C71, C72: distribution objects and default observations -/

namespace Verif.Sampling
open Verif.Spec MeasureTheory

variable {K 𝕜 P V : Type}

/-! ## C71 uniform distribution objects -/

/-- A uniform distribution over at least one key always returns one of its keys. -/
theorem c71_uniform_member (keys : List K) (hne : keys ≠ []) (raw : Nat) : ∃ k ∈ keys, sampleUniform keys raw = some k := by
  obtain ⟨k, hk⟩ := Uct.sampleUniform_defined keys raw hne
  exact ⟨k, (Uct.sampleUniform_mem hk).1, hk⟩

/-- The number of generator outputs in `[0, randMax]` for which the sample is `k`. -/
def outputsDrawing [DecidableEq K] (randMax : Nat) (keys : List K) (k : K) : Nat :=
  (List.range (randMax + 1)).countP fun raw => sampleUniform keys raw = some k

theorem sampleUniform_iff [DecidableEq K] {keys : List K} (hnd : keys.Nodup) {k : K} {i : Nat} (hi : keys[i]? = some k) (raw : Nat) :
    sampleUniform keys raw = some k ↔ getRandInt raw 0 keys.length = some (i : Int) := by
  have hlt : i < keys.length := (List.getElem?_eq_some_iff.1 hi).1
  have hne : keys ≠ [] := by rintro rfl; simp at hlt
  rw [Uct.sampleUniform_eq keys raw hne, getRandInt_eq (by omega)]
  have hm : raw % keys.length < keys.length := Nat.mod_lt _ (by omega)
  constructor
  · intro h
    have := (List.nodup_iff_injective_get.1 hnd) (a₁ := ⟨_, hm⟩) (a₂ := ⟨i, hlt⟩) (by
      have h1 := (List.getElem?_eq_some_iff.1 h).2
      have h2 := (List.getElem?_eq_some_iff.1 hi).2
      simp [h1, h2])
    simp at this
    simp [this]
  · intro h
    have : raw % keys.length = i := by
      simp at h
      omega
    rw [this, hi]

/-- Any two of its keys are drawn by almost the same number of generator outputs. -/
theorem c71_uniform_fair [DecidableEq K] (randMax : Nat) (keys : List K) (hnd : keys.Nodup) (k k' : K) (hk : k ∈ keys) (hk' : k' ∈ keys) :
    outputsDrawing randMax keys k ≤ outputsDrawing randMax keys k' + 1 := by
  obtain ⟨i, hi, rfl⟩ := List.getElem_of_mem hk
  obtain ⟨j, hj, rfl⟩ := List.getElem_of_mem hk'
  have h1 : ∀ (i : Nat) (hi : i < keys.length), outputsDrawing randMax keys keys[i] = outputsProducing randMax 0 keys.length i := by
    intro i hi
    unfold outputsDrawing outputsProducing
    refine List.countP_congr fun raw _ => ?_
    simp only [decide_eq_true_eq]
    exact sampleUniform_iff hnd (List.getElem?_eq_getElem hi) raw
  rw [h1 i hi, h1 j hj]
  exact c21_near_uniform randMax 0 keys.length i j (by omega) (by omega)

/-- With no more keys than generator outputs every key is drawn by some output. -/
theorem c71_uniform_all (randMax : Nat) (keys : List K) (hlen : keys.length ≤ randMax + 1) (k : K) (hk : k ∈ keys) :
    ∃ raw ≤ randMax, sampleUniform keys raw = some k := by
  obtain ⟨raw, h1, h2⟩ := Uct.sampleUniform_all hk
  exact ⟨raw, by omega, h2⟩

/-- Sampling from no keys is undefined behaviour. -/
theorem c71_uniform_empty (raw : Nat) : sampleUniform ([] : List K) raw = none := Uct.sampleUniform_nil raw

example : outputsDrawing 9 ["a", "b", "c", "d"] "b" = 3 ∧ outputsDrawing 9 ["a", "b", "c", "d"] "c" = 2 := by decide +kernel

/-! ## C71 mixtures -/

section
variable [Field 𝕜] [LinearOrder 𝕜] [IsStrictOrderedRing 𝕜]

/-- The outcome of a mixture is always the outcome of one of its components, for weights that are non-negative and sum to one, the last
one being positive. -/
theorem c71_mixture_component_partial (eps : 𝕜) (heps : 0 ≤ eps) (dist : List (P × 𝕜)) (comp : P → V → Draw K)
    (hw : ∀ p ∈ dist, 0 ≤ p.2) (hsum : mass dist = 1) (hlast : ∀ p, dist.getLast? = some p → 0 < p.2)
    (u : 𝕜) (hu : 0 ≤ u) (hu1 : u < 1) (v : V) : ∃ p ∈ dist.map Prod.fst, sampleMixed eps dist comp u v = comp p v := by
  obtain ⟨p, hp, h⟩ := c23_never_throws_partial eps heps dist hw hsum hlast u hu hu1
  exact ⟨p, hp, by simp [sampleMixed, h]⟩

end

/-- The property is false without the condition on the last weight, as for C23: a mixture whose last weight is zero throws although no
component does. -/
theorem c71_mixture_false : ∃ (dist : List (Nat × ℚ)) (comp : Nat → Unit → Draw Nat), (∀ p ∈ dist, 0 ≤ p.2) ∧ mass dist = 1 ∧
    (∀ p v, ∃ k, comp p v = .key k) ∧ ∀ u v, sampleMixed (1 / 10 ^ 12) dist comp u v = .tooMuch := by
  refine ⟨[(0, 1), (1, 0)], fun p _ => .key p, by simp, by simp, fun p _ => ⟨p, rfl⟩, fun u v => ?_⟩
  have h : sampleFrom (1 / 10 ^ 12) ([(0, 1), (1, 0)] : List (Nat × ℚ)) true u = .tooMuch := by norm_num [sampleFrom, sampleLoop]
  simp only [sampleMixed, h]

/-- A mixture returns `x` with probability the weighted mean of the probabilities with which its components return `x`.  The component's
randomness `v` is any random object independent of the draw that picks the component. -/
theorem c71_mixture_probability_partial [DecidableEq P] [MeasurableSpace V] (μ : Measure V) [IsProbabilityMeasure μ]
    (eps : ℝ) (heps : 0 ≤ eps) (dist : List (P × ℝ)) (comp : P → V → Draw K)
    (hnd : (dist.map Prod.fst).Nodup) (hw : ∀ p ∈ dist, 0 ≤ p.2) (hsum : mass dist = 1)
    (hlast : ∀ p, dist.getLast? = some p → 0 < p.2) (x : K)
    (hmeas : ∀ p ∈ dist.map Prod.fst, MeasurableSet {v | comp p v = .key x}) :
    prob2 μ (sampleMixed eps dist comp) (· = .key x) = (dist.map fun p => p.2 * μ.real {v | comp p.1 v = .key x}).sum := by
  have hint : ∀ p ∈ dist.map Prod.fst, ∃ a b : ℝ, {u : ℝ | 0 ≤ u ∧ u < 1 ∧ sampleFrom eps dist true u = .key p} = Set.Ico a b := by
    intro p hp
    obtain ⟨⟨p', w⟩, hm, rfl⟩ := List.mem_map.1 hp
    obtain ⟨pre, suf, hd⟩ := List.append_of_mem hm
    have hm : mass pre + (w + mass suf) = 1 := by rw [← hsum, hd]; simp
    have h1 : 0 ≤ mass pre := mass_nonneg fun p hp => hw p (by simp [hd, hp])
    have h2 : 0 ≤ mass suf := mass_nonneg fun p hp => hw p (by simp [hd, hp])
    refine ⟨mass pre, mass pre + w, ?_⟩
    ext u
    simp only [Set.mem_ofPred_eq, Set.mem_Ico]
    constructor
    · rintro ⟨h3, h4, h5⟩
      exact (c23_inverse_cdf_partial eps heps dist hnd hw hsum hlast u h3 pre suf p' w hd).1 h5
    · rintro ⟨h3, h4⟩
      exact ⟨by linarith, by linarith,
        (c23_inverse_cdf_partial eps heps dist hnd hw hsum hlast u (by linarith) pre suf p' w hd).2 ⟨h3, h4⟩⟩
  have hset : {q : ℝ × V | 0 ≤ q.1 ∧ q.1 < 1 ∧ sampleMixed eps dist comp q.1 q.2 = .key x} =
      ⋃ p ∈ (dist.map Prod.fst).toFinset,
        {u : ℝ | 0 ≤ u ∧ u < 1 ∧ sampleFrom eps dist true u = .key p} ×ˢ {v | comp p v = .key x} := by
    ext ⟨u, v⟩
    simp only [Set.mem_ofPred_eq, Set.mem_iUnion, Set.mem_prod, List.mem_toFinset, exists_prop]
    constructor
    · rintro ⟨h1, h2, h3⟩
      obtain ⟨p, hp, h⟩ := c23_never_throws_partial eps heps dist hw hsum hlast u h1 h2
      refine ⟨p, hp, ⟨h1, h2, h⟩, ?_⟩
      simpa [sampleMixed, h] using h3
    · rintro ⟨p, hp, ⟨h1, h2, h⟩, h3⟩
      exact ⟨h1, h2, by simpa [sampleMixed, h] using h3⟩
  unfold prob2
  rw [hset, measureReal_biUnion_finset (h := ?fin)]
  · rw [List.sum_toFinset _ hnd, List.map_map]
    congr 1
    refine List.map_congr_left fun p hp => ?_
    simp only [Function.comp]
    rw [measureReal_def, Measure.prod_prod, ENNReal.toReal_mul]
    congr 1
    exact c23_probability_partial eps heps dist hnd hw hsum hlast p.1 p.2 hp
  · intro p hp q hq hne
    simp only [Function.onFun]
    rw [Set.disjoint_left]
    rintro ⟨u, v⟩ ⟨⟨_, _, h1⟩, _⟩ ⟨⟨_, _, h2⟩, _⟩
    rw [h1] at h2
    exact hne (by simpa using h2)
  · intro p hp
    obtain ⟨a, b, h⟩ := hint p (by simpa using hp)
    rw [h]
    exact measurableSet_Ico.prod (hmeas p (by simpa using hp))
  case fin =>
    intro p hp
    obtain ⟨a, b, h⟩ := hint p (by simpa using hp)
    rw [h, Measure.prod_prod]
    exact ENNReal.mul_ne_top (by simp) (measure_ne_top _ _)

/-- A mixture of a constant and a fair coin, with weights 1/4 and 3/4. -/
example : prob2 (volume.restrict (Set.Ico (0 : ℝ) 1))
    (sampleMixed (1 / 10 ^ 12) [("const", 1 / 4), ("coin", 3 / 4)]
      fun p v => if p = "const" then Draw.key 0 else if v < 1 / 2 then .key 0 else .key 1) (· = .key (0 : Nat)) = 5 / 8 := by
  have hp : IsProbabilityMeasure ((volume : Measure ℝ).restrict (Set.Ico (0 : ℝ) 1)) := ⟨by simp⟩
  rw [c71_mixture_probability_partial _ _ (by norm_num) _ _ (by simp) (by simp; norm_num) (by simp; norm_num) (by simp)]
  · have h2 : ({v : ℝ | v < 1 / 2} ∩ Set.Ico (0 : ℝ) 1) = Set.Ico 0 (1 / 2) := by
      ext u; simp only [Set.mem_inter_iff, Set.mem_ofPred_eq, Set.mem_Ico]; constructor
      · rintro ⟨a, b, c⟩; exact ⟨b, a⟩
      · rintro ⟨a, b⟩; exact ⟨b, a, by linarith⟩
    have h3 : {v : ℝ | (if v < 1 / 2 then Draw.key 0 else .key 1) = Draw.key (0 : Nat)} = {v | v < 1 / 2} := by
      ext u
      simp only [Set.mem_ofPred_eq]
      split <;> simp_all
    have h4 : MeasurableSet {v : ℝ | v < 1 / 2} := measurableSet_Iio
    simp only [List.map_cons, List.map_nil, if_true, show ("coin" = "const") = False by decide, if_false, h3, List.sum_cons,
      List.sum_nil, measureReal_def, Measure.restrict_apply h4, h2]
    simp
    norm_num
  · intro p hp
    simp only [List.map_cons, List.map_nil, List.mem_cons, List.not_mem_nil, or_false] at hp
    rcases hp with rfl | rfl
    · simp
    · have h3 : {v : ℝ | (if v < 1 / 2 then Draw.key 0 else .key 1) = Draw.key (0 : Nat)} = Set.Iio (1 / 2) := by
        ext u
        simp only [Set.mem_ofPred_eq, Set.mem_Iio]
        split <;> simp_all
      simp only [show ("coin" = "const") = False by decide, if_false, h3]
      exact measurableSet_Iio

end Verif.Sampling

namespace Verif.EnvDefaults
open Verif.Spec Verif.Sampling

variable {S O A : Type}

/-! ## C72 default observations -/

/-- In a fully observable environment the observation is the next state, for every draw. -/
theorem c72_fully_observable {𝕜 : Type} [Field 𝕜] [LinearOrder 𝕜] (eps : 𝕜) (e : ObsEnv S O A 𝕜) (h : e.fullyObservable = true)
    (a : A) (s : S) (u : 𝕜) : sampleObs eps e a s u = some (.key (e.cast s)) := by
  simp [sampleObs, h]

/-- In a partially observable environment that does not define its observations both functions throw, for every draw: no wrong
observation is ever returned. -/
theorem c72_pomdp_without_override {𝕜 : Type} [Field 𝕜] [LinearOrder 𝕜] (eps : 𝕜) (e : ObsEnv S O A 𝕜)
    (h : e.fullyObservable = false) (ho : e.override = none) (a : A) (s : S) (u : 𝕜) :
    getObsDistr e a s = none ∧ sampleObs eps e a s u = none := by
  simp [sampleObs, getObsDistr, defaultObsDistr, h, ho]

/-- Whenever an environment states an observation distribution (and, if it is fully observable, uses the default one), the sampled
observation follows it: every observation is drawn with the probability stated.  (Weights non-negative, summing to one, the last one
positive, see C23.) -/
theorem c72_sample_follows_distr_partial [DecidableEq O] (eps : ℝ) (heps : 0 ≤ eps) (e : ObsEnv S O A ℝ)
    (hdef : e.fullyObservable = true → e.override = none) (a : A) (s : S) (distr : List (O × ℝ)) (hd : getObsDistr e a s = some distr)
    (hnd : (distr.map Prod.fst).Nodup) (hw : ∀ p ∈ distr, 0 ≤ p.2) (hsum : mass distr = 1)
    (hlast : ∀ p, distr.getLast? = some p → 0 < p.2) (o : O) (w : ℝ) (hmem : (o, w) ∈ distr) :
    prob (sampleObs eps e a s) (· = some (.key o)) = w := by
  cases hf : e.fullyObservable with
  | true =>
    simp only [getObsDistr, hdef hf, defaultObsDistr, hf, if_true, Option.some.injEq] at hd
    subst hd
    simp only [List.mem_singleton, Prod.mk.injEq] at hmem
    obtain ⟨rfl, rfl⟩ := hmem
    rw [prob_interval (a := 0) (b := 1) le_rfl le_rfl zero_le_one]
    · norm_num
    · intro u h0 h1
      simp [c72_fully_observable eps e hf, h0, h1]
  | false =>
    have : prob (sampleObs eps e a s) (· = some (.key o)) = prob (sampleFrom eps distr true) (· = .key o) := by
      simp [prob, sampleObs, hf, hd]
    rw [this]
    exact c23_probability_partial eps heps distr hnd hw hsum hlast o w hmem

/-- The condition is needed: an environment declared fully observable that overrides `get_observation_distribution_itfc` alone keeps
sampling the next state. -/
theorem c72_override_ignored_false : ∃ (e : ObsEnv Nat Nat Unit ℚ), getObsDistr e () 0 = some [(7, 1)] ∧
    ∀ u, sampleObs (1 / 10 ^ 12) e () 0 u = some (.key 0) :=
  ⟨⟨true, id, some fun _ _ => [(7, 1)]⟩, rfl, fun _ => rfl⟩

/-- A partially observable environment with two equally likely observations. -/
example : prob (sampleObs (1 / 10 ^ 12) (⟨false, fun _ => 0, some fun _ s => [(s, 1 / 2), (s + 1, 1 / 2)]⟩ : ObsEnv Nat Nat Unit ℝ) () 3)
    (· = some (.key 4)) = 1 / 2 :=
  c72_sample_follows_distr_partial _ (by norm_num) _ (by simp) () 3 [(3, 1 / 2), (4, 1 / 2)] rfl (by simp) (by simp) (by simp; norm_num)
    (by simp) 4 (1 / 2) (by simp)

end Verif.EnvDefaults
