import Verif.Proofs.Sampling
import Mathlib.Tactic.NormNum

/-! # Properties C21-C24: random helpers -/

namespace Verif.Sampling
open Verif.Spec

variable {K 𝕜 : Type}

/-! ## C21 random integers -/

/-- With `lo < hi` a value is returned and it lies in `[lo, hi)`. -/
theorem c21_in_range (raw : Nat) (lo hi : Int) (h : lo < hi) :
    ∃ v, getRandInt raw lo hi = some v ∧ lo ≤ v ∧ v < hi := by
  refine ⟨_, getRandInt_eq h, by omega, ?_⟩
  have : raw % (hi - lo).toNat < (hi - lo).toNat := Nat.mod_lt _ (by omega)
  omega

/-- Every value of a range no longer than the generator's is produced by some generator output. -/
theorem c21_every_value (randMax : Nat) (lo hi v : Int) (hv : lo ≤ v ∧ v < hi) (hr : hi - lo ≤ randMax + 1) :
    ∃ raw ≤ randMax, getRandInt raw lo hi = some v := by
  refine ⟨(v - lo).toNat, by omega, ?_⟩
  rw [getRandInt_eq (by omega), Nat.mod_eq_of_lt (by omega)]
  congr 1
  omega

/-- The number of generator outputs in `[0, randMax]` that produce `v`. -/
def outputsProducing (randMax : Nat) (lo hi v : Int) : Nat :=
  (List.range (randMax + 1)).countP fun raw => getRandInt raw lo hi = some v

/-- Two values of the range are produced by almost the same number of generator outputs. -/
theorem c21_near_uniform (randMax : Nat) (lo hi v v' : Int) (hv : lo ≤ v ∧ v < hi) (hv' : lo ≤ v' ∧ v' < hi) :
    outputsProducing randMax lo hi v ≤ outputsProducing randMax lo hi v' + 1 := by
  have key : ∀ x : Int, lo ≤ x ∧ x < hi → outputsProducing randMax lo hi x =
      (randMax + 1) / (hi - lo).toNat +
        if (x - lo).toNat % (hi - lo).toNat < (randMax + 1) % (hi - lo).toNat then 1 else 0 := by
    intro x hx
    have hpos : 0 < (hi - lo).toNat := by omega
    rw [← Nat.count_modEq_card (randMax + 1) hpos (x - lo).toNat]
    unfold outputsProducing
    have hc : ∀ n, (List.range n).countP (fun raw => decide (getRandInt raw lo hi = some x)) =
        Nat.count (· ≡ (x - lo).toNat [MOD (hi - lo).toNat]) n := by
      intro n
      induction n with
      | zero => simp
      | succ n ih =>
        have h1 : (x - lo).toNat % (hi - lo).toNat = (x - lo).toNat := Nat.mod_eq_of_lt (by omega)
        have hiff : getRandInt n lo hi = some x ↔ n ≡ (x - lo).toNat [MOD (hi - lo).toNat] := by
          rw [getRandInt_eq (by omega)]
          simp only [Nat.ModEq, h1, Option.some.injEq]
          omega
        rw [List.range_succ, List.countP_append, ih, Nat.count_succ]
        simp [hiff]
    exact hc _
  rw [key v hv, key v' hv']
  split <;> split <;> omega

/-- An empty range has no value: `lo = hi` is undefined behaviour and `lo > hi` leaves the range. -/
theorem c21_empty_range (raw : Nat) (lo hi : Int) (h : hi ≤ lo) :
    ¬ ∃ v, getRandInt raw lo hi = some v ∧ lo ≤ v ∧ v < hi := by
  rintro ⟨v, _, h1, h2⟩
  omega

theorem c21_equal_bounds_ub (raw : Nat) (lo : Int) : getRandInt raw lo lo = none := by
  simp [getRandInt]

example : getRandInt 17 (-2) 3 = some 0 ∧ outputsProducing 9 0 4 1 = 3 ∧ outputsProducing 9 0 4 2 = 2 := by decide

/-! ## C22 best key -/

/-- The returned key is one with the largest value, for every random number (for a map with some value not below
`lowest`, that is, not minus infinity). -/
theorem c22_returns_maximiser [LinearOrder 𝕜] (low : 𝕜) (m : List (K × 𝕜)) (raw : Nat)
    (h : ∃ p ∈ m, low ≤ p.2) : ∃ k, getMaxKey low m raw = some k ∧ IsBest m k := by
  obtain ⟨p, hp, hlow⟩ := h
  obtain ⟨q, hq, hmax⟩ := exists_max m (List.ne_nil_of_mem hp)
  have hbest : low ≤ q.2 := le_trans hlow (hmax p hp)
  have heq := maxKeyLoop_eq q.2 m low [] (fun r hr => hmax r hr) hbest (Or.inr ⟨q, hq, rfl⟩)
  simp only [ite_self, List.nil_append] at heq
  have hne : maxKeyLoop m low [] ≠ [] := by
    rw [heq]
    exact List.ne_nil_of_mem (List.mem_map.mpr ⟨q, List.mem_filter.mpr ⟨hq, by simp⟩, rfl⟩)
  rw [getMaxKey_eq low m raw hne]
  have hlt : raw % (maxKeyLoop m low []).length < (maxKeyLoop m low []).length :=
    Nat.mod_lt _ (List.length_pos_of_ne_nil hne)
  refine ⟨_, List.getElem?_eq_getElem hlt, ?_⟩
  have hmem := List.getElem_mem hlt
  generalize (maxKeyLoop m low [])[raw % (maxKeyLoop m low []).length] = k at hmem
  rw [heq] at hmem
  obtain ⟨⟨k', v⟩, hr, rfl⟩ := List.mem_map.mp hmem
  obtain ⟨hr1, hr2⟩ := List.mem_filter.mp hr
  simp at hr2
  exact ⟨v, hr1, fun p hp => hr2 ▸ hmax p hp⟩

/-- Every key with the largest value is returned for some random number, below the number of keys. -/
theorem c22_every_maximiser [LinearOrder 𝕜] (low : 𝕜) (m : List (K × 𝕜)) (k : K) (hk : IsBest m k)
    (h : ∃ p ∈ m, low ≤ p.2) : ∃ raw < m.length, getMaxKey low m raw = some k := by
  obtain ⟨v, hv, hmax⟩ := hk
  obtain ⟨p, hp, hlow⟩ := h
  have heq := maxKeyLoop_eq v m low [] hmax (le_trans hlow (hmax p hp)) (Or.inr ⟨_, hv, rfl⟩)
  simp only [ite_self, List.nil_append] at heq
  have hmem : k ∈ maxKeyLoop m low [] := by
    rw [heq]
    exact List.mem_map.mpr ⟨(k, v), List.mem_filter.mpr ⟨hv, by simp⟩, rfl⟩
  obtain ⟨i, hi, hik⟩ := List.getElem_of_mem hmem
  have hlen : (maxKeyLoop m low []).length ≤ m.length := by
    rw [heq, List.length_map]
    exact List.length_filter_le _ _
  refine ⟨i, by omega, ?_⟩
  rw [getMaxKey_eq low m i (List.ne_nil_of_mem hmem), Nat.mod_eq_of_lt hi, List.getElem?_eq_getElem hi, hik]

/-- Only the keys with the largest value (in iteration order) matter: all of them are equally represented, and the values of
the others are irrelevant.  `M` is the largest value. -/
theorem c22_only_maximisers_matter [LinearOrder 𝕜] (low : 𝕜) (m : List (K × 𝕜)) (raw : Nat) (M : 𝕜)
    (hM : ∀ p ∈ m, p.2 ≤ M) (hex : ∃ p ∈ m, p.2 = M) (hlow : low ≤ M) :
    getMaxKey low m raw =
      (let best := (m.filter fun p => p.2 = M).map Prod.fst; best[raw % best.length]?) := by
  have heq := maxKeyLoop_eq M m low [] hM hlow (Or.inr hex)
  simp only [ite_self, List.nil_append] at heq
  obtain ⟨q, hq, hqM⟩ := hex
  have hne : maxKeyLoop m low [] ≠ [] := by
    rw [heq]
    exact List.ne_nil_of_mem (List.mem_map.mpr ⟨q, List.mem_filter.mpr ⟨hq, by simp [hqM]⟩, rfl⟩)
  rw [getMaxKey_eq low m raw hne, heq]

/-- With no key, or all values below `lowest` (minus infinity), the call is undefined behaviour. -/
theorem c22_no_key_ub [LinearOrder 𝕜] (low : 𝕜) (m : List (K × 𝕜)) (raw : Nat) (h : ∀ p ∈ m, p.2 < low) :
    getMaxKey low m raw = none := by
  simp [getMaxKey, maxKeyLoop_none low m [] h, getRandInt]

example : getMaxKey (-100 : Int) [(0, 3), (1, 7), (2, 7), (3, -5)] 5 = some 2 := by decide
example : IsBest [((0 : Nat), (3 : Int)), (1, 7), (2, 7)] 2 := ⟨7, by decide, by decide⟩

/-! ## C23 normalised distributions -/

section
variable [Field 𝕜] [LinearOrder 𝕜] [IsStrictOrderedRing 𝕜]

/-- The property as a user expects it is false of the code: if the entry visited last has weight zero, the call
throws although the weights are non-negative and sum to one.  Here for every draw. -/
theorem c23_zero_weight_last_false :
    ∃ dist : List (Nat × ℚ), (dist.map Prod.fst).Nodup ∧ (∀ p ∈ dist, 0 ≤ p.2) ∧ mass dist = 1 ∧
      ∀ u : ℚ, sampleFrom (1 / 10 ^ 12) dist true u = .tooMuch := by
  refine ⟨[(0, 1), (1, 0)], by decide, by simp, by simp, fun u => ?_⟩
  norm_num [sampleFrom, sampleLoop]

/-- What happens in general when zero weights come last: exactly the draws that belong to the last key with positive weight
throw instead. -/
theorem c23_zero_weight_last_throws (eps : 𝕜) (heps : 0 ≤ eps) (pre zeros : List (K × 𝕜)) (k : K) (w : 𝕜)
    (hpre : ∀ p ∈ pre, 0 ≤ p.2) (hw : 0 < w) (hz : ∀ p ∈ zeros, p.2 = 0) (hzne : zeros ≠ [])
    (hsum : mass (pre ++ (k, w) :: zeros) = 1) (u : 𝕜) (hu : 0 ≤ u) :
    sampleFrom eps (pre ++ (k, w) :: zeros) true u = .tooMuch ↔ mass pre ≤ u := by
  have hmz : mass zeros = 0 := by
    clear hsum hzne
    induction zeros with
    | nil => rfl
    | cons p l ih => simp [hz p (by simp), ih fun q hq => hz q (by simp [hq])]
  simp only [mass_append, mass_cons, hmz, add_zero] at hsum
  have gen : ∀ (l : List (K × 𝕜)) (i : Nat) (run : 𝕜) (n : Nat), (∀ p ∈ l, 0 ≤ p.2) → run + mass l + w = 1 →
      i + l.length + 1 < n → run ≤ u →
      (sampleLoop 1 eps u n i run (l ++ (k, w) :: zeros) = .tooMuch ↔ run + mass l ≤ u) := by
    intro l
    induction l with
    | nil =>
      intro i run n _ h hn hr
      simp only [mass_nil, add_zero, List.length_nil] at h hn
      have h2 : (1 : 𝕜) ≤ run + w / 1 ∧ i + 1 < n := ⟨by simp [h], hn⟩
      simp [sampleLoop, h2.2, h, hr]
    | cons p l ih =>
      intro i run n hl h hn hr
      obtain ⟨k', w'⟩ := p
      have hw' : 0 ≤ w' := hl (k', w') (by simp)
      have hml := mass_nonneg fun q hq => hl q (List.mem_cons_of_mem _ hq)
      simp only [mass_cons, List.length_cons] at h hn
      have h1 : ¬ (1 + eps < run + w' / 1 ∨ (1 ≤ run + w' / 1 ∧ i + 1 < n)) := by
        rw [div_one]
        rintro (h1 | ⟨h1, _⟩) <;> linarith
      simp only [List.cons_append, sampleLoop, h1, if_false, mass_cons]
      simp only [div_one]
      by_cases h2 : u < run + w'
      · simp only [h2, if_true]
        constructor
        · intro h3; simp at h3
        · intro h3; linarith
      · simp only [h2, if_false]
        rw [ih (i + 1) (run + w') n (fun q hq => hl q (List.mem_cons_of_mem _ hq)) (by linarith) (by omega)
          (not_lt.mp h2)]
        constructor <;> intro h3 <;> linarith
  have := gen pre 0 0 (pre ++ (k, w) :: zeros).length hpre (by linarith)
    (by simp; exact List.length_pos_of_ne_nil hzne) hu
  simpa [sampleFrom] using this

/-- For non-negative weights that sum to one, and a last entry of positive weight: the draw is the key whose cumulative
interval contains `u`. -/
theorem c23_inverse_cdf_partial (eps : 𝕜) (heps : 0 ≤ eps) (dist : List (K × 𝕜)) (hnd : (dist.map Prod.fst).Nodup)
    (hw : ∀ p ∈ dist, 0 ≤ p.2) (hsum : mass dist = 1) (hlast : ∀ p, dist.getLast? = some p → 0 < p.2)
    (u : 𝕜) (hu : 0 ≤ u) (pre suf : List (K × 𝕜)) (k : K) (w : 𝕜) (hd : dist = pre ++ (k, w) :: suf) :
    sampleFrom eps dist true u = .key k ↔ mass pre ≤ u ∧ u < mass pre + w := by
  have h1 : sampleFrom eps dist true u = pickAt 1 u 0 dist := by
    unfold sampleFrom
    simp only [if_true]
    refine sampleLoop_eq_pickAt 1 eps u _ heps one_pos dist 0 0 (by simp) hw (by simp [hsum]) ?_
    intro pre suf he hs _
    have := prefix_lt hw hlast he hs
    simp only [zero_add, div_one]
    linarith
  subst hd
  rw [h1, pickAt_iff 1 u one_pos pre k w suf 0 hnd hw hu]
  simp

/-- Under the same conditions the call never throws. -/
theorem c23_never_throws_partial (eps : 𝕜) (heps : 0 ≤ eps) (dist : List (K × 𝕜))
    (hw : ∀ p ∈ dist, 0 ≤ p.2) (hsum : mass dist = 1) (hlast : ∀ p, dist.getLast? = some p → 0 < p.2)
    (u : 𝕜) (hu : 0 ≤ u) (hu1 : u < 1) : ∃ k ∈ dist.map Prod.fst, sampleFrom eps dist true u = .key k := by
  have h1 : sampleFrom eps dist true u = pickAt 1 u 0 dist := by
    unfold sampleFrom
    simp only [if_true]
    refine sampleLoop_eq_pickAt 1 eps u _ heps one_pos dist 0 0 (by simp) hw (by simp [hsum]) ?_
    intro pre suf he hs _
    have := prefix_lt hw hlast he hs
    simp only [zero_add, div_one]
    linarith
  obtain ⟨k, hk⟩ := pickAt_total 1 u dist 0 hu (by simp [hsum, hu1])
  exact ⟨k, pickAt_mem 1 u dist 0 k hk, h1.trans hk⟩

end

/-- Under the same conditions each key is drawn with probability equal to its weight; in particular a key of weight zero
is never drawn. -/
theorem c23_probability_partial [DecidableEq K] (eps : ℝ) (heps : 0 ≤ eps) (dist : List (K × ℝ))
    (hnd : (dist.map Prod.fst).Nodup) (hw : ∀ p ∈ dist, 0 ≤ p.2) (hsum : mass dist = 1)
    (hlast : ∀ p, dist.getLast? = some p → 0 < p.2) (k : K) (w : ℝ) (hk : (k, w) ∈ dist) :
    prob (sampleFrom eps dist true) (· = .key k) = w := by
  obtain ⟨pre, suf, hd⟩ := List.append_of_mem hk
  have hm : mass pre + (w + mass suf) = 1 := by rw [← hsum, hd]; simp
  have h1 : 0 ≤ mass pre := mass_nonneg fun p hp => hw p (by simp [hd, hp])
  have h2 : 0 ≤ mass suf := mass_nonneg fun p hp => hw p (by simp [hd, hp])
  have h3 : 0 ≤ w := hw (k, w) hk
  rw [prob_interval (a := mass pre) (b := mass pre + w) h1 (by linarith) (by linarith)
    (fun u hu _ => c23_inverse_cdf_partial eps heps dist hnd hw hsum hlast u hu pre suf k w hd)]
  ring

/-- The hypotheses are met by a distribution with a zero weight in the middle. -/
example : ∃ dist : List (Nat × ℝ), (dist.map Prod.fst).Nodup ∧ (∀ p ∈ dist, 0 ≤ p.2) ∧ mass dist = 1 ∧
    (∀ p, dist.getLast? = some p → 0 < p.2) ∧ prob (sampleFrom (1 / 10 ^ 12) dist true) (· = .key 0) = 1 / 4 ∧
    prob (sampleFrom (1 / 10 ^ 12) dist true) (· = .key 1) = 0 := by
  have h1 : ([(0, 1 / 4), (1, 0), (2, 3 / 4)] : List (Nat × ℝ)).map Prod.fst = [0, 1, 2] := rfl
  have hnd : (([(0, 1 / 4), (1, 0), (2, 3 / 4)] : List (Nat × ℝ)).map Prod.fst).Nodup := by rw [h1]; decide
  have hw : ∀ p ∈ ([(0, 1 / 4), (1, 0), (2, 3 / 4)] : List (Nat × ℝ)), 0 ≤ p.2 := by simp; norm_num
  have hs : mass ([(0, 1 / 4), (1, 0), (2, 3 / 4)] : List (Nat × ℝ)) = 1 := by simp; norm_num
  have hl : ∀ p, ([(0, 1 / 4), (1, 0), (2, 3 / 4)] : List (Nat × ℝ)).getLast? = some p → 0 < p.2 := by
    simp
  exact ⟨_, hnd, hw, hs, hl, c23_probability_partial _ (by norm_num) _ hnd hw hs hl 0 _ (by simp),
    c23_probability_partial _ (by norm_num) _ hnd hw hs hl 1 _ (by simp)⟩

/-! ## C24 unnormalised weights -/

/-- False of the code: weights that sum to less than one are rejected.  Here for every draw. -/
theorem c24_small_sum_false :
    ∃ dist : List (Nat × ℚ), (dist.map Prod.fst).Nodup ∧ (∀ p ∈ dist, 0 < p.2) ∧
      ∀ u : ℚ, sampleFrom (1 / 10 ^ 12) dist false u = .tooMuch := by
  refine ⟨[(0, 1 / 4), (1, 1 / 4)], by decide, by simp, fun u => ?_⟩
  norm_num [sampleFrom, sampleLoop, sumWeights]

section
variable [Field 𝕜] [LinearOrder 𝕜] [IsStrictOrderedRing 𝕜]

/-- In general, when the weights sum to less than `1 - EPS` the key visited last can never be drawn, whatever its weight. -/
theorem c24_small_sum_throws (eps : 𝕜) (pre : List (K × 𝕜)) (k : K) (w : 𝕜) (hk : k ∉ pre.map Prod.fst)
    (hpos : 0 < mass (pre ++ [(k, w)])) (hsmall : mass (pre ++ [(k, w)]) + eps < 1) (u : 𝕜) :
    sampleFrom eps (pre ++ [(k, w)]) false u ≠ .key k := by
  have gen : ∀ (l : List (K × 𝕜)) (i n : Nat) (sum run : 𝕜), k ∉ l.map Prod.fst → sum + eps < run + mass (l ++ [(k, w)]) / sum →
      sampleLoop sum eps u n i run (l ++ [(k, w)]) ≠ .key k := by
    intro l
    induction l with
    | nil =>
      intro i n sum run _ h
      have h' : sum + eps < run + w / sum := by simpa using h
      simp [sampleLoop, h']
    | cons p l ih =>
      intro i n sum run hk h
      obtain ⟨k', w'⟩ := p
      simp only [List.map_cons, List.mem_cons, not_or] at hk
      simp only [List.cons_append, sampleLoop]
      split
      · simp
      · split
        · intro he
          simp only [Draw.key.injEq] at he
          exact hk.1 he.symm
        · refine ih _ _ _ _ hk.2 ?_
          simp only [List.cons_append, mass_cons, add_div] at h
          linarith
  unfold sampleFrom
  simp only [Bool.false_eq_true, if_false, sumWeights_eq]
  refine gen pre 0 _ _ 0 hk ?_
  rw [div_self hpos.ne']
  linarith

/-- For non-negative weights that sum to more than one (or to one with a last entry of positive weight) the draw is the
key whose cumulative normalised interval contains `u`. -/
theorem c24_inverse_cdf_partial (eps : 𝕜) (heps : 0 ≤ eps) (dist : List (K × 𝕜)) (hnd : (dist.map Prod.fst).Nodup)
    (hw : ∀ p ∈ dist, 0 ≤ p.2)
    (hsum : 1 < mass dist ∨ (mass dist = 1 ∧ ∀ p, dist.getLast? = some p → 0 < p.2))
    (u : 𝕜) (hu : 0 ≤ u) (pre suf : List (K × 𝕜)) (k : K) (w : 𝕜) (hd : dist = pre ++ (k, w) :: suf) :
    sampleFrom eps dist false u = .key k ↔
      mass pre / mass dist ≤ u ∧ u < mass pre / mass dist + w / mass dist := by
  have hpos : 0 < mass dist := by
    rcases hsum with h | ⟨h, _⟩
    · exact lt_trans one_pos h
    · rw [h]; exact one_pos
  have h1 : sampleFrom eps dist false u = pickAt (mass dist) u 0 dist := by
    unfold sampleFrom
    simp only [Bool.false_eq_true, if_false, sumWeights_eq]
    refine sampleLoop_eq_pickAt _ eps u _ heps hpos dist 0 0 (by simp) hw ?_ ?_
    · rw [div_self hpos.ne', zero_add]
      rcases hsum with h | ⟨h, _⟩
      · exact h.le
      · rw [h]
    · intro pre suf he hs _
      rcases hsum with h | ⟨h, hlast⟩
      · have h2 : mass pre ≤ mass dist := by
          rw [he, mass_append]
          have := mass_nonneg (l := suf) fun p hp => hw p (by simp [he, hp])
          linarith
        have : mass pre / mass dist ≤ 1 := (div_le_one hpos).mpr h2
        linarith
      · have := prefix_lt hw hlast he hs
        rw [h] at this ⊢
        simpa using this
  rw [h1]
  generalize mass dist = s at hpos ⊢
  subst hd
  rw [pickAt_iff s u hpos pre k w suf 0 hnd hw hu]
  simp

/-- Under the same conditions the call never throws. -/
theorem c24_never_throws_partial (eps : 𝕜) (heps : 0 ≤ eps) (dist : List (K × 𝕜))
    (hw : ∀ p ∈ dist, 0 ≤ p.2)
    (hsum : 1 < mass dist ∨ (mass dist = 1 ∧ ∀ p, dist.getLast? = some p → 0 < p.2))
    (u : 𝕜) (hu : 0 ≤ u) (hu1 : u < 1) : ∃ k ∈ dist.map Prod.fst, sampleFrom eps dist false u = .key k := by
  have hpos : 0 < mass dist := by
    rcases hsum with h | ⟨h, _⟩
    · exact lt_trans one_pos h
    · rw [h]; exact one_pos
  have h1 : sampleFrom eps dist false u = pickAt (mass dist) u 0 dist := by
    unfold sampleFrom
    simp only [Bool.false_eq_true, if_false, sumWeights_eq]
    refine sampleLoop_eq_pickAt _ eps u _ heps hpos dist 0 0 (by simp) hw ?_ ?_
    · rw [div_self hpos.ne', zero_add]
      rcases hsum with h | ⟨h, _⟩
      · exact h.le
      · rw [h]
    · intro pre suf he hs _
      rcases hsum with h | ⟨h, hlast⟩
      · have h2 : mass pre ≤ mass dist := by
          rw [he, mass_append]
          have := mass_nonneg (l := suf) fun p hp => hw p (by simp [he, hp])
          linarith
        have : mass pre / mass dist ≤ 1 := (div_le_one hpos).mpr h2
        linarith
      · have := prefix_lt hw hlast he hs
        rw [h] at this ⊢
        simpa using this
  obtain ⟨k, hk⟩ := pickAt_total (mass dist) u dist 0 hu (by rw [div_self hpos.ne']; simpa using hu1)
  exact ⟨k, pickAt_mem _ u dist 0 k hk, h1.trans hk⟩

end

/-- Under the same conditions each key is drawn with probability weight / sum. -/
theorem c24_probability_partial (eps : ℝ) (heps : 0 ≤ eps) (dist : List (K × ℝ))
    (hnd : (dist.map Prod.fst).Nodup) (hw : ∀ p ∈ dist, 0 ≤ p.2)
    (hsum : 1 < mass dist ∨ (mass dist = 1 ∧ ∀ p, dist.getLast? = some p → 0 < p.2))
    (k : K) (w : ℝ) (hk : (k, w) ∈ dist) :
    prob (sampleFrom eps dist false) (· = .key k) = w / mass dist := by
  obtain ⟨pre, suf, hd⟩ := List.append_of_mem hk
  have hpos : 0 < mass dist := by
    rcases hsum with h | ⟨h, _⟩
    · exact lt_trans one_pos h
    · rw [h]; exact one_pos
  have hm : mass pre / mass dist + (w / mass dist + mass suf / mass dist) = 1 := by
    rw [← add_div, ← add_div, ← div_self hpos.ne']
    congr 1
    rw [hd]; simp
  have h1 : 0 ≤ mass pre / mass dist := div_nonneg (mass_nonneg fun p hp => hw p (by simp [hd, hp])) hpos.le
  have h2 : 0 ≤ mass suf / mass dist := div_nonneg (mass_nonneg fun p hp => hw p (by simp [hd, hp])) hpos.le
  have h3 : 0 ≤ w / mass dist := div_nonneg (hw (k, w) hk) hpos.le
  rw [prob_interval (a := mass pre / mass dist) (b := mass pre / mass dist + w / mass dist) h1 (by linarith)
    (by linarith) (fun u hu _ => c24_inverse_cdf_partial eps heps dist hnd hw hsum u hu pre suf k w hd)]
  ring

/-- The hypotheses are met by the weights 1, 0, 3 and 0. -/
example : prob (sampleFrom (1 / 10 ^ 12) ([(0, 1), (1, 0), (2, 3), (3, 0)] : List (Nat × ℝ)) false) (· = .key 2) = 3 / 4 := by
  have := c24_probability_partial (1 / 10 ^ 12) (by norm_num) ([(0, 1), (1, 0), (2, 3), (3, 0)] : List (Nat × ℝ))
    (by simp) (by simp) (Or.inl (by simp)) 2 3 (by simp)
  rw [this]
  simp; norm_num

end Verif.Sampling
