import Verif.Proofs.FpAlias
import Verif.Props.Alias

/-!
# C89: the alias table in floating point
-/

namespace Verif.Props

open Verif.Fp
open Verif.Alias (Entry Cat PInv Settled total share)
open Verif.Spec (weightOf)

variable {K : Type} [DecidableEq K]

/-- A table of doubles as a table of real numbers. -/
def realTable (t : List (Entry K ℚ)) : List (Entry K ℝ) := t.map fun e => ⟨(e.threshold : ℝ), e.first, e.second⟩

/-- Sampling from a table of doubles compares the draw with the thresholds, which is exact. -/
theorem c89_real_table (t : List (Entry K ℚ)) (i : Nat) (u : ℚ) : ((realTable t)[i]?).map (·.pick (u : ℝ)) = (t[i]?).map (·.pick u) := by
  unfold realTable
  rw [List.getElem?_map]
  cases t[i]? with
  | none => rfl
  | some e =>
    simp only [Option.map_some, Entry.pick]
    have h1 : ((e.threshold : ℝ) < 1) ↔ e.threshold < 1 := by exact_mod_cast Iff.rfl
    have h2 : ((u : ℝ) < (e.threshold : ℝ)) ↔ u < e.threshold := by exact_mod_cast Iff.rfl
    simp only [h1, h2]

/-- The object of a categorical distribution with a table of doubles; the thresholds and weights as real numbers. -/
noncomputable def realCat (d : List (K × ℚ)) (t : List (Entry K ℚ)) (freq : Nat) : Cat K ℝ :=
  { distr := d.map fun p => (p.1, (p.2 : ℝ)), useAlias := true, freq, numUpdates := 0, table := realTable t }

theorem total_cast (t : List (Entry K ℚ)) (k : K) : ∀ j, total (share [] k) j (realTable t) = ((total (share [] k) j t : ℚ) : ℝ) := by
  induction t with
  | nil => intro j; simp [realTable, total]
  | cons e t ih =>
    intro j
    have := ih (j + 1)
    unfold realTable at this ⊢
    simp only [List.map_cons, total]
    rw [this]
    unfold share
    push_cast
    simp only [List.not_mem_nil, if_false]
    split_ifs <;> simp

theorem weight_sum (d : List (K × ℚ)) (c m : ℚ) (k : K) : (d.map fun p => if p.1 = k then p.2 * c / m else 0).sum = weightOf d k * c / m := by
  induction d with
  | nil => simp [weightOf, Verif.Spec.mass]
  | cons p d ih =>
    rw [List.map_cons, List.sum_cons, ih]
    unfold weightOf Verif.Spec.mass
    by_cases h : p.1 = k <;> simp [h]
    ring

/-- C89: for every list of non-negative double weights with a positive sum, building the table reads and writes no entry out of range; the table has an entry for each weight,
with a threshold in `[0, 1]`; every sample is a key of the distribution; and the probability of each key is its weight over the sum of the weights, up to
`(8 n + 11) 2^-53`. -/
theorem c89_alias {d : List (K × ℚ)} (hn : d.length ≤ 10 ^ 6) (hw : ∀ p ∈ d, IsDouble p.2 ∧ 0 ≤ p.2) (hpos : 0 < mass d) (freq : Nat) :
    ∃ t, construct d = some t ∧ t.length = d.length ∧ (∀ e ∈ t, IsDouble e.threshold ∧ 0 ≤ e.threshold ∧ e.threshold ≤ 1) ∧
      (∀ raw u, ∃ k ∈ d.map Prod.fst, (realCat d t freq).sampleAlias raw u = some k) ∧
      ∀ k, |(realCat d t freq).probOf k - (weightOf d k / mass d : ℚ)| ≤ ((8 * d.length + 11) * unit : ℚ) := by
  obtain ⟨t, target, h1, h2, h3, h4, h5⟩ := construct_spec hn hw hpos
  have hd0 : 0 < d.length := by
    cases d with
    | nil => simp [mass] at hpos
    | cons p d => simp
  have hdq : (0 : ℚ) < d.length := by exact_mod_cast hd0
  have hrest : ∀ e ∈ t, 0 ≤ e.threshold ∧ (e.threshold < 1 ∨ (e.threshold = 1 ∧ e.second = e.first)) := by
    intro e he
    obtain ⟨i, hi⟩ := List.getElem?_of_mem he
    exact h2.rest i e hi (by simp)
  refine ⟨t, h1, h4, fun e he => ?_, fun raw u => ?_, fun k => ?_⟩
  · obtain ⟨h6, h7⟩ := hrest e he
    refine ⟨(h3 e he).1, h6, ?_⟩
    rcases h7 with h | h
    · exact h.le
    · exact h.1.le
  · have hlt : raw % d.length < t.length := by rw [h4]; exact Nat.mod_lt _ hd0
    have hb := h3 t[raw % d.length] (List.getElem_mem hlt)
    rw [Verif.Alias.sampleAlias_eq _ _ _ (by simpa [realCat] using hd0)]
    simp only [realCat, realTable, List.length_map, List.getElem?_map, List.getElem?_eq_getElem hlt, Option.map_some]
    refine ⟨_, ?_, rfl⟩
    unfold Entry.pick
    simp only
    split_ifs
    · exact hb.2.2.1
    · exact hb.2.2.2.1
  · have hset : Settled (fun k => ((target k : ℚ) : ℝ)) (realCat d t freq).table := by
      refine ⟨fun e he => ?_, fun k => ?_⟩
      · obtain ⟨e', he', rfl⟩ := List.mem_map.1 he
        obtain ⟨h6, h7⟩ := hrest e' he'
        simp only
        refine ⟨by exact_mod_cast h6, ?_⟩
        rcases h7 with h | h
        · exact Or.inl (by exact_mod_cast h)
        · exact Or.inr ⟨by exact_mod_cast h.1, h.2⟩
      · simp only [realCat]
        rw [total_cast]
        have := h2.shares k
        simp only [List.append_nil] at this
        rw [this]
    rw [Verif.Alias.probOf_settled hset (by simp [realCat, realTable, h4]) k]
    have h6 := h5 k
    rw [weight_sum] at h6
    have h7 : |target k / d.length - weightOf d k / mass d| ≤ (8 * d.length + 11) * unit := by
      have h8 : target k / d.length - weightOf d k / mass d = (target k - weightOf d k * d.length / mass d) / d.length := by field_simp
      rw [h8, abs_div, abs_of_pos hdq, div_le_iff₀ hdq]
      linarith
    have h8 := (Rat.cast_le (K := ℝ)).2 h7
    rw [Rat.cast_abs] at h8
    simp only [realCat, List.length_map]
    push_cast at h8 ⊢
    exact h8

theorem share_le {t : List (Entry K ℚ)} {k : K} (h : ∀ e ∈ t, 0 ≤ e.threshold ∧ e.threshold ≤ 1) {e : Entry K ℚ} (he : e ∈ t) :
    (if e.first = k then e.threshold else 0) + (if e.second = k then 1 - e.threshold else 0) ≤ total (share [] k) 0 t := by
  obtain ⟨i, hi⟩ := List.getElem?_of_mem he
  have := (Verif.Alias.total_nonneg (share [] k) t 0 (fun i e he => by
    obtain ⟨h0, h1⟩ := h e (List.mem_of_getElem? he)
    unfold share
    simp only [List.not_mem_nil, if_false]
    split_ifs <;> linarith)).2 i e hi
  simpa [share] using this

/-- C89, outcomes of weight zero: a key without weight is never sampled. -/
theorem c89_zero_weight {d : List (K × ℚ)} (hn : d.length ≤ 10 ^ 6) (hw : ∀ p ∈ d, IsDouble p.2 ∧ 0 ≤ p.2) (hpos : 0 < mass d) (freq : Nat) {k : K}
    (hk : ∀ p ∈ d, p.1 = k → p.2 = 0) : ∃ t, construct d = some t ∧ ∀ raw u, 0 ≤ u → (realCat d t freq).sampleAlias raw u ≠ some k := by
  obtain ⟨t, target, h1, h2, h3, h4, h5⟩ := construct_spec hn hw hpos
  have hd0 : 0 < d.length := by
    cases d with
    | nil => simp [mass] at hpos
    | cons p d => simp
  have hrest : ∀ e ∈ t, 0 ≤ e.threshold ∧ e.threshold ≤ 1 := by
    intro e he
    obtain ⟨i, hi⟩ := List.getElem?_of_mem he
    obtain ⟨h6, h7⟩ := h2.rest i e hi (by simp)
    exact ⟨h6, by rcases h7 with h | h; exacts [h.le, h.1.le]⟩
  have htot : total (share [] k) 0 t < 1 := by
    have h6 := h2.shares k
    simp only [List.append_nil] at h6
    rw [h6]
    have h7 := h5 k
    have h8 : (d.map fun p => if p.1 = k then p.2 * d.length / mass d else 0).sum = 0 := by
      have : ∀ l : List (K × ℚ), (∀ p ∈ l, p.1 = k → p.2 = 0) → (l.map fun p => if p.1 = k then p.2 * d.length / mass d else 0).sum = 0 := by
        intro l
        induction l with
        | nil => intro _; rfl
        | cons p l ih =>
          intro h
          rw [List.map_cons, List.sum_cons, ih fun q hq => h q (by simp [hq])]
          by_cases hp : p.1 = k
          · rw [if_pos hp, h p (by simp) hp]; simp
          · rw [if_neg hp]; simp
      exact this d hk
    rw [h8, sub_zero] at h7
    have h9 := (abs_le.1 h7).2
    refine lt_of_le_of_lt h9 ?_
    have h10 : (d.length : ℚ) ≤ 10 ^ 6 := by exact_mod_cast hn
    have h11 : (d.length : ℚ) * ((8 * d.length + 11) * unit) ≤ 10 ^ 6 * ((8 * 10 ^ 6 + 11) * unit) :=
      mul_le_mul h10 (mul_le_mul_of_nonneg_right (by linarith) unit_pos.le) (mul_nonneg (by positivity) unit_pos.le) (by norm_num)
    refine lt_of_le_of_lt h11 ?_
    rw [unit_eq]
    norm_num
  refine ⟨t, h1, fun raw u hu => ?_⟩
  have hlt : raw % d.length < t.length := by rw [h4]; exact Nat.mod_lt _ hd0
  have hm := List.getElem_mem hlt
  rw [Verif.Alias.sampleAlias_eq _ _ _ (by simpa [realCat] using hd0)]
  simp only [realCat, realTable, List.length_map, List.getElem?_map, List.getElem?_eq_getElem hlt, Option.map_some]
  generalize t[raw % d.length] = e at hm
  obtain ⟨-, -, -, -, b5, b6⟩ := h3 e hm
  have hs := share_le (k := k) hrest hm
  unfold Entry.pick
  simp only
  have hsec : e.second ≠ k := by
    intro h
    have h6 : e.second = e.first := b6 (by rw [h]; exact hk)
    rw [if_pos h, if_pos (by rw [← h6, h])] at hs
    linarith
  split_ifs with h
  · intro hc
    have hf := Option.some.inj hc
    rcases b5 (by rw [hf]; exact hk) with h0 | h0
    · rw [h0] at h
      have := h.2
      push_cast at this
      linarith
    · rw [h0] at h
      have := h.1
      push_cast at this
      linarith
  · intro hc
    exact hsec (Option.some.inj hc)

/-- Non-vacuity: the key without weight among 0.1, 0.2, 0.3 and 0. -/
example : ∃ t, construct [("a", fl (1 / 10)), ("b", fl (2 / 10)), ("c", fl (3 / 10)), ("d", 0)] = some t ∧
    ∀ raw u, 0 ≤ u → (realCat [("a", fl (1 / 10)), ("b", fl (2 / 10)), ("c", fl (3 / 10)), ("d", 0)] t 1).sampleAlias raw u ≠ some "d" :=
  c89_zero_weight (by simp) (by decide +kernel) (by decide +kernel) 1 (by decide +kernel)

/-- Non-vacuity: the weights 0.1, 0.2, 0.3 and 0. -/
example : ∃ t, construct [("a", fl (1 / 10)), ("b", fl (2 / 10)), ("c", fl (3 / 10)), ("d", 0)] = some t ∧
    ∀ k, |(realCat [("a", fl (1 / 10)), ("b", fl (2 / 10)), ("c", fl (3 / 10)), ("d", 0)] t 1).probOf k -
      (weightOf [("a", fl (1 / 10)), ("b", fl (2 / 10)), ("c", fl (3 / 10)), ("d", 0)] k / mass [("a", fl (1 / 10)), ("b", fl (2 / 10)), ("c", fl (3 / 10)), ("d", 0)] : ℚ)| ≤ (43 * unit : ℚ) := by
  obtain ⟨t, h1, -, -, -, h5⟩ := c89_alias (d := [("a", fl (1 / 10)), ("b", fl (2 / 10)), ("c", fl (3 / 10)), ("d", 0)]) (by simp) (by decide +kernel) (by decide +kernel) 1
  refine ⟨t, h1, fun k => ?_⟩
  have := h5 k
  norm_num at this ⊢
  exact this

end Verif.Props
