import Verif.Proofs.FpUniform
import Verif.Proofs.FpMents

/-!
# C83: sampling tolerates the rounding of probabilities
-/

namespace Verif.Props

open Verif.Fp
open Verif.Sampling (Draw)

variable {K : Type}

/-- C83, as far as it holds: let the weights be doubles whose exact sum is within `δ` of one, none of them smaller than `δ` plus two rounding errors per key, and
all that far below `EPS`.  Then sampling never reports too much mass; it returns a key for every draw that is not within that distance of one; and the
key returned is the one in whose interval the draw lies, up to two rounding errors per key. Missing: draws close to one and tiny weights, where it fails. -/
theorem c83_sample_partial {dist : List (K × ℚ)} {δ u : ℚ} (hdbl : ∀ p ∈ dist, IsDouble p.2) (hsum : |mass dist - 1| ≤ δ)
    (hmin : ∀ p ∈ dist, δ + 2 * dist.length * unit < p.2) (hδ : δ + 2 * dist.length * unit ≤ 1 / (2 * 10 ^ 12)) (hu : 0 ≤ u) :
    sampleFrom dist true u ≠ .tooMuch ∧
    (u < 1 - δ - 2 * dist.length * unit → ∃ k, sampleFrom dist true u = .key k) ∧
    (∀ k, sampleFrom dist true u = .key k → ∃ pre w post, dist = pre ++ (k, w) :: post ∧
      mass pre - 2 * dist.length * unit ≤ u ∧ u < mass pre + w + 2 * dist.length * unit) := by
  have hδ0 : 0 ≤ δ := le_trans (abs_nonneg _) hsum
  have hs := abs_le.1 hsum
  have hne : dist ≠ [] := by
    rintro rfl
    rw [mass_nil] at hs
    simp only [List.length_nil, Nat.cast_zero] at hδ
    have : (1 : ℚ) / (2 * 10 ^ 12) < 1 := by norm_num
    linarith
  obtain ⟨h1, h2, h3⟩ := @sampleLoop_spec K δ u dist.length hδ0 (by linarith) dist 0 0 0 isDouble_zero (le_refl _) (le_refl _) (by simp) (by simp)
    (fun p hp => ⟨hdbl p hp, by have := hmin p hp; linarith⟩) (by linarith)
  have he : sampleFrom dist true u = sampleLoop 1 EPS12 u dist.length 0 0 dist := rfl
  rw [he]
  refine ⟨h1, fun hlt => ?_, fun k hk => ?_⟩
  · cases hd : sampleLoop 1 EPS12 u dist.length 0 0 dist with
    | key k => exact ⟨k, rfl⟩
    | tooMuch => exact absurd hd h1
    | tooLittle =>
      rcases h2 hd with h | h
      · exact absurd h hne
      · linarith
  · obtain ⟨pre, w, post, e, h4, h5⟩ := h3 k hk
    refine ⟨pre, w, post, e, ?_, by linarith⟩
    rcases h4 with rfl | h4
    · rw [mass_nil]
      have := unit_pos
      have : 0 ≤ 2 * (dist.length : ℚ) * unit := by positivity
      linarith
    · linarith

/-- The hypotheses are met by one third each, rounded. -/
example : let dist := [("a", fl (1 / 3)), ("b", fl (1 / 3)), ("c", fl (1 / 3))]
    (∀ p ∈ dist, IsDouble p.2) ∧ |mass dist - 1| ≤ unit ∧ mass dist ≠ 1 ∧ (∀ p ∈ dist, unit + 2 * dist.length * unit < p.2) ∧
      unit + 2 * dist.length * unit ≤ 1 / (2 * 10 ^ 12) := by
  simp only [unit_eq]
  decide +kernel

/-- Uniform distributions with up to 2000 keys, each with weight `1.0 / n`, are sampled without an exception, except perhaps for draws within `(2 n + 2) 2^-53` of one. -/
theorem c83_uniform_partial {n : Nat} (h0 : 1 ≤ n) (hn : n ≤ 2000) (key : Nat → K) {u : ℚ} (hu : 0 ≤ u) :
    let dist := (List.range n).map fun i => (key i, fdiv 1 (fl (n : ℚ)))
    sampleFrom dist true u ≠ .tooMuch ∧ (u < 1 - (2 * n + 2) * unit → ∃ i, i < n ∧ sampleFrom dist true u = .key (key i)) := by
  intro dist
  have hup := unit_pos
  have hus := unit_small
  have htp := tiny_pos
  have hnq : (1 : ℚ) ≤ n := by exact_mod_cast h0
  have hnq2 : (n : ℚ) ≤ 2000 := by exact_mod_cast hn
  obtain ⟨e1, e2, -⟩ := inv_err h0 (le_trans hn (by norm_num))
  set w := fdiv 1 (fl (n : ℚ)) with hw
  have hlen : dist.length = n := by simp [dist]
  have hmass : mass dist = n * w := by
    have : ∀ m : Nat, mass ((List.range m).map fun i => (key i, w)) = m * w := by
      intro m
      unfold mass
      rw [List.map_map]
      simp [Function.comp_def]
    exact this n
  have htn : (n : ℚ) * tiny ≤ unit / 2 := by
    have := tiny_8 (n := 1000) (by norm_num) tiny_le_unit
    have h3 : (n : ℚ) * tiny ≤ 2000 * tiny := mul_le_mul_of_nonneg_right hnq2 htp.le
    norm_num at this
    linarith
  have e1' := abs_le.1 e1
  have hnw : (n : ℚ) * (1 / n) = 1 := by field_simp
  have hsum : |mass dist - 1| ≤ 2 * unit := by
    rw [hmass]
    have h4 : (n : ℚ) * w - 1 = n * (w - 1 / n) := by rw [mul_sub, hnw]
    rw [h4, abs_mul, abs_of_pos (by linarith : (0 : ℚ) < n)]
    have h5 := mul_le_mul_of_nonneg_left e1 (by linarith : (0 : ℚ) ≤ n)
    have h6 : (n : ℚ) * (unit * (1 / n) + tiny) = unit * (n * (1 / n)) + n * tiny := by ring
    rw [h6, hnw] at h5
    linarith
  have hbig : 2 * unit + 2 * n * unit < w := by
    have h7 : 1 / 2000 ≤ 1 / (n : ℚ) := one_div_le_one_div_of_le (by linarith) hnq2
    have h8 : unit * (1 / n) ≤ unit := by
      have : 1 / (n : ℚ) ≤ 1 := by rw [div_le_one (by linarith)]; exact hnq
      nlinarith
    have h9 : 2 * (n : ℚ) * unit ≤ 4000 * unit := by nlinarith
    have h10 : tiny ≤ unit := by nlinarith
    have h11 : 4010 * unit < 1 / 2000 := by rw [unit_eq]; norm_num
    linarith
  have hmem : ∀ p ∈ dist, p.2 = w := by
    intro p hp
    obtain ⟨i, -, rfl⟩ := List.mem_map.1 hp
    rfl
  obtain ⟨h1, h2, h3⟩ := @c83_sample_partial K dist (2 * unit) u (fun p hp => by rw [hmem p hp]; exact isDouble_fl _) hsum
    (fun p hp => by rw [hmem p hp, hlen]; exact hbig) (by rw [hlen, unit_eq]; linarith) hu
  refine ⟨h1, fun hlt => ?_⟩
  obtain ⟨k, hk⟩ := h2 (by rw [hlen]; linarith)
  obtain ⟨pre, w', post, e, -, -⟩ := h3 k hk
  have : (k, w') ∈ dist := by rw [e]; simp
  obtain ⟨i, hi, e⟩ := List.mem_map.1 this
  refine ⟨i, List.mem_range.1 hi, ?_⟩
  rw [hk]
  congr 1
  exact (congrArg Prod.fst e).symm

/-- C83 is false for draws close to one: ten keys with probability `0.1` each; their sum in doubles is `1 - 2^-53`, which is also a possible draw. -/
theorem c83_high_draw_false : ¬ ∀ (dist : List (Nat × ℚ)) (u : ℚ), (∀ p ∈ dist, IsDouble p.2 ∧ 0 ≤ p.2) → |mass dist - 1| ≤ unit → IsDouble u → 0 ≤ u → u < 1 →
    ∃ k, sampleFrom dist true u = .key k := by
  intro h
  have h1 : sampleFrom ((List.range 10).map fun i => (i, fl (1 / 10))) true (1 - 2 ^ (-53 : ℤ)) = .tooLittle := by decide +kernel
  obtain ⟨k, hk⟩ := h ((List.range 10).map fun i => (i, fl (1 / 10))) (1 - 2 ^ (-53 : ℤ)) (by decide +kernel) (by rw [unit_eq]; decide +kernel)
    (by decide +kernel) (by decide +kernel) (by decide +kernel)
  rw [h1] at hk
  simp at hk

/-- C83 is false for tiny weights: with a key of probability one and one of probability `1.05e-16`, in this order, sampling throws whatever the draw. The
exact sum is one up to a single rounding error. -/
theorem c83_tiny_weight_false :
    let dist := [("likely", (1 : ℚ)), ("unlikely", fl (105 / 10 ^ 18))]
    (∀ p ∈ dist, IsDouble p.2 ∧ 0 < p.2) ∧ |mass dist - 1| ≤ unit ∧ ∀ u, sampleFrom dist true u = .tooMuch := by
  refine ⟨by decide +kernel, by rw [unit_eq]; decide +kernel, fun u => ?_⟩
  have h1 : fadd 0 (fdiv 1 1) = 1 := by decide +kernel
  unfold sampleFrom
  simp only [if_true]
  rw [sampleLoop, h1]
  simp

/-- C83 is false for large uniform distributions: with 36217 keys of probability `1.0 / 36217` each, sampling throws for every draw above `0.99998`, that
is whenever the last key should be returned. -/
theorem c83_uniform_false {u : ℚ} (h1 : 99998 / 100000 ≤ u) (h2 : u < 1) :
    let dist := (List.range 36217).map fun i => (i, fdiv 1 (fl ((36217 : Nat) : ℚ)))
    |mass dist - 1| ≤ 1 / 10 ^ 15 ∧ sampleFrom dist true u = .tooMuch := by
  intro dist
  have hlen : dist.length = 36217 := by simp [dist]
  have hmem : ∀ p ∈ dist, p.2 = w36217 := by
    intro p hp
    obtain ⟨i, -, rfl⟩ := List.mem_map.1 hp
    rfl
  constructor
  · have : mass dist = 36217 * w36217 := by
      have : ∀ m : Nat, mass ((List.range m).map fun i => (i, w36217)) = m * w36217 := by
        intro m
        unfold mass
        rw [List.map_map]
        simp [Function.comp_def]
      have := this 36217
      push_cast at this
      exact this
    rw [this]
    unfold w36217
    decide +kernel
  · unfold sampleFrom
    rw [hlen]
    simp only [if_true]
    refine sampleLoop_uniform (w := w36217) (isDouble_fl _) (by unfold w36217; decide +kernel) h2 dist 0 0 ?_ hmem isDouble_zero ?_ ?_
    · intro h; rw [h] at hlen; simp at hlen
    · rw [hlen, acc_all]
      refine le_trans ?_ h1
      norm_num
    · rw [hlen, accum_add w36217 36216 1 0, acc_all]
      unfold w36217
      decide +kernel

example : |(mass ((List.range 36217).map fun i => (i, fdiv 1 (fl ((36217 : Nat) : ℚ))))) - 1| ≤ 1 / 10 ^ 15 :=
  (c83_uniform_false (u := 99999 / 100000) (by norm_num) (by norm_num)).1

end Verif.Props
