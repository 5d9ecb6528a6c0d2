import Verif.Proofs.FpArith
import Mathlib.Algebra.BigOperators.Group.List.Basic

/-!
# Sampling with rounded probabilities
-/

namespace Verif.Fp

open Verif.Sampling (Draw)

variable {K : Type}

theorem eps12_double : IsDouble EPS12 := isDouble_fl _

theorem threshold_ge : 1 + 1 / (2 * 10 ^ 12) ≤ fadd 1 EPS12 := by decide +kernel

theorem mass_nil : mass ([] : List (K × ℚ)) = 0 := rfl
theorem mass_cons (p : K × ℚ) (l : List (K × ℚ)) : mass (p :: l) = p.2 + mass l := by simp [mass]

theorem mass_nonneg {l : List (K × ℚ)} (h : ∀ p ∈ l, 0 ≤ p.2) : 0 ≤ mass l := by
  induction l with
  | nil => simp [mass]
  | cons p l ih =>
    rw [mass_cons]
    have := h p (by simp)
    have := ih fun q hq => h q (by simp [hq])
    linarith

theorem le_mass {l : List (K × ℚ)} (h : ∀ p ∈ l, 0 ≤ p.2) {p : K × ℚ} (hp : p ∈ l) : p.2 ≤ mass l := by
  induction l with
  | nil => simp at hp
  | cons q l ih =>
    rw [mass_cons]
    have hq := h q (by simp)
    have hl := mass_nonneg fun q hq => h q (List.mem_cons_of_mem _ hq)
    rcases List.mem_cons.1 hp with rfl | hp
    · linarith
    · have := ih (fun q hq => h q (by simp [hq])) hp
      linarith

/-- What the loop does from a point where the running mass is within `i` errors of the exact one. -/
theorem sampleLoop_spec {δ u : ℚ} {n : Nat} (hδ : 0 ≤ δ) (hn : δ + n * (2 * unit) ≤ 1 / (2 * 10 ^ 12)) :
    ∀ (rest : List (K × ℚ)) (i : Nat) (run P : ℚ), IsDouble run → 0 ≤ run → 0 ≤ P → |run - P| ≤ i * (2 * unit) → i + rest.length = n →
      (∀ p ∈ rest, IsDouble p.2 ∧ δ + n * (2 * unit) < p.2) → P + mass rest ≤ 1 + δ →
      sampleLoop 1 EPS12 u n i run rest ≠ .tooMuch ∧
      (sampleLoop 1 EPS12 u n i run rest = .tooLittle → rest = [] ∨ P + mass rest - n * (2 * unit) ≤ u) ∧
      (∀ k, sampleLoop 1 EPS12 u n i run rest = .key k → ∃ pre w post, rest = pre ++ (k, w) :: post ∧
        (pre = [] ∨ P + mass pre - n * (2 * unit) ≤ u) ∧ u < P + mass pre + w + n * (2 * unit)) := by
  intro rest
  induction rest with
  | nil =>
    intro i run P _ _ _ _ _ _ _
    refine ⟨by simp [sampleLoop], by simp, by simp [sampleLoop]⟩
  | cons p rest ih =>
    obtain ⟨k, w⟩ := p
    intro i run P hd hr0 hP herr hi hw hm
    have hu := unit_pos
    have hwd := hw (k, w) (by simp)
    have hrest : ∀ p ∈ rest, IsDouble p.2 ∧ δ + n * (2 * unit) < p.2 := fun p hp => hw p (by simp [hp])
    have hn0 : (0 : ℚ) ≤ n * (2 * unit) := by positivity
    have hw0 : 0 ≤ w := by have := hwd.2; simp only at this; linarith
    have hrest0 : ∀ p ∈ rest, 0 ≤ p.2 := fun p hp => by have := (hrest p hp).2; linarith
    have hm0 := mass_nonneg hrest0
    rw [mass_cons] at hm
    simp only at hm
    simp only [List.length_cons] at hi
    have hin : (i : ℚ) + 1 ≤ n := by exact_mod_cast (by omega : i + 1 ≤ n)
    have hiu : ((i : ℚ) + 1) * (2 * unit) ≤ n * (2 * unit) := mul_le_mul_of_nonneg_right hin (by positivity)
    have ha := abs_le.1 herr
    have hle2 : run + w ≤ 2 := by
      have : (i : ℚ) * (2 * unit) ≤ ((i : ℚ) + 1) * (2 * unit) := by nlinarith
      have : (1 : ℚ) / (2 * 10 ^ 12) ≤ 1 := by norm_num
      linarith
    have hs := fadd_err hd hwd.1
    simp only at hs
    rw [abs_of_nonneg (a := run + w) (by linarith)] at hs
    have hs2 : |fadd run w - (run + w)| ≤ 2 * unit := by nlinarith
    have hs3 := abs_le.1 hs2
    have hnew : |fadd run w - (P + w)| ≤ ((i + 1 : Nat) : ℚ) * (2 * unit) := by
      push_cast
      rw [abs_le]; constructor <;> linarith
    have hnew' := abs_le.1 hnew
    push_cast at hnew'
    have hdiv : fdiv w 1 = w := fdiv_one hwd.1
    have hnot : ¬ (fadd 1 EPS12 < fadd run w ∨ (1 ≤ fadd run w ∧ i + 1 < n)) := by
      rintro (h | ⟨h1, h2⟩)
      · have := threshold_ge
        linarith
      · obtain ⟨q, hq⟩ : ∃ q, q ∈ rest := by
          cases rest with
          | nil => simp at hi; omega
          | cons q _ => exact ⟨q, by simp⟩
        have h3 := (hrest q hq).2
        have h4 := le_mass hrest0 hq
        linarith
    have hunf : sampleLoop 1 EPS12 u n i run ((k, w) :: rest) =
        if u < fadd run w then .key k else sampleLoop 1 EPS12 u n (i + 1) (fadd run w) rest := by
      rw [sampleLoop, hdiv]
      simp only [if_neg hnot]
    rw [hunf]
    obtain ⟨h1, h2, h3⟩ := ih (i + 1) (fadd run w) (P + w) (isDouble_fl _) (fl_nonneg (by linarith)) (by linarith) hnew (by omega) hrest (by linarith)
    split
    · rename_i hlt
      refine ⟨by simp, by simp, fun k' hk => ?_⟩
      obtain rfl : k = k' := by simpa using hk
      exact ⟨[], w, rest, rfl, .inl rfl, by rw [mass_nil]; linarith⟩
    · rename_i hge
      have hge := not_lt.1 hge
      refine ⟨h1, fun h => ?_, fun k' hk => ?_⟩
      · right
        rw [mass_cons]
        simp only
        rcases h2 h with rfl | h
        · rw [mass_nil]; linarith
        · linarith
      · obtain ⟨pre, w', post, e, h4, h5⟩ := h3 k' hk
        refine ⟨(k, w) :: pre, w', post, by rw [e]; rfl, .inr ?_, by rw [mass_cons]; simp only; linarith⟩
        rw [mass_cons]
        simp only
        rcases h4 with rfl | h4
        · rw [mass_nil]; linarith
        · linarith

end Verif.Fp
