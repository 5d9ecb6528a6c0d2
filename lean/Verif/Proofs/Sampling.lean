import Verif.Model.Sampling
import Verif.Spec.Sampling
import Mathlib.Tactic.Linarith
import Mathlib.Tactic.FieldSimp
import Mathlib.Data.Int.CardIntervalMod

/-! # Lemmas about the random helpers. -/

set_option linter.unusedSectionVars false

namespace Verif.Sampling
open Verif.Spec

variable {K 𝕜 : Type}

/-! ### random integers -/

theorem getRandInt_eq {raw : Nat} {lo hi : Int} (h : lo < hi) :
    getRandInt raw lo hi = some (lo + ((raw % (hi - lo).toNat : Nat) : Int)) := by
  unfold getRandInt
  have h0 : ¬ hi - lo = 0 := by omega
  rw [if_neg h0]
  obtain ⟨n, hn⟩ : ∃ n : Nat, hi - lo = n := ⟨(hi - lo).toNat, by omega⟩
  rw [hn, Int.tmod_eq_emod_of_nonneg (by omega)]
  simp

/-! ### best key -/

theorem maxKeyLoop_eq [LinearOrder 𝕜] (M : 𝕜) : ∀ (m : List (K × 𝕜)) (best : 𝕜) (keys : List K),
    (∀ p ∈ m, p.2 ≤ M) → best ≤ M → (best = M ∨ ∃ p ∈ m, p.2 = M) →
    maxKeyLoop m best keys =
      (if best = M then keys else []) ++ (m.filter (fun p => p.2 = M)).map Prod.fst
  | [], best, keys, _, _, h => by
    rcases h with h | ⟨p, hp, _⟩
    · simp [maxKeyLoop, h]
    · simp at hp
  | (k, v) :: rest, best, keys, hle, hb, h => by
    have hv : v ≤ M := hle (k, v) (by simp)
    have hr : ∀ p ∈ rest, p.2 ≤ M := fun p hp => hle p (by simp [hp])
    unfold maxKeyLoop
    by_cases h1 : v < best
    · have hvM : ¬ v = M := fun e => absurd h1 (not_lt.mpr (e ▸ hb))
      rw [if_pos h1, maxKeyLoop_eq M rest best keys hr hb]
      · simp [hvM]
      · rcases h with h | ⟨p, hp, he⟩
        · exact Or.inl h
        · rcases List.mem_cons.mp hp with rfl | hp
          · exact absurd he hvM
          · exact Or.inr ⟨p, hp, he⟩
    · rw [if_neg h1]
      by_cases h2 : best < v
      · rw [if_pos h2, maxKeyLoop_eq M rest v _ hr hv]
        · have hbM : ¬ best = M := fun e => absurd h2 (not_lt.mpr (e ▸ hv))
          by_cases hvM : v = M <;> simp [hvM, hbM]
        · rcases h with h | ⟨p, hp, he⟩
          · exact absurd h2 (not_lt.mpr (h ▸ hv))
          · rcases List.mem_cons.mp hp with rfl | hp
            · exact Or.inl he
            · exact Or.inr ⟨p, hp, he⟩
      · have hbv : best = v := le_antisymm (not_lt.mp h1) (not_lt.mp h2)
        subst hbv
        rw [if_neg h2, maxKeyLoop_eq M rest best _ hr hb]
        · by_cases hvM : best = M <;> simp [hvM]
        · rcases h with h | ⟨p, hp, he⟩
          · exact Or.inl h
          · rcases List.mem_cons.mp hp with rfl | hp
            · exact Or.inl he
            · exact Or.inr ⟨p, hp, he⟩

/-- With every value below `lowest` (or no value) no key is collected. -/
theorem maxKeyLoop_none [LinearOrder 𝕜] (low : 𝕜) : ∀ (m : List (K × 𝕜)) (keys : List K),
    (∀ p ∈ m, p.2 < low) → maxKeyLoop m low keys = keys
  | [], _, _ => rfl
  | (k, v) :: rest, keys, h => by
    unfold maxKeyLoop
    rw [if_pos (h (k, v) (by simp))]
    exact maxKeyLoop_none low rest keys fun p hp => h p (by simp [hp])

/-- Indexing a non-empty list by a reduced random number. -/
theorem pick_eq (keys : List K) (raw : Nat) (h : keys ≠ []) :
    (match getRandInt raw 0 keys.length with
      | none => none
      | some indx => if indx < 0 then none else keys[indx.toNat]?) = keys[raw % keys.length]? := by
  have hl : 0 < keys.length := List.length_pos_of_ne_nil h
  rw [getRandInt_eq (by omega)]
  have : ((keys.length : Int) - 0).toNat = keys.length := by omega
  rw [this]
  simp only [Int.zero_add]
  rw [if_neg (by omega), Int.toNat_natCast]

theorem getMaxKey_eq [LinearOrder 𝕜] (low : 𝕜) (m : List (K × 𝕜)) (raw : Nat) (h : maxKeyLoop m low [] ≠ []) :
    getMaxKey low m raw = (maxKeyLoop m low [])[raw % (maxKeyLoop m low []).length]? := by
  unfold getMaxKey
  by_cases h1 : (maxKeyLoop m low []).length = 1
  · simp only [h1, if_true, Nat.mod_one]
  · simp only [h1, if_false]
    exact pick_eq _ raw h

theorem exists_max [LinearOrder 𝕜] : ∀ (m : List (K × 𝕜)), m ≠ [] → ∃ p ∈ m, ∀ q ∈ m, q.2 ≤ p.2
  | [], h => absurd rfl h
  | [p], _ => ⟨p, by simp⟩
  | p :: q :: rest, _ => by
    obtain ⟨r, hr, hm⟩ := exists_max (q :: rest) (by simp)
    rcases le_total r.2 p.2 with h | h
    · refine ⟨p, by simp, fun x hx => ?_⟩
      rcases List.mem_cons.mp hx with rfl | hx
      · exact le_refl _
      · exact le_trans (hm x hx) h
    · refine ⟨r, List.mem_cons_of_mem _ hr, fun x hx => ?_⟩
      rcases List.mem_cons.mp hx with rfl | hx
      · exact h
      · exact hm x hx

/-! ### sampling -/

section
variable [Field 𝕜] [LinearOrder 𝕜] [IsStrictOrderedRing 𝕜]

@[simp] theorem mass_nil : mass ([] : List (K × 𝕜)) = 0 := rfl
@[simp] theorem mass_cons (p : K × 𝕜) (l : List (K × 𝕜)) : mass (p :: l) = p.2 + mass l := by simp [mass]
@[simp] theorem mass_append (l l' : List (K × 𝕜)) : mass (l ++ l') = mass l + mass l' := by simp [mass]

omit [LinearOrder 𝕜] [IsStrictOrderedRing 𝕜] in
theorem sumWeights_eq (l : List (K × 𝕜)) : sumWeights l = mass l := by
  have : ∀ (l : List (K × 𝕜)) (s : 𝕜), l.foldl (fun s p => s + p.2) s = s + mass l := by
    intro l
    induction l with
    | nil => intro s; simp [mass]
    | cons p l ih => intro s; simp [ih, mass, add_assoc]
  simp [sumWeights, this]

theorem mass_nonneg {l : List (K × 𝕜)} (h : ∀ p ∈ l, 0 ≤ p.2) : 0 ≤ mass l := by
  induction l with
  | nil => simp
  | cons p l ih =>
    have := h p (by simp)
    have := ih fun q hq => h q (by simp [hq])
    simp; linarith

/-- The loop without its error checks. -/
def pickAt (sum u : 𝕜) : 𝕜 → List (K × 𝕜) → Draw K
  | _, [] => .tooLittle
  | run, (k, w) :: rest => if u < run + w / sum then .key k else pickAt sum u (run + w / sum) rest

theorem sampleLoop_eq_pickAt (sum eps u : 𝕜) (n : Nat) (heps : 0 ≤ eps) (hsum : 0 < sum) :
    ∀ (rest : List (K × 𝕜)) (i : Nat) (run : 𝕜), i + rest.length = n → (∀ p ∈ rest, 0 ≤ p.2) →
      run + mass rest / sum ≤ sum →
      (∀ pre suf, rest = pre ++ suf → suf ≠ [] → pre ≠ [] → run + mass pre / sum < sum) →
      sampleLoop sum eps u n i run rest = pickAt sum u run rest
  | [], _, _, _, _, _, _ => rfl
  | (k, w) :: rest, i, run, hn, hw, htot, hpre => by
    have hw0 : 0 ≤ w := hw (k, w) (by simp)
    have hr : ∀ p ∈ rest, 0 ≤ p.2 := fun p hp => hw p (by simp [hp])
    have hmr := mass_nonneg hr
    have hdiv : (w + mass rest) / sum = w / sum + mass rest / sum := add_div _ _ _
    have hrest : 0 ≤ mass rest / sum := div_nonneg hmr hsum.le
    simp only [mass_cons, hdiv] at htot
    unfold sampleLoop pickAt
    have h1 : ¬ (sum + eps < run + w / sum ∨ (sum ≤ run + w / sum ∧ i + 1 < n)) := by
      rintro (h | ⟨h, hi⟩)
      · linarith
      · have hne : rest ≠ [] := by
          rintro rfl
          simp at hn
          omega
        have := hpre [(k, w)] rest rfl hne (by simp)
        simp at this
        linarith
    simp only [h1, if_false]
    split
    · rfl
    · refine sampleLoop_eq_pickAt sum eps u n heps hsum rest (i + 1) _ ?_ hr ?_ ?_
      · simp at hn; omega
      · linarith
      · intro pre suf he hs hp
        have := hpre ((k, w) :: pre) suf (by simp [he]) hs (by simp)
        simp only [mass_cons, add_div] at this
        linarith

theorem pickAt_iff (sum u : 𝕜) (hsum : 0 < sum) : ∀ (pre : List (K × 𝕜)) (k : K) (w : 𝕜) (suf : List (K × 𝕜)) (run : 𝕜),
    ((pre ++ (k, w) :: suf).map Prod.fst).Nodup → (∀ p ∈ pre ++ (k, w) :: suf, 0 ≤ p.2) → run ≤ u →
    (pickAt sum u run (pre ++ (k, w) :: suf) = .key k ↔
      run + mass pre / sum ≤ u ∧ u < run + mass pre / sum + w / sum)
  | [], k, w, suf, run, hnd, hw, hu => by
    simp only [List.nil_append, pickAt, mass_nil, zero_div, add_zero]
    by_cases h : u < run + w / sum
    · simp [h, hu]
    · simp only [h, if_false, and_false, iff_false]
      have hk : k ∉ suf.map Prod.fst := by simp at hnd; simpa using hnd.1
      clear hnd hu hw
      generalize run + w / sum = r
      induction suf generalizing r with
      | nil => simp [pickAt]
      | cons p suf ih =>
        simp only [pickAt]
        split
        · intro he
          simp at he
          simp [he] at hk
        · exact ih (by simp at hk; simpa using hk.2) _
  | (k', w') :: pre, k, w, suf, run, hnd, hw, hu => by
    have hw0 : 0 ≤ w' := hw (k', w') (by simp)
    have hkk : k' ≠ k := by
      rintro rfl
      simp at hnd
    have hpre : 0 ≤ mass pre := mass_nonneg fun p hp => hw p (by simp [hp])
    have hd := div_nonneg hpre hsum.le
    simp only [List.cons_append, pickAt, mass_cons, add_div]
    by_cases h : u < run + w' / sum
    · simp only [h, if_true]
      constructor
      · intro he
        simp at he
        exact absurd he hkk
      · rintro ⟨h1, _⟩
        linarith
    · simp only [h, if_false]
      rw [pickAt_iff sum u hsum pre k w suf _ (by simpa using (List.nodup_cons.mp hnd).2)
        (fun p hp => hw p (List.mem_cons_of_mem _ hp)) (not_lt.mp h)]
      constructor <;> rintro ⟨h1, h2⟩ <;> constructor <;> linarith

theorem pickAt_total (sum u : 𝕜) : ∀ (l : List (K × 𝕜)) (run : 𝕜), run ≤ u → u < run + mass l / sum →
    ∃ k, pickAt sum u run l = .key k
  | [], run, h1, h2 => by simp at h2; exact absurd h1 (not_le.mpr h2)
  | (k, w) :: rest, run, h1, h2 => by
    simp only [pickAt]
    by_cases h : u < run + w / sum
    · exact ⟨k, by simp [h]⟩
    · simp only [h, if_false]
      refine pickAt_total sum u rest _ (not_lt.mp h) ?_
      simp only [mass_cons, add_div] at h2
      linarith

theorem pickAt_mem (sum u : 𝕜) : ∀ (l : List (K × 𝕜)) (run : 𝕜) (k : K), pickAt sum u run l = .key k →
    k ∈ l.map Prod.fst
  | [], _, _, h => by simp [pickAt] at h
  | (k', w) :: rest, run, k, h => by
    simp only [pickAt] at h
    split at h
    · simp at h; simp [h]
    · have := pickAt_mem sum u rest _ k h
      simp at this ⊢
      exact Or.inr this

/-- A proper prefix of weights whose last weight is positive has less than the whole mass. -/
theorem prefix_lt {l pre suf : List (K × 𝕜)} (hw : ∀ p ∈ l, 0 ≤ p.2)
    (hlast : ∀ p, l.getLast? = some p → 0 < p.2) (he : l = pre ++ suf) (hs : suf ≠ []) : mass pre < mass l := by
  subst he
  rw [mass_append]
  have h1 := List.dropLast_append_getLast hs
  have h2 : 0 ≤ mass suf.dropLast := mass_nonneg fun p hp =>
    hw p (List.mem_append_right _ (List.dropLast_subset _ hp))
  have h3 : 0 < (suf.getLast hs).2 := hlast _ (by
    rw [List.getLast?_append_of_ne_nil _ hs, List.getLast?_eq_some_getLast hs])
  have h4 : mass suf = mass suf.dropLast + (suf.getLast hs).2 := by
    conv_lhs => rw [← h1]
    simp
  linarith

end

/-! ### probabilities -/

theorem prob_interval {β : Type} {f : ℝ → β} {P : β → Prop} {a b : ℝ} (ha : 0 ≤ a) (hb : b ≤ 1) (hab : a ≤ b)
    (h : ∀ u, 0 ≤ u → u < 1 → (P (f u) ↔ a ≤ u ∧ u < b)) : prob f P = b - a := by
  unfold prob
  have : {u : ℝ | 0 ≤ u ∧ u < 1 ∧ P (f u)} = Set.Ico a b := by
    ext u
    simp only [Set.mem_setOf_eq, Set.mem_Ico]
    constructor
    · rintro ⟨h1, h2, h3⟩
      exact (h u h1 h2).mp h3
    · rintro ⟨h1, h2⟩
      have h3 : 0 ≤ u := le_trans ha h1
      have h4 : u < 1 := lt_of_lt_of_le h2 hb
      exact ⟨h3, h4, (h u h3 h4).mpr ⟨h1, h2⟩⟩
  rw [this, Real.volume_Ico, ENNReal.toReal_ofReal (by linarith)]

end Verif.Sampling
