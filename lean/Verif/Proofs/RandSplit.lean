import Verif.Proofs.RandPairs

/-! # Separate words for integers and reals -/

set_option linter.constructorNameAsVariable false

namespace Verif.Rand

theorem ints_filter (as : List Ask) : ints (as.filter Ask.isInt) = ints as ∧ reals (as.filter Ask.isInt) = [] := by
  induction as with
  | nil => exact ⟨rfl, rfl⟩
  | cons a as ih =>
    cases a with
    | int lo hi v =>
      rw [List.filter_cons_of_pos (by rfl)]
      exact ⟨congrArg (((hi - lo).toNat, (v - lo).toNat) :: ·) ih.1, ih.2⟩
    | real l r =>
      rw [List.filter_cons_of_neg (by simp [Ask.isInt])]
      exact ih

theorem reals_filter (as : List Ask) : reals (as.filter fun a => !a.isInt) = reals as ∧ ints (as.filter fun a => !a.isInt) = [] := by
  induction as with
  | nil => exact ⟨rfl, rfl⟩
  | cons a as ih =>
    cases a with
    | real l r =>
      rw [List.filter_cons_of_pos (by rfl)]
      exact ⟨congrArg ((l, r) :: ·) ih.1, ih.2⟩
    | int lo hi v =>
      rw [List.filter_cons_of_neg (by simp [Ask.isInt])]
      exact ih

theorem pairs_free (n0 a0 n1 a1 : Nat) : pairs n0 a0 n1 a1 0 1 = wordsIn n0 a0 0 (2 ^ 32) ×ˢ wordsIn n1 a1 0 (2 ^ 32) := by
  ext p
  rw [mem_pairs]
  simp only [wordsIn, Finset.mem_product, Finset.mem_filter, Finset.mem_Ico]
  constructor
  · rintro ⟨⟨h1, h2⟩, h3, h4, -⟩
    exact ⟨⟨⟨by omega, h1⟩, h3⟩, ⟨by omega, h2⟩, h4⟩
  · rintro ⟨⟨⟨-, h1⟩, h3⟩, ⟨-, h2⟩, h4⟩
    obtain ⟨c1, c2, c3⟩ := canonical_bounds h1 h2
    exact ⟨⟨h1, h2⟩, h3, h4, le_trans (by positivity) c1, c3⟩

/-- The probability that an integer, or a real, is the one of interest. -/
noncomputable def shareInt (p : Nat × Nat) : ℚ := ((wordsIn p.1 p.2 0 (2 ^ 32)).card : ℚ) / 2 ^ 32
noncomputable def shareReal (p : ℚ × ℚ) : ℚ := ((pairs 1 0 1 0 p.1 p.2).card : ℚ) / 2 ^ 64

theorem wordsIn_one : (wordsIn 1 0 0 (2 ^ 32)).card = 2 ^ 32 := by
  have : wordsIn 1 0 0 (2 ^ 32) = Finset.Ico 0 (2 ^ 32) := by
    unfold wordsIn
    exact Finset.filter_true_of_mem fun w _ => Nat.mod_one _
  rw [this, Nat.card_Ico, Nat.sub_zero]

theorem shareInt_one : shareInt (1, 0) = 1 := by
  unfold shareInt
  simp only [wordsIn_one]
  norm_num

theorem shareReal_one : shareReal (0, 1) = 1 := by
  unfold shareReal
  simp only [pairs_free, Finset.card_product, wordsIn_one]
  norm_num

theorem pairs_ints (p q : Nat × Nat) : ((pairs p.1 p.2 q.1 q.2 0 1).card : ℚ) / 2 ^ 64 = shareInt p * shareInt q := by
  rw [pairs_free, Finset.card_product, shareInt, shareInt, div_mul_div_comm]
  congr 1
  · push_cast; rfl
  · norm_num

theorem chance_ints {K N : Nat} {β : ℚ} {as : List Ask} (hf : ∀ a ∈ as, a.Fits N β) (h1 : (ints as).length ≤ 2 * K) (h2 : reals as = []) :
    chance K (fun w => Meets ⟨⟨w, 0⟩, ⟨w, 0⟩⟩ as) = ((ints as).map shareInt).prod := by
  rw [chance_meets hf h1 (by simp [h2]), ← prod_pad shareInt (1, 0) shareInt_one (2 * K) (ints as) h1, prod_two,
    ← Fin.prod_univ_eq_prod_range (fun k => shareInt (((ints as)[2 * k]?).getD (1, 0)) * shareInt (((ints as)[2 * k + 1]?).getD (1, 0))) K]
  refine Finset.prod_congr rfl fun k _ => ?_
  unfold pairsAt
  rw [show realAt as k = (0, 1) by simp [realAt, h2], pairs_ints]
  rfl

theorem chance_reals {K N : Nat} {β : ℚ} {as : List Ask} (hf : ∀ a ∈ as, a.Fits N β) (h1 : ints as = []) (h2 : (reals as).length ≤ K) :
    chance K (fun w => Meets ⟨⟨w, 0⟩, ⟨w, 0⟩⟩ as) = ((reals as).map shareReal).prod := by
  rw [chance_meets hf (by simp [h1]) h2, ← prod_pad shareReal (0, 1) shareReal_one K (reals as) h2,
    ← Fin.prod_univ_eq_prod_range (fun k => shareReal (((reals as)[k]?).getD (0, 1))) K]
  refine Finset.prod_congr rfl fun k _ => ?_
  unfold pairsAt
  rw [show intAt as (2 * k) = (1, 0) by simp [intAt, h1], show intAt as (2 * k + 1) = (1, 0) by simp [intAt, h1]]
  rfl

open Classical in
theorem chance2_and (K : Nat) (P Q : (Nat → Nat) → Prop) : chance2 K (fun w w' => P w ∧ Q w') = chance K P * chance K Q := by
  unfold chance2 chance
  rw [div_mul_div_comm]
  congr 1
  rw [← Nat.cast_mul, ← Finset.card_product]
  congr 2
  ext ω
  simp only [Finset.mem_filter, Finset.mem_product]
  constructor
  · rintro ⟨⟨h1, h2⟩, h3, h4⟩; exact ⟨⟨h1, h3⟩, h2, h4⟩
  · rintro ⟨⟨h1, h3⟩, h2, h4⟩; exact ⟨⟨h1, h2⟩, h3, h4⟩

theorem chance_congr {K : Nat} {P Q : (Nat → Nat) → Prop} (h : ∀ w, P w ↔ Q w) : chance K P = chance K Q := by
  rw [show P = Q from funext fun w => propext (h w)]

theorem construct_seeded {mt : Nat → Nat → Nat} {rd : Nat → Nat} {seed : Int} (hs : seed ≠ 0) :
    construct mt rd seed = ⟨⟨mt (seed % 2 ^ 32).toNat, 0⟩, ⟨mt (seed % 2 ^ 32).toNat, 0⟩⟩ := by
  unfold construct
  rw [if_neg hs]

theorem chanceOf_eq {K : Nat} {seed : Int} (hs : seed ≠ 0) (as : List Ask) : chanceOf K seed as = chance K (fun w => Meets ⟨⟨w, 0⟩, ⟨w, 0⟩⟩ as) := by
  unfold chanceOf
  simp only [construct_seeded hs]

/-- The probability of a single answer. -/
noncomputable def shareAsk : Ask → ℚ
  | .int lo hi v => shareInt ((hi - lo).toNat, (v - lo).toNat)
  | .real l r => shareReal (l, r)

theorem chance_one {N : Nat} {β : ℚ} {a : Ask} (hf : a.Fits N β) : chance 1 (fun w => Meets ⟨⟨w, 0⟩, ⟨w, 0⟩⟩ [a]) = shareAsk a := by
  have hf' : ∀ b ∈ [a], b.Fits N β := by simpa using hf
  cases a with
  | int lo hi v =>
    rw [chance_ints hf' (by simp [ints]) rfl]
    simp [ints, shareAsk]
  | real l r =>
    rw [chance_reals hf' rfl (by simp [reals])]
    simp [reals, shareAsk]

theorem prod_shares (as : List Ask) : (as.map shareAsk).prod = ((ints as).map shareInt).prod * ((reals as).map shareReal).prod := by
  induction as with
  | nil => simp [ints, reals]
  | cons a as ih =>
    cases a with
    | int lo hi v =>
      have e1 : ints (.int lo hi v :: as) = ((hi - lo).toNat, (v - lo).toNat) :: ints as := rfl
      have e2 : reals (.int lo hi v :: as) = reals as := rfl
      rw [e1, e2, List.map_cons, List.prod_cons, List.map_cons, List.prod_cons, ih, shareAsk, mul_assoc]
    | real l r =>
      have e1 : ints (.real l r :: as) = ints as := rfl
      have e2 : reals (.real l r :: as) = (l, r) :: reals as := rfl
      rw [e1, e2, List.map_cons, List.prod_cons, List.map_cons, List.prod_cons, ih, shareAsk]
      ring

/-! ## Shares of one pair of words -/

theorem mem_box {W A B : Nat} {ω : Fin 1 → Nat × Nat} (h : ω ∈ Fintype.piFinset fun _ : Fin 1 => Finset.range W ×ˢ Finset.Ico A B) :
    (ω 0).1 < W ∧ A ≤ (ω 0).2 ∧ (ω 0).2 < B := by
  have := Fintype.mem_piFinset.1 h 0
  rw [Finset.mem_product, Finset.mem_range, Finset.mem_Ico] at this
  exact this

theorem card_box (W A B : Nat) : (Fintype.piFinset fun _ : Fin 1 => Finset.range W ×ˢ Finset.Ico A B).card = W * (B - A) := by
  rw [Fintype.card_piFinset, Finset.prod_const, Finset.card_product, Finset.card_range, Nat.card_Ico, Finset.card_univ, Fintype.card_fin, pow_one]

open Classical in
theorem chance_ge (P : (Nat → Nat) → Prop) (A B : Nat) (hB : B ≤ 2 ^ 32) (h : ∀ w : Nat → Nat, w 0 < 2 ^ 32 → A ≤ w 1 → w 1 < B → P w) :
    ((B - A : Nat) : ℚ) / 2 ^ 32 ≤ chance 1 P := by
  obtain ⟨W, hW⟩ : ∃ W : Nat, W = 2 ^ 32 := ⟨_, rfl⟩
  have hsub : (Fintype.piFinset fun _ : Fin 1 => Finset.range W ×ˢ Finset.Ico A B) ⊆ (allWords 1).filter fun ω => P (wordsOf ω) := by
    intro ω hω
    have hb := mem_box hω
    have h0 : (ω 0).1 < 2 ^ 32 := lt_of_lt_of_eq hb.1 hW
    have h1 := hb.2.1
    have h2 := hb.2.2
    rw [Finset.mem_filter, mem_allWords]
    have e1 : wordsOf ω 0 = (ω 0).1 := wordsOf_even ω 0
    have e2 : wordsOf ω 1 = (ω 0).2 := wordsOf_odd ω 0
    refine ⟨fun k => ?_, h _ (e1 ▸ h0) (e2 ▸ h1) (e2 ▸ h2)⟩
    rw [Subsingleton.elim k 0]
    exact ⟨h0, lt_of_lt_of_le h2 hB⟩
  have hc := Finset.card_le_card hsub
  rw [card_box, hW] at hc
  unfold chance
  rw [pow_one, div_le_div_iff₀ (by norm_num) (by norm_num)]
  have hc' : (2 ^ 32 : ℚ) * ((B - A : Nat) : ℚ) ≤ (((allWords 1).filter fun ω => P (wordsOf ω)).card : ℚ) := by exact_mod_cast hc
  calc ((B - A : Nat) : ℚ) * 2 ^ 64 = (2 ^ 32 * ((B - A : Nat) : ℚ)) * 2 ^ 32 := by
        rw [show (2 : ℚ) ^ 64 = 2 ^ 32 * 2 ^ 32 by norm_num]; ring
    _ ≤ _ := mul_le_mul_of_nonneg_right hc' (by norm_num)

open Classical in
theorem chance_zero {K : Nat} {P : (Nat → Nat) → Prop} (h : ∀ w : Nat → Nat, (∀ i, w i < 2 ^ 32) → ¬ P w) : chance K P = 0 := by
  unfold chance
  rw [Finset.filter_false_of_mem]
  · simp
  · intro ω hω
    apply h
    intro i
    rw [mem_allWords] at hω
    unfold wordsOf
    split
    · split
      · exact (hω _).1
      · exact (hω _).2
    · norm_num

end Verif.Rand
