import Verif.Proofs.RandManager

/-! # Requests are conditions on pairs of words -/

set_option linter.constructorNameAsVariable false

namespace Verif.Rand

/-- The integers of interest: length of the range and index in it. -/
def ints (as : List Ask) : List (Nat × Nat) :=
  as.filterMap fun a => match a with | .int lo hi v => some ((hi - lo).toNat, (v - lo).toNat) | .real _ _ => none

/-- The intervals of interest. -/
def reals (as : List Ask) : List (ℚ × ℚ) :=
  as.filterMap fun a => match a with | .int _ _ _ => none | .real l r => some (l, r)

def IntsOk (w : Nat → Nat) (i : Nat) (l : List (Nat × Nat)) : Prop := ∀ j p, l[j]? = some p → w (i + j) / 2 % p.1 = p.2

def RealsOk (w : Nat → Nat) (k : Nat) (l : List (ℚ × ℚ)) : Prop :=
  ∀ j p, l[j]? = some p → p.1 ≤ canonical (w (2 * (k + j))) (w (2 * (k + j) + 1)) ∧ canonical (w (2 * (k + j))) (w (2 * (k + j) + 1)) < p.2

theorem get_cons {α : Type} (x : α) (l : List α) (Q : Nat → α → Prop) :
    (∀ j p, (x :: l)[j]? = some p → Q j p) ↔ Q 0 x ∧ ∀ j p, l[j]? = some p → Q (j + 1) p := by
  constructor
  · intro h
    exact ⟨h 0 x (by simp), fun j p hj => h (j + 1) p (by simpa using hj)⟩
  · rintro ⟨h1, h2⟩ j p hj
    cases j with
    | zero =>
      rw [List.getElem?_cons_zero] at hj
      obtain rfl := Option.some.inj hj
      exact h1
    | succ j => exact h2 j p (by simpa using hj)

theorem raw_half (w : Nat) : w * 2 ^ 31 / 2 ^ 32 = w / 2 := by
  rw [show (2 : Nat) ^ 32 = 2 ^ 31 * 2 by norm_num, ← Nat.div_div_eq_div_mul, Nat.mul_div_cancel _ (by norm_num)]

theorem randInt_iff {w : Nat → Nat} {i : Nat} {rg : Gen} {lo hi v : Int} (h1 : lo ≤ v) (h2 : v < hi) :
    (Manager.randInt ⟨⟨w, i⟩, rg⟩ lo hi).1 = some v ↔ w i / 2 % (hi - lo).toNat = (v - lo).toNat := by
  simp only [Manager.randInt, Gen.rawInt, raw_half]
  rw [Sampling.getRandInt_eq (by omega), Option.some_inj]
  omega

theorem meets_iff {w w' : Nat → Nat} {N : Nat} {β : ℚ} : ∀ (as : List Ask) (i k : Nat), (∀ a ∈ as, a.Fits N β) →
    (Meets ⟨⟨w, i⟩, ⟨w', 2 * k⟩⟩ as ↔ IntsOk w i (ints as) ∧ RealsOk w' k (reals as))
  | [], _, _, _ => by simp [Meets, ints, reals, IntsOk, RealsOk]
  | .int lo hi v :: as, i, k, hf => by
    obtain ⟨h1, h2, -⟩ := hf _ List.mem_cons_self
    have ih := meets_iff as (i + 1) k (fun a ha => hf a (List.mem_cons_of_mem _ ha)) (w := w) (w' := w')
    have e1 : ints (.int lo hi v :: as) = ((hi - lo).toNat, (v - lo).toNat) :: ints as := rfl
    have e2 : reals (.int lo hi v :: as) = reals as := rfl
    have e3 : Meets ⟨⟨w, i⟩, ⟨w', 2 * k⟩⟩ (.int lo hi v :: as) ↔
        (Manager.randInt ⟨⟨w, i⟩, ⟨w', 2 * k⟩⟩ lo hi).1 = some v ∧ Meets ⟨⟨w, i + 1⟩, ⟨w', 2 * k⟩⟩ as := Iff.rfl
    rw [e3, e1, e2, ih, randInt_iff h1 h2]
    unfold IntsOk
    rw [get_cons, and_assoc]
    simp only [Nat.add_zero, Nat.add_assoc, Nat.add_comm 1]
  | .real l r :: as, i, k, hf => by
    have ih := meets_iff as i (k + 1) (fun a ha => hf a (List.mem_cons_of_mem _ ha)) (w := w) (w' := w')
    have e1 : ints (.real l r :: as) = ints as := rfl
    have e2 : reals (.real l r :: as) = (l, r) :: reals as := rfl
    have e3 : Meets ⟨⟨w, i⟩, ⟨w', 2 * k⟩⟩ (.real l r :: as) ↔
        (l ≤ canonical (w' (2 * k)) (w' (2 * k + 1)) ∧ canonical (w' (2 * k)) (w' (2 * k + 1)) < r) ∧ Meets ⟨⟨w, i⟩, ⟨w', 2 * (k + 1)⟩⟩ as := Iff.rfl
    rw [e3, e1, e2, ih]
    unfold RealsOk
    rw [get_cons]
    simp only [Nat.add_zero, Nat.add_assoc, Nat.add_comm 1]
    constructor
    · rintro ⟨h1, h2, h3⟩; exact ⟨h2, h1, h3⟩
    · rintro ⟨h2, h1, h3⟩; exact ⟨h1, h2, h3⟩

theorem length_ints (as : List Ask) : (ints as).length = as.countP Ask.isInt := by
  induction as with
  | nil => rfl
  | cons a as ih =>
    cases a with
    | int lo hi v => simp only [ints, List.filterMap_cons, List.length_cons, List.countP_cons, Ask.isInt] at ih ⊢; simp [ih]
    | real l r => simp only [ints, List.filterMap_cons, List.countP_cons, Ask.isInt] at ih ⊢; simp [ih]

theorem length_reals (as : List Ask) : (reals as).length = as.countP (fun a => !a.isInt) := by
  induction as with
  | nil => rfl
  | cons a as ih =>
    cases a with
    | int lo hi v => simp only [reals, List.filterMap_cons, List.countP_cons, Ask.isInt] at ih ⊢; simp [ih]
    | real l r => simp only [reals, List.filterMap_cons, List.length_cons, List.countP_cons, Ask.isInt] at ih ⊢; simp [ih]

theorem mem_ints {N : Nat} {β : ℚ} {as : List Ask} (hf : ∀ a ∈ as, a.Fits N β) {p : Nat × Nat} (hp : p ∈ ints as) : p.2 < p.1 ∧ p.1 ≤ N := by
  obtain ⟨a, ha, e⟩ := List.mem_filterMap.1 hp
  cases a with
  | real l r => simp at e
  | int lo hi v =>
    obtain ⟨h1, h2, h3⟩ := hf _ ha
    obtain rfl := Option.some.inj e
    constructor <;> simp only <;> omega

theorem mem_reals {N : Nat} {β : ℚ} {as : List Ask} (hf : ∀ a ∈ as, a.Fits N β) {p : ℚ × ℚ} (hp : p ∈ reals as) : 0 ≤ p.1 ∧ p.2 ≤ 1 ∧ β ≤ p.2 - p.1 := by
  obtain ⟨a, ha, e⟩ := List.mem_filterMap.1 hp
  cases a with
  | int lo hi v => simp at e
  | real l r =>
    obtain rfl := Option.some.inj e
    exact hf _ ha

theorem prod_ideal {N : Nat} {β : ℚ} : ∀ (as : List Ask), (∀ a ∈ as, a.Fits N β) →
    (as.map Ask.ideal).prod = ((ints as).map fun p => 1 / (p.1 : ℚ)).prod * ((reals as).map fun p => p.2 - p.1).prod
  | [], _ => by simp [ints, reals]
  | .int lo hi v :: as, hf => by
    obtain ⟨h1, h2, -⟩ := hf _ List.mem_cons_self
    have ih := prod_ideal as (fun a ha => hf a (List.mem_cons_of_mem _ ha))
    have e1 : ints (.int lo hi v :: as) = ((hi - lo).toNat, (v - lo).toNat) :: ints as := rfl
    have e2 : reals (.int lo hi v :: as) = reals as := rfl
    have e3 : (((hi - lo).toNat : Nat) : ℚ) = ((hi - lo : Int) : ℚ) := by
      have : (((hi - lo).toNat : Nat) : Int) = hi - lo := Int.toNat_of_nonneg (by omega)
      exact_mod_cast congrArg (Int.cast (R := ℚ)) this
    rw [e1, e2, List.map_cons, List.prod_cons, List.map_cons, List.prod_cons, ih, Ask.ideal, e3, mul_assoc]
  | .real l r :: as, hf => by
    have ih := prod_ideal as (fun a ha => hf a (List.mem_cons_of_mem _ ha))
    have e1 : ints (.real l r :: as) = ints as := rfl
    have e2 : reals (.real l r :: as) = (l, r) :: reals as := rfl
    rw [e1, e2, List.map_cons, List.prod_cons, List.map_cons, List.prod_cons, ih, Ask.ideal]
    ring

/-! ## Products -/

theorem prod_pad {α : Type} (f : α → ℚ) (d : α) (hd : f d = 1) : ∀ (m : Nat) (l : List α), l.length ≤ m →
    ∏ j ∈ Finset.range m, f ((l[j]?).getD d) = (l.map f).prod
  | 0, l, h => by
    obtain rfl := List.length_eq_zero_iff.1 (Nat.le_zero.1 h)
    simp
  | m + 1, [], _ => by
    simp [hd]
  | m + 1, x :: l, h => by
    rw [Finset.prod_range_succ']
    simp only [List.getElem?_cons_succ, List.getElem?_cons_zero, Option.getD_some, List.map_cons, List.prod_cons]
    rw [prod_pad f d hd m l (by simpa using h), mul_comm]

theorem prod_two (g : Nat → ℚ) : ∀ K : Nat, ∏ j ∈ Finset.range (2 * K), g j = ∏ k ∈ Finset.range K, g (2 * k) * g (2 * k + 1)
  | 0 => by simp
  | K + 1 => by
    rw [show 2 * (K + 1) = 2 * K + 1 + 1 by ring, Finset.prod_range_succ, Finset.prod_range_succ, Finset.prod_range_succ, prod_two g K, mul_assoc]

/-! ## The requests as conditions on pairs -/

/-- The integer request that reads word `j`, and the real request that reads pair `k`; trivial ones if there are none. -/
def intAt (as : List Ask) (j : Nat) : Nat × Nat := ((ints as)[j]?).getD (1, 0)
def realAt (as : List Ask) (k : Nat) : ℚ × ℚ := ((reals as)[k]?).getD (0, 1)

theorem intAt_ok {N : Nat} (hN : 1 ≤ N) {β : ℚ} {as : List Ask} (hf : ∀ a ∈ as, a.Fits N β) (j : Nat) : (intAt as j).2 < (intAt as j).1 ∧ (intAt as j).1 ≤ N := by
  unfold intAt
  cases h : (ints as)[j]? with
  | none => exact ⟨by decide, hN⟩
  | some p => exact mem_ints hf (List.mem_of_getElem? h)

theorem realAt_ok {N : Nat} {β : ℚ} (hβ : β ≤ 1) {as : List Ask} (hf : ∀ a ∈ as, a.Fits N β) (k : Nat) :
    0 ≤ (realAt as k).1 ∧ (realAt as k).2 ≤ 1 ∧ β ≤ (realAt as k).2 - (realAt as k).1 := by
  unfold realAt
  cases h : (reals as)[k]? with
  | none => simpa using hβ
  | some p => exact mem_reals hf (List.mem_of_getElem? h)

theorem wordsOf_even {K : Nat} (ω : Fin K → Nat × Nat) (k : Fin K) : wordsOf ω (2 * k) = (ω k).1 := by
  unfold wordsOf
  rw [dif_pos (by omega), if_pos (by omega)]
  congr 2
  ext
  simp

theorem wordsOf_odd {K : Nat} (ω : Fin K → Nat × Nat) (k : Fin K) : wordsOf ω (2 * k + 1) = (ω k).2 := by
  unfold wordsOf
  rw [dif_pos (by omega), if_neg (by omega)]
  congr 2
  ext
  simp only
  omega

/-- The pairs of words that meet the requests that read them. -/
def pairsAt (as : List Ask) (k : Nat) : Finset (Nat × Nat) :=
  pairs (intAt as (2 * k)).1 (intAt as (2 * k)).2 (intAt as (2 * k + 1)).1 (intAt as (2 * k + 1)).2 (realAt as k).1 (realAt as k).2

theorem mem_pairs {n0 a0 n1 a1 : Nat} {l r : ℚ} {p : Nat × Nat} : p ∈ pairs n0 a0 n1 a1 l r ↔
    (p.1 < 2 ^ 32 ∧ p.2 < 2 ^ 32) ∧ p.1 / 2 % n0 = a0 ∧ p.2 / 2 % n1 = a1 ∧ l ≤ canonical p.1 p.2 ∧ canonical p.1 p.2 < r := by
  simp only [pairs, Finset.mem_filter, Finset.mem_product, Finset.mem_range]

theorem mem_allWords {K : Nat} {ω : Fin K → Nat × Nat} : ω ∈ allWords K ↔ ∀ k, (ω k).1 < 2 ^ 32 ∧ (ω k).2 < 2 ^ 32 := by
  simp only [allWords, Fintype.mem_piFinset, Finset.mem_product, Finset.mem_range]

open Classical in
theorem filter_meets {K N : Nat} {β : ℚ} {as : List Ask} (hf : ∀ a ∈ as, a.Fits N β) (h1 : (ints as).length ≤ 2 * K) (h2 : (reals as).length ≤ K) :
    (allWords K).filter (fun ω => IntsOk (wordsOf ω) 0 (ints as) ∧ RealsOk (wordsOf ω) 0 (reals as)) = Fintype.piFinset fun k : Fin K => pairsAt as k := by
  ext ω
  rw [Finset.mem_filter, mem_allWords, Fintype.mem_piFinset]
  simp only [pairsAt, mem_pairs]
  constructor
  · rintro ⟨g, g1, g2⟩ k
    obtain ⟨b0, b1⟩ := g k
    refine ⟨g k, ?_, ?_, ?_⟩
    · unfold intAt
      cases h : (ints as)[2 * (k : Nat)]? with
      | none => exact Nat.mod_one _
      | some p => have := g1 _ _ h; rwa [Nat.zero_add, wordsOf_even] at this
    · unfold intAt
      cases h : (ints as)[2 * (k : Nat) + 1]? with
      | none => exact Nat.mod_one _
      | some p => have := g1 _ _ h; rwa [Nat.zero_add, wordsOf_odd] at this
    · unfold realAt
      cases h : (reals as)[(k : Nat)]? with
      | none =>
        obtain ⟨c1, c2, c3⟩ := canonical_bounds b0 b1
        exact ⟨le_trans (by positivity) c1, c3⟩
      | some p => have := g2 _ _ h; rwa [Nat.zero_add, wordsOf_even, wordsOf_odd] at this
  · intro g
    refine ⟨fun k => (g k).1, ?_, ?_⟩
    · intro j p hj
      have hlt := (List.getElem?_eq_some_iff.1 hj).1
      obtain ⟨-, g1, g2, -⟩ := g ⟨j / 2, by omega⟩
      rcases Nat.even_or_odd' j with ⟨k, rfl | rfl⟩
      · have e : 2 * k / 2 = k := by omega
        simp only [e] at g1
        rw [intAt, hj] at g1
        rw [Nat.zero_add]
        exact (wordsOf_even ω ⟨k, by omega⟩) ▸ g1
      · have e : (2 * k + 1) / 2 = k := by omega
        simp only [e] at g2
        rw [intAt, hj] at g2
        rw [Nat.zero_add]
        exact (wordsOf_odd ω ⟨k, by omega⟩) ▸ g2
    · intro k p hk
      have hlt := (List.getElem?_eq_some_iff.1 hk).1
      obtain ⟨-, -, -, g3⟩ := g ⟨k, by omega⟩
      rw [realAt, hk] at g3
      rw [Nat.zero_add]
      have e1 := wordsOf_even ω ⟨k, by omega⟩
      have e2 := wordsOf_odd ω ⟨k, by omega⟩
      simp only at e1 e2
      rw [e1, e2]
      exact g3

theorem prod_at {K N : Nat} {β : ℚ} {as : List Ask} (hf : ∀ a ∈ as, a.Fits N β) (h1 : (ints as).length ≤ 2 * K) (h2 : (reals as).length ≤ K) :
    ∏ k : Fin K, (1 / ((intAt as (2 * k)).1 : ℚ) * (1 / ((intAt as (2 * k + 1)).1 : ℚ)) * ((realAt as k).2 - (realAt as k).1)) = (as.map Ask.ideal).prod := by
  rw [prod_ideal as hf, ← prod_pad (fun p : Nat × Nat => 1 / (p.1 : ℚ)) (1, 0) (by simp) (2 * K) (ints as) h1,
    ← prod_pad (fun p : ℚ × ℚ => p.2 - p.1) (0, 1) (by simp) K (reals as) h2, prod_two, ← Finset.prod_mul_distrib, ← Fin.prod_univ_eq_prod_range
      (fun k => 1 / (((((ints as)[2 * k]?).getD (1, 0)).1 : Nat) : ℚ) * (1 / (((((ints as)[2 * k + 1]?).getD (1, 0)).1 : Nat) : ℚ)) *
        ((((reals as)[k]?).getD (0, 1)).2 - (((reals as)[k]?).getD (0, 1)).1)) K]
  rfl

open Classical in
/-- The share of the words that meet the requests is a product over pairs of words. -/
theorem chance_meets {K N : Nat} {β : ℚ} {as : List Ask} (hf : ∀ a ∈ as, a.Fits N β) (h1 : (ints as).length ≤ 2 * K) (h2 : (reals as).length ≤ K) :
    chance K (fun w => Meets ⟨⟨w, 0⟩, ⟨w, 0⟩⟩ as) = ∏ k : Fin K, ((pairsAt as k).card : ℚ) / 2 ^ 64 := by
  unfold chance
  have e : ∀ ω : Fin K → Nat × Nat, Meets ⟨⟨wordsOf ω, 0⟩, ⟨wordsOf ω, 0⟩⟩ as ↔ IntsOk (wordsOf ω) 0 (ints as) ∧ RealsOk (wordsOf ω) 0 (reals as) :=
    fun ω => meets_iff as 0 0 hf
  have e' : (allWords K).filter (fun ω => (fun w => Meets ⟨⟨w, 0⟩, ⟨w, 0⟩⟩ as) (wordsOf ω)) = (allWords K).filter (fun ω => IntsOk (wordsOf ω) 0 (ints as) ∧ RealsOk (wordsOf ω) 0 (reals as)) :=
    Finset.filter_congr fun ω _ => e ω
  rw [e', filter_meets hf h1 h2, Fintype.card_piFinset, Finset.prod_div_distrib, Finset.prod_const, Finset.card_univ, Fintype.card_fin]
  push_cast
  rfl

theorem chance_bounds {K N : Nat} (hN : 1 ≤ N) {β : ℚ} (hβ : 0 < β) (hβ1 : β ≤ 1) {as : List Ask} (hf : ∀ a ∈ as, a.Fits N β)
    (h1 : (ints as).length ≤ 2 * K) (h2 : (reals as).length ≤ K) :
    (err N β ≤ 1 → (1 - err N β) ^ (2 * K) * (as.map Ask.ideal).prod ≤ chance K (fun w => Meets ⟨⟨w, 0⟩, ⟨w, 0⟩⟩ as)) ∧
      chance K (fun w => Meets ⟨⟨w, 0⟩, ⟨w, 0⟩⟩ as) ≤ (1 + err N β) ^ (2 * K) * (as.map Ask.ideal).prod := by
  have key : ∀ c : ℚ, c ^ (2 * K) * (as.map Ask.ideal).prod =
      ∏ k : Fin K, (c ^ 2 * (1 / ((intAt as (2 * k)).1 : ℚ) * (1 / ((intAt as (2 * k + 1)).1 : ℚ)) * ((realAt as k).2 - (realAt as k).1))) := by
    intro c
    rw [Finset.prod_mul_distrib, prod_at hf h1 h2, Finset.prod_const, Finset.card_univ, Fintype.card_fin, ← pow_mul]
  have bd := fun k : Fin K => pairs_share (intAt_ok hN hf (2 * k)).1 (intAt_ok hN hf (2 * k + 1)).1 (intAt_ok hN hf (2 * k)).2 (intAt_ok hN hf (2 * k + 1)).2
    (realAt_ok hβ1 hf k).1 (realAt_ok hβ1 hf k).2.1 hβ (realAt_ok hβ1 hf k).2.2
  rw [chance_meets hf h1 h2, key, key]
  constructor
  · intro hd
    refine Finset.prod_le_prod (fun k _ => ?_) fun k _ => (bd k).1 hd
    have := (realAt_ok hβ1 hf k).2.2
    exact mul_nonneg (sq_nonneg _) (mul_nonneg (by positivity) (by linarith))
  · exact Finset.prod_le_prod (fun k _ => div_nonneg (Nat.cast_nonneg _) (by norm_num)) fun k _ => (bd k).2

end Verif.Rand
