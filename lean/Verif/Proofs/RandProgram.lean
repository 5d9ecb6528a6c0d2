import Verif.Proofs.RandSplit

/-! # Programs that use random numbers -/

set_option linter.constructorNameAsVariable false

namespace Verif.Rand

/-- The manager after a list of requests. -/
def after : Manager → List Ask → Manager
  | g, [] => g
  | g, .int lo hi _ :: as => after (g.randInt lo hi).2 as
  | g, .real _ _ :: as => after g.randUniform.2 as

theorem meets_append : ∀ (as bs : List Ask) (g : Manager), Meets g (as ++ bs) ↔ Meets g as ∧ Meets (after g as) bs
  | [], bs, g => by simp [Meets, after]
  | .int lo hi v :: as, bs, g => by
    simp only [List.cons_append, Meets, after, meets_append as bs, and_assoc]
  | .real l r :: as, bs, g => by
    simp only [List.cons_append, Meets, after, meets_append as bs, and_assoc]

theorem after_append : ∀ (as bs : List Ask) (g : Manager), after g (as ++ bs) = after (after g as) bs
  | [], bs, g => rfl
  | .int lo hi v :: as, bs, g => after_append as bs _
  | .real l r :: as, bs, g => after_append as bs _

open Classical in
/-- If exactly one of the cases holds when `P` does. -/
theorem chance_split (K n : Nat) (P : (Nat → Nat) → Prop) (Q : Nat → (Nat → Nat) → Prop) (h1 : ∀ w, (∀ i, w i < 2 ^ 32) → (P w ↔ ∃ j < n, Q j w))
    (h2 : ∀ w i j, Q i w → Q j w → i = j) : chance K P = ∑ j ∈ Finset.range n, chance K (Q j) := by
  unfold chance
  rw [← Finset.sum_div]
  congr 1
  have e : (allWords K).filter (fun ω => P (wordsOf ω)) = (Finset.range n).biUnion fun j => (allWords K).filter fun ω => Q j (wordsOf ω) := by
    ext ω
    rw [Finset.mem_filter, Finset.mem_biUnion]
    have hw : ω ∈ allWords K → ∀ i, wordsOf ω i < 2 ^ 32 := by
      intro hω i
      rw [mem_allWords] at hω
      unfold wordsOf
      split
      · split
        · exact (hω _).1
        · exact (hω _).2
      · norm_num
    constructor
    · rintro ⟨g1, g2⟩
      obtain ⟨j, hj, hq⟩ := (h1 _ (hw g1)).1 g2
      exact ⟨j, Finset.mem_range.2 hj, Finset.mem_filter.2 ⟨g1, hq⟩⟩
    · rintro ⟨j, hj, hq⟩
      obtain ⟨g1, g2⟩ := Finset.mem_filter.1 hq
      exact ⟨g1, (h1 _ (hw g1)).2 ⟨j, Finset.mem_range.1 hj, g2⟩⟩
  rw [e, Finset.card_biUnion]
  · rw [Nat.cast_sum]
  · intro i _ j _ hij
    rw [Function.onFun, Finset.disjoint_left]
    intro ω g1 g2
    exact hij (h2 _ i j (Finset.mem_filter.1 g1).2 (Finset.mem_filter.1 g2).2)

theorem wins_int {lo : Int} {n : Nat} (hn : 0 < n) {next : Int → Program} {g : Manager} :
    (Program.int lo n next).Wins g ↔ ∃ j < n, Meets g [.int lo (lo + n) (lo + j)] ∧ (next (lo + j)).Wins (after g [.int lo (lo + n) (lo + j)]) := by
  simp only [Program.Wins, Meets, after, and_true]
  constructor
  · rintro ⟨v, h1, h2⟩
    have h3 := Sampling.getRandInt_eq (raw := g.intGen.rawInt.1) (lo := lo) (hi := lo + n) (by omega)
    have h4 : Sampling.getRandInt g.intGen.rawInt.1 lo (lo + n) = some v := h1
    rw [h3, Option.some_inj] at h4
    have h5 := Nat.mod_lt g.intGen.rawInt.1 (show 0 < (lo + n - lo).toNat by omega)
    refine ⟨g.intGen.rawInt.1 % (lo + n - lo).toNat, by omega, ?_⟩
    rw [h4]
    exact ⟨h1, h2⟩
  · rintro ⟨j, _, h1, h2⟩
    exact ⟨_, h1, h2⟩

theorem wins_real {n : Nat} {cut : Nat → ℚ} {next : Nat → Program} {g : Manager} :
    (Program.real n cut next).Wins g ↔ ∃ j < n, Meets g [.real (cut j) (cut (j + 1))] ∧ (next j).Wins (after g [.real (cut j) (cut (j + 1))]) := by
  simp only [Program.Wins, Meets, after, and_true]

section
variable {N : Nat} {β : ℚ} {K : Nat}

/-- The answers so far are the ones of interest, and the rest of the program succeeds. -/
def Goes (as : List Ask) (t : Program) (w : Nat → Nat) : Prop :=
  Meets ⟨⟨w, 0⟩, ⟨w, 0⟩⟩ as ∧ t.Wins (after ⟨⟨w, 0⟩, ⟨w, 0⟩⟩ as)

theorem goes_snoc (as : List Ask) (a : Ask) (t : Program) (w : Nat → Nat) :
    Goes (as ++ [a]) t w ↔ Meets ⟨⟨w, 0⟩, ⟨w, 0⟩⟩ as ∧ Meets (after ⟨⟨w, 0⟩, ⟨w, 0⟩⟩ as) [a] ∧ t.Wins (after (after ⟨⟨w, 0⟩, ⟨w, 0⟩⟩ as) [a]) := by
  unfold Goes
  rw [meets_append, after_append, and_assoc]

theorem chance_int {as : List Ask} {lo : Int} {n : Nat} (hn : 0 < n) {next : Int → Program} :
    chance K (Goes as (.int lo n next)) = ∑ j ∈ Finset.range n, chance K (Goes (as ++ [.int lo (lo + n) (lo + j)]) (next (lo + j))) := by
  apply chance_split
  · intro w _
    simp only [goes_snoc]
    unfold Goes
    rw [wins_int hn]
    constructor
    · rintro ⟨h1, j, hj, h2⟩; exact ⟨j, hj, h1, h2⟩
    · rintro ⟨j, hj, h1, h2⟩; exact ⟨h1, j, hj, h2⟩
  · intro w i j h1 h2
    rw [goes_snoc] at h1 h2
    have e1 := h1.2.1
    have e2 := h2.2.1
    simp only [Meets, and_true] at e1 e2
    rw [e1] at e2
    have := Option.some.inj e2
    omega

theorem cut_mono {n : Nat} {cut : Nat → ℚ} (hβ : 0 < β) (hc : ∀ j < n, β ≤ cut (j + 1) - cut j) {i : Nat} : ∀ {j : Nat}, i ≤ j → j ≤ n → cut i ≤ cut j
  | 0, h, _ => by obtain rfl := Nat.le_zero.1 h; exact le_rfl
  | j + 1, h, hj => by
    rcases Nat.lt_or_ge i (j + 1) with h1 | h1
    · have := cut_mono hβ hc (i := i) (j := j) (by omega) (by omega)
      linarith [hc j (by omega)]
    · obtain rfl : i = j + 1 := by omega
      exact le_rfl

theorem chance_real {as : List Ask} {n : Nat} {cut : Nat → ℚ} {next : Nat → Program} (hβ : 0 < β) (hc : ∀ j < n, β ≤ cut (j + 1) - cut j) :
    chance K (Goes as (.real n cut next)) = ∑ j ∈ Finset.range n, chance K (fun w => j < n ∧ Goes (as ++ [.real (cut j) (cut (j + 1))]) (next j) w) := by
  apply chance_split
  · intro w _
    simp only [goes_snoc]
    unfold Goes
    rw [wins_real]
    constructor
    · rintro ⟨h1, j, hj, h2⟩; exact ⟨j, hj, hj, h1, h2⟩
    · rintro ⟨j, hj, _, h1, h2⟩; exact ⟨h1, j, hj, h2⟩
  · rintro w i j ⟨hi, h1⟩ ⟨hj, h2⟩
    rw [goes_snoc] at h1 h2
    have e1 := h1.2.1
    have e2 := h2.2.1
    simp only [Meets, and_true] at e1 e2
    by_contra hne
    rcases Nat.lt_or_ge i j with h | h
    · have := cut_mono hβ hc (i := i + 1) (j := j) (by omega) (by omega)
      linarith [e1.2, e2.1]
    · have := cut_mono hβ hc (i := j + 1) (j := i) (by omega) (by omega)
      linarith [e2.2, e1.1]

theorem ideal_nonneg {t : Program} : ∀ {i r : Nat}, 0 < β → t.Fits N β i r → 0 ≤ t.ideal := by
  induction t with
  | stop good => intro i r _ _; unfold Program.ideal; split <;> norm_num
  | int lo n next ih =>
    intro i r hβ hf
    obtain ⟨_, _, i', _, h⟩ := hf
    unfold Program.ideal
    exact Finset.sum_nonneg fun j hj => mul_nonneg (by positivity) (ih _ hβ (h j (Finset.mem_range.1 hj)))
  | real n cut next ih =>
    intro i r hβ hf
    obtain ⟨_, _, hc, r', _, h⟩ := hf
    unfold Program.ideal
    exact Finset.sum_nonneg fun j hj => mul_nonneg (by linarith [hc j (Finset.mem_range.1 hj)]) (ih _ hβ (h j (Finset.mem_range.1 hj)))

theorem snoc_int (as : List Ask) (lo hi v : Int) : (as ++ [Ask.int lo hi v]).countP Ask.isInt = as.countP Ask.isInt + 1 ∧
    (as ++ [Ask.int lo hi v]).countP (fun a => !a.isInt) = as.countP fun a => !a.isInt := by
  constructor <;> rw [List.countP_append] <;> rfl

theorem snoc_real (as : List Ask) (l r : ℚ) : (as ++ [Ask.real l r]).countP Ask.isInt = as.countP Ask.isInt ∧
    (as ++ [Ask.real l r]).countP (fun a => !a.isInt) = (as.countP fun a => !a.isInt) + 1 := by
  constructor <;> rw [List.countP_append] <;> rfl

theorem chance_program (hN : 1 ≤ N) (hβ : 0 < β) (hβ1 : β ≤ 1) (he : err N β ≤ 1) (t : Program) : ∀ (i r : Nat) (as : List Ask), t.Fits N β i r →
    (∀ a ∈ as, a.Fits N β) → as.countP Ask.isInt + i ≤ 2 * K → as.countP (fun a => !a.isInt) + r ≤ K →
    (1 - err N β) ^ (2 * K) * ((as.map Ask.ideal).prod * t.ideal) ≤ chance K (Goes as t) ∧
      chance K (Goes as t) ≤ (1 + err N β) ^ (2 * K) * ((as.map Ask.ideal).prod * t.ideal) := by
  induction t with
  | stop good =>
    intro i r as _ hf h1 h2
    cases good with
    | false =>
      have : chance K (Goes as (.stop false)) = 0 := chance_zero fun w _ h => by simpa [Program.Wins] using h.2
      rw [this]
      simp [Program.ideal]
    | true =>
      have e : chance K (Goes as (.stop true)) = chance K (fun w => Meets ⟨⟨w, 0⟩, ⟨w, 0⟩⟩ as) := chance_congr fun w => by simp [Goes, Program.Wins]
      obtain ⟨g1, g2⟩ := chance_bounds hN hβ hβ1 hf (K := K) (by rw [length_ints]; omega) (by rw [length_reals]; omega)
      rw [e]
      simp only [Program.ideal, if_true, mul_one]
      exact ⟨g1 he, g2⟩
  | int lo n next ih =>
    intro i r as ht hf h1 h2
    obtain ⟨hn, hnN, i', rfl, h⟩ := ht
    have key : ∀ c : ℚ, c * ((as.map Ask.ideal).prod * (Program.int lo n next).ideal) =
        ∑ j ∈ Finset.range n, c * (((as ++ [Ask.int lo (lo + n) (lo + j)]).map Ask.ideal).prod * (next (lo + j)).ideal) := by
      intro c
      rw [Program.ideal, Finset.mul_sum, Finset.mul_sum]
      refine Finset.sum_congr rfl fun j _ => ?_
      simp only [List.map_append, List.prod_append, List.map_cons, List.map_nil, List.prod_cons, List.prod_nil, Ask.ideal, mul_one]
      rw [show ((lo + n - lo : Int) : ℚ) = n by rw [add_sub_cancel_left]; simp]
      ring
    have step : ∀ j ∈ Finset.range n, _ := fun j hj => ih (lo + j) i' r (as ++ [.int lo (lo + n) (lo + j)]) (h j (Finset.mem_range.1 hj)) (by
        intro a ha
        rcases List.mem_append.1 ha with ha | ha
        · exact hf a ha
        · obtain rfl := List.mem_singleton.1 ha
          have := Finset.mem_range.1 hj
          exact ⟨by omega, by omega, by omega⟩)
      (by rw [(snoc_int _ _ _ _).1]; omega) (by rw [(snoc_int _ _ _ _).2]; omega)
    rw [chance_int hn, key, key]
    exact ⟨Finset.sum_le_sum fun j hj => (step j hj).1, Finset.sum_le_sum fun j hj => (step j hj).2⟩
  | real n cut next ih =>
    intro i r as ht hf h1 h2
    obtain ⟨hc0, hc1, hc, r', rfl, h⟩ := ht
    have key : ∀ c : ℚ, c * ((as.map Ask.ideal).prod * (Program.real n cut next).ideal) =
        ∑ j ∈ Finset.range n, c * (((as ++ [Ask.real (cut j) (cut (j + 1))]).map Ask.ideal).prod * (next j).ideal) := by
      intro c
      rw [Program.ideal, Finset.mul_sum, Finset.mul_sum]
      refine Finset.sum_congr rfl fun j _ => ?_
      simp only [List.map_append, List.prod_append, List.map_cons, List.map_nil, List.prod_cons, List.prod_nil, Ask.ideal, mul_one]
      ring
    have step : ∀ j ∈ Finset.range n, _ := fun j hj => ih j i r' (as ++ [.real (cut j) (cut (j + 1))]) (h j (Finset.mem_range.1 hj)) (by
        intro a ha
        rcases List.mem_append.1 ha with ha | ha
        · exact hf a ha
        · obtain rfl := List.mem_singleton.1 ha
          have hj' := Finset.mem_range.1 hj
          exact ⟨hc0 ▸ cut_mono hβ hc (Nat.zero_le j) (by omega), hc1 ▸ cut_mono hβ hc (show j + 1 ≤ n from hj') le_rfl, hc j hj'⟩)
      (by rw [(snoc_real _ _ _).1]; omega) (by rw [(snoc_real _ _ _).2]; omega)
    have e : ∀ j ∈ Finset.range n, chance K (fun w => j < n ∧ Goes (as ++ [.real (cut j) (cut (j + 1))]) (next j) w) =
        chance K (Goes (as ++ [.real (cut j) (cut (j + 1))]) (next j)) := fun j hj =>
      chance_congr fun w => ⟨fun h => h.2, fun h => ⟨Finset.mem_range.1 hj, h⟩⟩
    rw [chance_real hβ hc, Finset.sum_congr rfl e, key, key]
    exact ⟨Finset.sum_le_sum fun j hj => (step j hj).1, Finset.sum_le_sum fun j hj => (step j hj).2⟩

end

end Verif.Rand
