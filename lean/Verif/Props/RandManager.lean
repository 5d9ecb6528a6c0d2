import Verif.Proofs.RandProgram

/-!
# C104: random integers and random reals

`Ask`, `Meets`, `chance`, `chanceOf`, `chance2`, `err`, `lowReal` and `highInt` are defined in `Verif.Spec.RandManager`.  The full property (the probability of a combination of answers is the product of the
probabilities of the single answers) holds with seed zero (`c104_seed_zero`), and is false with any other seed (`c104_seeded_false`), where it holds up to a
factor (`c104_seeded_partial`, `c104_program_partial`).
-/

set_option linter.constructorNameAsVariable false

namespace Verif.Rand

/-- C104, with a seed other than zero.  Whatever integers and reals are asked for, in whatever order: the probability of any answers is, up to a factor close to one, what it is for
uniform integers and reals that are independent of each other.  (`K` pairs of words are enough for the requests; with seed `s` the words are those of the generator seeded with `s`.) -/
theorem c104_seeded_partial {seed : Int} (hs : seed ≠ 0) {as : List Ask} {N : Nat} {β : ℚ} (hf : ∀ a ∈ as, a.Fits N β) (hN : 1 ≤ N) (hβ : 0 < β) (hβ1 : β ≤ 1)
    (he : err N β ≤ 1) {K : Nat} (h1 : as.countP Ask.isInt ≤ 2 * K) (h2 : as.countP (fun a => !a.isInt) ≤ K) :
    (1 - err N β) ^ (2 * K) * (as.map Ask.ideal).prod ≤ chanceOf K seed as ∧ chanceOf K seed as ≤ (1 + err N β) ^ (2 * K) * (as.map Ask.ideal).prod := by
  rw [chanceOf_eq hs]
  obtain ⟨g1, g2⟩ := chance_bounds hN hβ hβ1 hf (K := K) (by rw [length_ints]; exact h1) (by rw [length_reals]; exact h2)
  exact ⟨g1 he, g2⟩

/-- C104, with a seed other than zero.  For every program that uses random numbers, whose requests may depend on earlier answers, the probability of success is, up to a factor close to one, what it is for
uniform integers and reals that are independent of each other. -/
theorem c104_program_partial {seed : Int} (hs : seed ≠ 0) {t : Program} {N : Nat} {β : ℚ} {K : Nat} (ht : t.Fits N β (2 * K) K) (hN : 1 ≤ N) (hβ : 0 < β) (hβ1 : β ≤ 1)
    (he : err N β ≤ 1) :
    (1 - err N β) ^ (2 * K) * t.ideal ≤ chance K (fun w => t.Wins (construct (fun _ => w) (fun _ => 0) seed)) ∧
      chance K (fun w => t.Wins (construct (fun _ => w) (fun _ => 0) seed)) ≤ (1 + err N β) ^ (2 * K) * t.ideal := by
  have h := chance_program (K := K) hN hβ hβ1 he t (2 * K) K [] ht (by simp) (by simp) (by simp)
  have e : chance K (Goes [] t) = chance K (fun w => t.Wins (construct (fun _ => w) (fun _ => 0) seed)) := chance_congr fun w => by
    rw [construct_seeded hs]
    simp [Goes, Meets, after]
  rw [e] at h
  simpa using h

/-- C104, with a seed other than zero: the two generators produce the same words, and every second integer is nearly determined by a real. -/
theorem c104_same_words {mt : Nat → Nat → Nat} {rd : Nat → Nat} {seed : Int} (hs : seed ≠ 0) (hw : ∀ s i, mt s i < 2 ^ 32) :
    (construct mt rd seed).intGen = (construct mt rd seed).realGen ∧
      ∀ k, |(((⟨(construct mt rd seed).intGen.word, 2 * k + 1⟩ : Gen).rawInt.1 : Nat) : ℚ) / 2 ^ 31 - (⟨(construct mt rd seed).realGen.word, 2 * k⟩ : Gen).rawReal.1| ≤
        1 / 2 ^ 31 := by
  rw [construct_seeded hs]
  refine ⟨rfl, fun k => ?_⟩
  simp only [Gen.rawInt, Gen.rawReal, raw_half]
  obtain ⟨c1, c2, -⟩ := canonical_bounds (hw (seed % 2 ^ 32).toNat (2 * k)) (hw (seed % 2 ^ 32).toNat (2 * k + 1))
  set w := mt (seed % 2 ^ 32).toNat (2 * k + 1)
  have h1 : (w : ℚ) - 1 ≤ 2 * ((w / 2 : Nat) : ℚ) := by
    have : w ≤ 2 * (w / 2) + 1 := by omega
    have : (w : ℚ) ≤ 2 * ((w / 2 : Nat) : ℚ) + 1 := by exact_mod_cast this
    linarith
  have h2 : 2 * ((w / 2 : Nat) : ℚ) ≤ w := by
    have : 2 * (w / 2) ≤ w := by omega
    exact_mod_cast this
  have e : ((w / 2 : Nat) : ℚ) / 2 ^ 31 = (2 * ((w / 2 : Nat) : ℚ)) / 2 ^ 32 := by
    rw [div_eq_div_iff (by norm_num) (by norm_num), show (2 : ℚ) ^ 32 = 2 * 2 ^ 31 by norm_num]; ring
  have e2 : (1 : ℚ) / 2 ^ 31 = 2 / 2 ^ 32 := by norm_num
  have h3 : ((w : ℚ) - 1) / 2 ^ 32 ≤ (2 * ((w / 2 : Nat) : ℚ)) / 2 ^ 32 := div_le_div_of_nonneg_right h1 (by norm_num)
  have h4 : (2 * ((w / 2 : Nat) : ℚ)) / 2 ^ 32 ≤ (w : ℚ) / 2 ^ 32 := div_le_div_of_nonneg_right h2 (by norm_num)
  rw [sub_div] at h3
  rw [add_div] at c2
  rw [e, e2, abs_le]
  have e3 : (2 : ℚ) / 2 ^ 32 = 1 / 2 ^ 32 + 1 / 2 ^ 32 := by norm_num
  constructor <;> linarith [show (0 : ℚ) ≤ 1 / 2 ^ 32 by norm_num]

theorem highInt_iff {w : Nat → Nat} {rg : Gen} : highInt ⟨⟨w, 0⟩, rg⟩ ↔ 2 ^ 30 ≤ w 1 / 2 % 2147483647 := by
  unfold highInt
  have e : ((Manager.randInt ⟨⟨w, 0⟩, rg⟩ 0 2147483647).2.randInt 0 2147483647).1 = some (((w 1 / 2 % 2147483647 : Nat) : Int)) := by
    have h : ((Manager.randInt ⟨⟨w, 0⟩, rg⟩ 0 2147483647).2.randInt 0 2147483647).1 = Sampling.getRandInt (w 1 / 2) 0 2147483647 := by
      simp only [Manager.randInt, Gen.rawInt, raw_half, Nat.zero_add]
    rw [h, Sampling.getRandInt_eq (by norm_num)]
    simp
  rw [e]
  constructor
  · rintro ⟨v, h1, h2⟩
    obtain rfl := Option.some.inj h2
    exact_mod_cast h1
  · intro h
    exact ⟨_, by exact_mod_cast h, rfl⟩

/-- C104 is false with every seed other than zero: the first real is small and the second integer is large with probability at least 1/4 each, but never both. -/
theorem c104_seeded_false {seed : Int} (hs : seed ≠ 0) :
    1 / 4 ≤ chance 1 (fun w => lowReal (construct (fun _ => w) (fun _ => 0) seed)) ∧ 1 / 4 ≤ chance 1 (fun w => highInt (construct (fun _ => w) (fun _ => 0) seed)) ∧
    (∀ (mt : Nat → Nat → Nat) (rd : Nat → Nat), (∀ s i, mt s i < 2 ^ 32) → ¬ (lowReal (construct mt rd seed) ∧ highInt (construct mt rd seed))) ∧
    ∀ K, chance K (fun w => lowReal (construct (fun _ => w) (fun _ => 0) seed) ∧ highInt (construct (fun _ => w) (fun _ => 0) seed)) = 0 := by
  have key : ∀ (mt : Nat → Nat → Nat) (rd : Nat → Nat), (∀ i, mt (seed % 2 ^ 32).toNat i < 2 ^ 32) → ¬ (lowReal (construct mt rd seed) ∧ highInt (construct mt rd seed)) := by
    intro mt rd hw ⟨h1, h2⟩
    rw [construct_seeded hs] at h1 h2
    rw [highInt_iff] at h2
    have h3 : canonical (mt (seed % 2 ^ 32).toNat 0) (mt (seed % 2 ^ 32).toNat 1) < 1 / 2 := h1
    have h4 := (canonical_bounds (hw 0) (hw 1)).1.trans_lt h3
    rw [div_lt_iff₀ (by norm_num)] at h4
    have h5 : mt (seed % 2 ^ 32).toNat 1 < 2 ^ 31 := by
      have : ((mt (seed % 2 ^ 32).toNat 1 : Nat) : ℚ) < 2 ^ 31 := lt_of_lt_of_eq h4 (by norm_num)
      exact_mod_cast this
    have h6 := Nat.mod_le (mt (seed % 2 ^ 32).toNat 1 / 2) 2147483647
    omega
  refine ⟨?_, ?_, fun mt rd hw => key mt rd (hw _), fun K => chance_zero fun w hw => key (fun _ => w) (fun _ => 0) hw⟩
  · refine le_trans (by norm_num) (chance_ge _ 0 (2 ^ 30) (by norm_num) ?_)
    intro w h0 _ h2
    rw [construct_seeded hs]
    refine lt_of_le_of_lt (canonical_bounds h0 (show w 1 < 2 ^ 32 by omega)).2.1 ?_
    rw [div_lt_iff₀ (by norm_num)]
    have : (w 1 : ℚ) < 2 ^ 30 := by exact_mod_cast h2
    linarith
  · refine le_trans (by norm_num) (chance_ge _ (2 ^ 31) (3 * 2 ^ 30) (by norm_num) ?_)
    intro w _ h1 h2
    rw [construct_seeded hs, highInt_iff, Nat.mod_eq_of_lt (by omega)]
    omega

/-- C104 with seed zero, when the random device gives two different seeds: the probability of any answers is exactly the product of the probabilities of the single answers (for which see `c104_seeded_partial`). -/
theorem c104_seed_zero {rd : Nat → Nat} (hrd : rd 0 ≠ rd 1) {as : List Ask} {N : Nat} {β : ℚ} (hf : ∀ a ∈ as, a.Fits N β) {K : Nat}
    (h1 : as.countP Ask.isInt ≤ 2 * K) (h2 : as.countP (fun a => !a.isInt) ≤ K) :
    chance2 K (fun w w' => Meets (construct (fun s => if s = rd 0 then w else w') rd 0) as) = (as.map fun a => chanceOf 1 1 [a]).prod := by
  have e : ∀ w w' : Nat → Nat, Meets (construct (fun s => if s = rd 0 then w else w') rd 0) as ↔
      Meets ⟨⟨w, 0⟩, ⟨w, 0⟩⟩ (as.filter Ask.isInt) ∧ Meets ⟨⟨w', 0⟩, ⟨w', 0⟩⟩ (as.filter fun a => !a.isInt) := by
    intro w w'
    have e0 : construct (fun s => if s = rd 0 then w else w') rd 0 = ⟨⟨w, 0⟩, ⟨w', 2 * 0⟩⟩ := by
      simp [construct, Ne.symm hrd]
    rw [e0, meets_iff as 0 0 hf]
    have f1 := meets_iff (as.filter Ask.isInt) 0 0 (fun a ha => hf a (List.mem_of_mem_filter ha)) (w := w) (w' := w)
    have f2 := meets_iff (as.filter fun a => !a.isInt) 0 0 (fun a ha => hf a (List.mem_of_mem_filter ha)) (w := w') (w' := w')
    rw [Nat.mul_zero, (ints_filter as).1, (ints_filter as).2] at f1
    rw [Nat.mul_zero, (reals_filter as).1, (reals_filter as).2] at f2
    rw [f1, f2]
    simp [IntsOk, RealsOk]
  have e' : (fun w w' : Nat → Nat => Meets (construct (fun s => if s = rd 0 then w else w') rd 0) as) =
      fun w w' => Meets ⟨⟨w, 0⟩, ⟨w, 0⟩⟩ (as.filter Ask.isInt) ∧ Meets ⟨⟨w', 0⟩, ⟨w', 0⟩⟩ (as.filter fun a => !a.isInt) :=
    funext fun w => funext fun w' => propext (e w w')
  rw [e', chance2_and K (fun w => Meets ⟨⟨w, 0⟩, ⟨w, 0⟩⟩ (as.filter Ask.isInt)) (fun w' => Meets ⟨⟨w', 0⟩, ⟨w', 0⟩⟩ (as.filter fun a => !a.isInt)),
    chance_ints (fun a ha => hf a (List.mem_of_mem_filter ha)) (by rw [(ints_filter as).1, length_ints]; exact h1) (ints_filter as).2,
    chance_reals (fun a ha => hf a (List.mem_of_mem_filter ha)) (reals_filter as).2 (by rw [(reals_filter as).1, length_reals]; exact h2),
    (ints_filter as).1, (reals_filter as).1, ← prod_shares]
  congr 1
  refine List.map_congr_left fun a ha => ?_
  rw [chanceOf_eq (by decide), chance_one (hf a ha)]

/-- C104.  Managers with the same seed, not zero, are the same, so they give the same answers to the same requests. -/
theorem c104_same_seed (mt : Nat → Nat → Nat) (rd rd' : Nat → Nat) {seed : Int} (hs : seed ≠ 0) : construct mt rd seed = construct mt rd' seed := by
  rw [construct_seeded hs, construct_seeded hs]

/-- For example: four actions and two coin flips, seed 60415: the error is less than one in 2^24. -/
example : ∃ as : List Ask, as = [.int 0 4 2, .real 0 (1 / 2), .int 0 4 1, .real (1 / 4) (3 / 4)] ∧ (as.map Ask.ideal).prod = 1 / 64 ∧
    |chanceOf 2 60415 as - 1 / 64| ≤ 1 / 2 ^ 24 := by
  refine ⟨_, rfl, by norm_num [Ask.ideal], ?_⟩
  have h := c104_seeded_partial (seed := 60415) (by decide) (as := [.int 0 4 2, .real 0 (1 / 2), .int 0 4 1, .real (1 / 4) (3 / 4)]) (N := 4) (β := 1 / 2)
    (by simp [Ask.Fits]; norm_num) (by norm_num) (by norm_num) (by norm_num) (by norm_num [err]) (K := 2) (by decide) (by decide)
  rw [show ([Ask.int 0 4 2, .real 0 (1 / 2), .int 0 4 1, .real (1 / 4) (3 / 4)].map Ask.ideal).prod = 1 / 64 by norm_num [Ask.ideal]] at h
  rw [abs_le]
  norm_num [err] at h ⊢
  constructor <;> linarith [h.1, h.2]

/-- For example: an alias table with two entries, asked twice (an integer, then a coin flip, and the same again), returning the same entry both times. -/
def aliasTwice : Program :=
  .int 0 2 fun i => .real 2 (fun j => j / 2) fun j => .int 0 2 fun i' => .real 2 (fun j => j / 2) fun j' => .stop (decide ((i + j) % 2 = (i' + j') % 2))

example : aliasTwice.ideal = 1 / 2 ∧ |chance 2 (fun w => aliasTwice.Wins (construct (fun _ => w) (fun _ => 0) 60415)) - 1 / 2| ≤ 1 / 2 ^ 24 := by
  have hi : aliasTwice.ideal = 1 / 2 := by
    simp only [aliasTwice, Program.ideal, Finset.sum_range_succ, Finset.sum_range_zero]
    norm_num
  refine ⟨hi, ?_⟩
  have cuts : ((fun j : Nat => (j : ℚ) / 2) 0 = 0 ∧ (fun j : Nat => (j : ℚ) / 2) 2 = 1 ∧ ∀ j < 2, (1 / 2 : ℚ) ≤ (fun j : Nat => (j : ℚ) / 2) (j + 1) - (fun j : Nat => (j : ℚ) / 2) j) := by
    refine ⟨by norm_num, by norm_num, fun j _ => ?_⟩
    push_cast
    linarith
  have hf : aliasTwice.Fits 2 (1 / 2) (2 * 2) 2 :=
    ⟨by norm_num, by norm_num, 3, rfl, fun _ _ => ⟨cuts.1, cuts.2.1, cuts.2.2, 1, rfl, fun _ _ => ⟨by norm_num, by norm_num, 2, rfl, fun _ _ =>
      ⟨cuts.1, cuts.2.1, cuts.2.2, 0, rfl, fun _ _ => trivial⟩⟩⟩⟩
  have h := c104_program_partial (seed := 60415) (by decide) hf (by norm_num) (by norm_num) (by norm_num) (by norm_num [err])
  rw [hi] at h
  rw [abs_le]
  norm_num [err] at h ⊢
  constructor <;> linarith [h.1, h.2]

end Verif.Rand
