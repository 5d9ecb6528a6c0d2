import Verif.Proofs.FpTentsInv
import Verif.Proofs.TentsTree
import Verif.Props.FpTents

/-! # How the errors of TENTS backups add up over the levels of a search tree (C96) -/

set_option linter.unusedSectionVars false
set_option linter.unusedSimpArgs false

namespace Verif.Fp

open Verif.Search Verif.Backups
open Verif.Tents (TXV TErr MapsHold fillMaps_hold sparseMax sparseMax_eq sparseMax_congr sparseMax_close IsDistr tsallisObjective c44_spmax fillMaps)
open Verif.Ments (sgn softWeight)

/-! ## Sparse maxima -/

section
variable {A : Type} [DecidableEq A]

/-- The sparse maximum is attained, at least every value, and at most half the temperature above one of them. -/
theorem sparseMax_spec {temp : ℝ} (ht : 0 < temp) (Q : A → ℝ) {l : List A} (hnd : l.Nodup) (hne : l ≠ []) :
    (∃ p, IsDistr l p ∧ sparseMax temp Q l = temp * tsallisObjective l (fun a => Q a / temp) p) ∧
    (∀ r, IsDistr l r → temp * tsallisObjective l (fun a => Q a / temp) r ≤ sparseMax temp Q l) ∧
    (∀ a ∈ l, Q a ≤ sparseMax temp Q l) ∧ ∃ a ∈ l, sparseMax temp Q l ≤ Q a + temp / 2 := by
  have H := fillMaps_hold (fun a => Q a / temp) l [] ([], []) (by simpa using hnd) ⟨by simp, by simp, by simp⟩
  rw [List.nil_append] at H
  obtain ⟨s, p, h1, h2, h3, h4, h5, b, hb, h6⟩ := c44_spmax
    (t := ⟨Ments.softInitD 0, (fillMaps (l.map fun a => (a, Q a / temp)) ([], [])).1, (fillMaps (l.map fun a => (a, Q a / temp)) ([], [])).2⟩) H hnd hne
  rw [sparseMax_eq H hnd hne (fun _ _ => rfl) h1]
  refine ⟨⟨p, h2.1, by rw [h3]⟩, fun r hr => mul_le_mul_of_nonneg_left (h4 r hr) ht.le, ?_, b, hb, ?_⟩
  · intro a ha
    have := mul_le_mul_of_nonneg_left (h5 a ha) ht.le
    rwa [mul_div_cancel₀ _ ht.ne'] at this
  · have h7 := mul_le_mul_of_nonneg_left h6 ht.le
    rw [mul_add, mul_div_cancel₀ _ ht.ne'] at h7
    linarith

theorem sparseMax_le {temp : ℝ} (ht : 0 < temp) {Q Q' : A → ℝ} {l : List A} (hnd : l.Nodup) (hne : l ≠ []) {ε : ℝ} (h : ∀ a ∈ l, Q a ≤ Q' a + ε) :
    sparseMax temp Q l ≤ sparseMax temp Q' l + ε := by
  obtain ⟨⟨p, hp, h1⟩, _⟩ := sparseMax_spec ht Q hnd hne
  have h2 := (sparseMax_spec ht Q' hnd hne).2.1 p hp
  have h3 : (l.map fun a => p a * (Q a / temp)).sum ≤ (l.map fun a => p a * (Q' a / temp)).sum + ε / temp := by
    have e1 : (l.map fun a => p a * (Q a / temp)).sum ≤ (l.map fun a => p a * (Q' a / temp) + p a * (ε / temp)).sum := by
      refine List.sum_le_sum fun a ha => ?_
      rw [← mul_add, ← add_div]
      exact mul_le_mul_of_nonneg_left (div_le_div_of_nonneg_right (h a ha) ht.le) (hp.nonneg a ha)
    rw [List.sum_map_add, List.sum_map_mul_right, hp.sum, one_mul] at e1
    exact e1
  unfold tsallisObjective at h1 h2
  have h4 := mul_le_mul_of_nonneg_left h3 ht.le
  rw [mul_add, mul_div_cancel₀ _ ht.ne'] at h4
  rw [mul_add] at h1 h2
  linarith

/-- The sparse maximum does not increase distances. -/
theorem sparseMax_near {temp : ℝ} (ht : 0 < temp) {Q Q' : A → ℝ} {l : List A} (hnd : l.Nodup) (hne : l ≠ []) {ε : ℝ} (h : ∀ a ∈ l, |Q a - Q' a| ≤ ε) :
    |sparseMax temp Q l - sparseMax temp Q' l| ≤ ε := by
  have h1 := sparseMax_le ht hnd hne (Q := Q) (Q' := Q') (ε := ε) (fun a ha => by have := (abs_le.1 (h a ha)).2; linarith)
  have h2 := sparseMax_le ht hnd hne (Q := Q') (Q' := Q) (ε := ε) (fun a ha => by have := (abs_le.1 (h a ha)).1; linarith)
  rw [abs_le]
  constructor <;> linarith

theorem sparseMax_abs {temp : ℝ} (ht : 0 < temp) {Q : A → ℝ} {l : List A} (hnd : l.Nodup) (hne : l ≠ []) {M : ℝ} (h : ∀ a ∈ l, |Q a| ≤ M) :
    |sparseMax temp Q l| ≤ M + temp / 2 := by
  obtain ⟨_, _, h1, b, hb, h2⟩ := sparseMax_spec ht Q hnd hne
  have h3 := (abs_le.1 (h b hb)).2
  have h4 := h1 b hb
  have h5 := (abs_le.1 (h b hb)).1
  rw [abs_le]
  constructor <;> linarith

/-! ## The sparse maximum of doubles -/

theorem sum_cast : ∀ l : List ℚ, ((l.sum : ℚ) : ℝ) = (l.map fun x : ℚ => (x : ℝ)).sum
  | [] => by simp
  | x :: l => by simp [sum_cast l]

theorem sparseLoop_cast : ∀ (l : List (ℚ × A)) (i : Nat) (s : ℚ),
    Tents.sparseLoop (l.map fun p => ((p.1 : ℝ), p.2)) (i : ℝ) (s : ℝ) = (support i s l).map Prod.snd
  | [], _, _ => rfl
  | (v, a) :: l, i, s => by
    have ih := sparseLoop_cast l (i + 1) (s + v)
    push_cast at ih
    simp only [List.map_cons, Tents.sparseLoop, support, ih]
    have e : ((s : ℝ) + v < 1 + (i + 1) * v) ↔ (s + v < 1 + ((i : ℚ) + 1) * v) := by
      rw [← Rat.cast_lt (K := ℝ)]
      push_cast
      rfl
    by_cases hc : s + v < 1 + ((i : ℚ) + 1) * v
    · rw [if_pos hc, if_pos (e.2 hc)]; rfl
    · rw [if_neg hc, if_neg (mt e.1 hc)]

theorem MapsHold_cast {acts : List A} {z : A → ℚ} {bv : List (ℚ × A)} {ba : List (A × ℚ)} (H : MapsHold acts z bv ba) :
    MapsHold acts (fun a => (z a : ℝ)) (bv.map fun p => ((p.1 : ℝ), p.2)) (ba.map fun p => (p.1, (p.2 : ℝ))) where
  act := by
    have := H.act.map fun p : A × ℚ => (p.1, (p.2 : ℝ))
    simpa [List.map_map, Function.comp_def] using this
  val := by
    have := H.val.map fun p : ℚ × A => ((p.1 : ℝ), p.2)
    simpa [List.map_map, Function.comp_def] using this
  sorted := by
    rw [List.pairwise_map]
    exact H.sorted.imp fun h => (Rat.cast_le (K := ℝ)).2 h

/-- The exact spmax of the values in the maps is the sparse maximum. -/
theorem spmaxOf_maps {acts : List A} {z : A → ℚ} {bv : List (ℚ × A)} {ba : List (A × ℚ)} (H : MapsHold acts z bv ba) (hnd : acts.Nodup) (hne : acts ≠ []) {temp : ℝ} (ht : 0 < temp) :
    temp * ((spmaxOf ((support 0 0 bv.reverse).map Prod.fst) : ℚ) : ℝ) = sparseMax temp (fun a => temp * (z a : ℝ)) acts := by
  have HR := MapsHold_cast H
  obtain ⟨τ, h1, h2⟩ := Tents.spmax_eq (t := ⟨Ments.softInitD 0, bv.map fun p => ((p.1 : ℝ), p.2), ba.map fun p => (p.1, (p.2 : ℝ))⟩) HR hnd hne
  rw [sparseMax_eq (temp := temp) (Q := fun a => temp * (z a : ℝ)) HR hnd hne (fun a _ => by rw [mul_div_cancel_left₀ _ ht.ne']) h1]
  congr 1
  have hs : Tents.sparseSet (bv.map fun p => ((p.1 : ℝ), p.2)) = (support 0 0 bv.reverse).map Prod.snd := by
    unfold Tents.sparseSet
    rw [← List.map_reverse]
    have := sparseLoop_cast bv.reverse 0 0
    simpa using this
  have hz : ∀ p ∈ support 0 0 bv.reverse, z p.2 = p.1 := by
    intro p hp
    have h1 : p ∈ bv := List.mem_reverse.1 (support_sub.subset hp)
    obtain ⟨a, _, rfl⟩ := List.mem_map.1 (H.val.mem_iff.1 h1)
    rfl
  dsimp only at h2 ⊢
  rw [hs] at h2 ⊢
  generalize support 0 0 bv.reverse = sup at hz h2 ⊢
  have e1 : ∀ f : ℝ → ℝ, ((sup.map Prod.snd).map fun a => f (z a : ℝ)) = sup.map fun p => f (p.1 : ℝ) := by
    intro f
    rw [List.map_map]
    refine List.map_congr_left fun p hp => ?_
    simp [hz p hp]
  rw [e1 fun x => x, List.length_map] at h2
  rw [e1 fun x => x ^ 2 / 2 - τ ^ 2 / 2]
  unfold spmaxOf
  rw [Rat.cast_add, sum_cast, List.map_map, List.map_map]
  congr 1
  · norm_num
  congr 1
  refine List.map_congr_left fun p _ => ?_
  simp only [Function.comp_def]
  push_cast
  rw [List.map_map, show (sup.map ((Rat.cast : ℚ → ℝ) ∘ Prod.fst)).sum = (sup.map fun p => (p.1 : ℝ)).sum from rfl, List.length_map, h2, div_pow]
  congr 1
  rw [mul_comm, div_div]

/-- The sparse set of doubles and that of the same values as real numbers. -/
theorem sparseSet_cast (bv : List (ℚ × A)) : Tents.sparseSet (bv.map fun p => ((p.1 : ℝ), p.2)) = (support 0 0 bv.reverse).map Prod.snd := by
  unfold Tents.sparseSet
  rw [← List.map_reverse]
  have := sparseLoop_cast bv.reverse 0 0
  simpa using this

/-- The exact sparsemax weights of the values in the maps are the projection of these values on the distributions. -/
theorem sparsemax_maps {acts : List A} {z : A → ℚ} {bv : List (ℚ × A)} {ba : List (A × ℚ)} (H : MapsHold acts z bv ba) (hne : acts ≠ []) :
    Tents.IsSparsemax acts (fun a => (z a : ℝ)) fun a => ((sparsemaxOf ((support 0 0 bv.reverse).map Prod.fst) (z a) : ℚ) : ℝ) := by
  have HR := MapsHold_cast H
  obtain ⟨hK, rest, hp, h1, h2⟩ := Tents.sparseSet_spec HR hne
  have hs := Tents.above_sum_eq hp hK _ h1 h2
  have hfun : (fun a => ((sparsemaxOf ((support 0 0 bv.reverse).map Prod.fst) (z a) : ℚ) : ℝ)) =
      Tents.above (fun a => (z a : ℝ)) ((((Tents.sparseSet (bv.map fun p => ((p.1 : ℝ), p.2))).map fun a => (z a : ℝ)).sum - 1) /
        (Tents.sparseSet (bv.map fun p => ((p.1 : ℝ), p.2))).length) := by
    funext a
    rw [sparseSet_cast]
    have hz : ∀ p ∈ support 0 0 bv.reverse, z p.2 = p.1 := by
      intro p hp
      have h1 : p ∈ bv := List.mem_reverse.1 (support_sub.subset hp)
      obtain ⟨a, _, rfl⟩ := List.mem_map.1 (H.val.mem_iff.1 h1)
      rfl
    generalize support 0 0 bv.reverse = sup at hz ⊢
    have e1 : (sup.map Prod.snd).map (fun a => (z a : ℝ)) = (sup.map Prod.fst).map fun x : ℚ => (x : ℝ) := by
      rw [List.map_map, List.map_map]
      exact List.map_congr_left fun p hp => by simp [hz p hp]
    rw [e1, ← sum_cast, List.length_map]
    unfold sparsemaxOf Tents.above
    rw [List.length_map]
    generalize (sup.map Prod.fst).sum = x
    push_cast
    split
    · rename_i h3; rw [max_eq_left h3.le]
    · rename_i h3; rw [max_eq_right (not_lt.1 h3)]
  rw [hfun]
  exact Tents.above_isSparsemax hs

/-- The error of a decision node. -/
theorem sparse_err {sq : ℚ → ℚ} (hsq : GoodSq sq) {temp M : ℚ} (htd : IsDouble temp) (ht0 : 0 < temp) (hM1 : 1 ≤ M) (hM : temp ≤ M) (hM2 : M ≤ 2 ^ 50 * temp) {n : Nat}
    (hn : n ≤ 1000) (opp : Bool) {acts : List A} (hnd : acts.Nodup) (hne : acts ≠ []) (hln : acts.length ≤ n) {Q z : A → ℚ} {bv : List (ℚ × A)} {ba : List (A × ℚ)}
    (H : MapsHold acts z bv ba) (hz : ∀ a ∈ acts, z a = fdiv (Q a) temp) (hQ : ∀ a ∈ acts, |Q a| ≤ M) :
    |((fmul (fmul (oppSign opp) temp) (spmax sq bv.reverse) : ℚ) : ℝ) - sgn opp * sparseMax temp (fun a => (Q a : ℝ)) acts| ≤
      4 * (unit * M) + 111 * (n * n) * (unit * (M * M / temp)) := by
  have hu := unit_pos
  have hti := tiny_pos
  have hti2 := tiny_le_100
  have hu2 : unit ≤ 1 / 10 ^ 6 := by rw [unit_eq]; norm_num
  have hM0 : 0 < M := by linarith
  have hr1 : 1 ≤ M / temp := by rwa [le_div_iff₀ ht0, one_mul]
  have hr2 : M / temp ≤ 2 ^ 50 := by rwa [div_le_iff₀ ht0]
  have hzq : ∀ a ∈ acts, |z a - Q a / temp| ≤ unit * (M / temp) + tiny := by
    intro a ha
    rw [hz a ha]
    refine le_trans (fl_err' _) ?_
    have : |Q a / temp| ≤ M / temp := by
      rw [abs_div, abs_of_pos ht0]
      exact div_le_div_of_nonneg_right (hQ a ha) ht0.le
    have := mul_le_mul_of_nonneg_left this hu.le
    linarith
  have hzB : ∀ a ∈ acts, IsDouble (z a) ∧ |z a| ≤ 11 / 10 * (M / temp) := by
    intro a ha
    refine ⟨by rw [hz a ha]; exact isDouble_fl _, ?_⟩
    have h1 := hzq a ha
    have h2 : |Q a / temp| ≤ M / temp := by
      rw [abs_div, abs_of_pos ht0]
      exact div_le_div_of_nonneg_right (hQ a ha) ht0.le
    have h3 := abs_sub_abs_le_abs_sub (z a) (Q a / temp)
    have h4 : unit * (M / temp) ≤ 1 / 10 ^ 6 * (M / temp) := mul_le_mul_of_nonneg_right hu2 (by linarith)
    linarith
  have hlen : bv.length = acts.length := by rw [H.val.length_eq, List.length_map]
  have hsp := Props.c88_value_everywhere_partial hsq (B := 11 / 10 * (M / temp)) (by linarith) (by linarith) (desc := bv.reverse) (by
      intro h
      have := congrArg List.length h
      simp [hlen] at this
      exact hne this) (by
      rw [List.pairwise_reverse]
      exact H.sorted) (by rw [List.length_reverse, hlen]; omega) (by
      intro p hp
      obtain ⟨a, ha, rfl⟩ := List.mem_map.1 (H.val.mem_iff.1 (List.mem_reverse.1 hp))
      exact hzB a ha)
  rw [List.length_reverse, hlen] at hsp
  have hot : fmul (oppSign opp) temp = oppSign opp * temp := by
    unfold fmul oppSign
    cases opp
    · simp only [Bool.false_eq_true, if_false, one_mul]; exact htd
    · simp only [if_true, neg_one_mul]; exact htd.neg
  rw [hot]
  have hfin := fl_err' (oppSign opp * temp * spmax sq bv.reverse)
  have habs : |oppSign opp * temp * spmax sq bv.reverse| = temp * |spmax sq bv.reverse| := by
    rw [abs_mul, abs_mul, abs_of_pos ht0]
    unfold oppSign
    cases opp <;> simp
  rw [habs] at hfin
  have htr : (0 : ℝ) < temp := by exact_mod_cast ht0
  have hex := spmaxOf_maps H hnd hne htr
  have hnear : |sparseMax (temp : ℝ) (fun a => temp * (z a : ℝ)) acts - sparseMax temp (fun a => (Q a : ℝ)) acts| ≤ ((unit * M + temp * tiny : ℚ) : ℝ) := by
    refine sparseMax_near htr hnd hne fun a ha => ?_
    have h1 : |temp * z a - Q a| ≤ unit * M + temp * tiny := by
      have h2 : temp * z a - Q a = temp * (z a - Q a / temp) := by field_simp
      rw [h2, abs_mul, abs_of_pos ht0]
      have h3 := mul_le_mul_of_nonneg_left (hzq a ha) ht0.le
      have h4 : temp * (unit * (M / temp) + tiny) = unit * M + temp * tiny := by field_simp
      linarith
    exact_mod_cast h1
  have hbig := sparseMax_abs htr hnd hne (Q := fun a => (Q a : ℝ)) (M := M) (fun a ha => by exact_mod_cast hQ a ha)
  have hn2 : ((acts.length : ℚ)) * acts.length ≤ n * n := by exact_mod_cast Nat.mul_le_mul hln hln
  have hB2 : temp * (unit * (11 / 10 * (M / temp) * (11 / 10 * (M / temp)))) = 121 / 100 * (unit * (M * M / temp)) := by field_simp; ring
  have hX : 0 ≤ unit * (M * M / temp) := by positivity
  have hsp2 : temp * |spmax sq bv.reverse - spmaxOf ((support 0 0 bv.reverse).map Prod.fst)| ≤ 221 / 2 * (n * n) * (unit * (M * M / temp)) := by
    have h1 := mul_le_mul_of_nonneg_left hsp ht0.le
    have h2 : temp * (91 * ((acts.length : ℚ) * acts.length) * (unit * (11 / 10 * (M / temp) * (11 / 10 * (M / temp))))) =
        11011 / 100 * (((acts.length : ℚ) * acts.length) * (unit * (M * M / temp))) := by
      have : temp * (91 * ((acts.length : ℚ) * acts.length) * (unit * (11 / 10 * (M / temp) * (11 / 10 * (M / temp))))) =
        91 * ((acts.length : ℚ) * acts.length) * (temp * (unit * (11 / 10 * (M / temp) * (11 / 10 * (M / temp))))) := by ring
      rw [this, hB2]; ring
    rw [h2] at h1
    have h3 := mul_le_mul_of_nonneg_right hn2 hX
    have h4 : 0 ≤ ((n : ℚ) * n) * (unit * (M * M / temp)) := by positivity
    linarith
  have hsgn : ((oppSign opp : ℚ) : ℝ) = sgn opp := by unfold oppSign sgn; cases opp <;> simp
  have hsg1 : |sgn opp| = 1 := by unfold sgn; cases opp <;> simp
  -- to the reals
  have hfin' := cast_abs_le hfin
  have hsp' := (Rat.cast_le (K := ℝ)).2 hsp2
  have htt : temp * tiny ≤ M * (unit / 100) := mul_le_mul hM hti2 hti.le hM0.le
  have htt' := (Rat.cast_le (K := ℝ)).2 htt
  have hti' := (Rat.cast_le (K := ℝ)).2 hti2
  have hu2' := (Rat.cast_le (K := ℝ)).2 hu2
  have hM1' := (Rat.cast_le (K := ℝ)).2 hM1
  have hM' := (Rat.cast_le (K := ℝ)).2 hM
  have hu' : (0 : ℝ) < unit := by exact_mod_cast hu
  push_cast at hfin' hsp' htt' hti' hu2' hM1' hM' hnear
  rw [hsgn] at hfin'
  have hX' : (0 : ℝ) ≤ n * n * (unit * (M * M / temp)) := by
    have : (0 : ℚ) ≤ n * n * (unit * (M * M / temp)) := by positivity
    exact_mod_cast this
  unfold fmul
  rw [mul_assoc] at hsp'
  rw [mul_assoc (111 : ℝ)]
  generalize (n : ℝ) * n * (unit * (M * M / temp)) = X at *
  generalize ((fl (oppSign opp * temp * spmax sq bv.reverse) : ℚ) : ℝ) = V at *
  generalize ((spmax sq bv.reverse : ℚ) : ℝ) = e at *
  generalize ((spmaxOf ((support 0 0 bv.reverse).map Prod.fst) : ℚ) : ℝ) = e' at *
  rw [← hex] at hnear
  generalize sparseMax (temp : ℝ) (fun a => (Q a : ℝ)) acts = s at *
  have t1 : temp * |e| ≤ 221 / 2 * X + 8 / 5 * M := by
    have h1 : (temp : ℝ) * e = temp * (e - e') + (temp * e' - s) + s := by ring
    have h2 : |(temp : ℝ) * e| ≤ |temp * (e - e')| + |temp * e' - s| + |s| := by
      rw [h1]
      exact le_trans (abs_add_le _ _) (by have := abs_add_le (temp * (e - e')) (temp * e' - s); linarith)
    rw [abs_mul, abs_mul, abs_of_pos htr] at h2
    have h3 : (unit : ℝ) * M ≤ 1 / 10 ^ 6 * M := mul_le_mul_of_nonneg_right hu2' (by linarith)
    linarith
  have t2 := mul_le_mul_of_nonneg_left t1 hu'.le
  have t3 : (unit : ℝ) * X ≤ 1 / 10 ^ 6 * X := mul_le_mul_of_nonneg_right hu2' hX'
  have t4 : (unit : ℝ) ≤ unit * M := by nlinarith
  have t5 : V - sgn opp * s = (V - sgn opp * temp * e) + (sgn opp * (temp * (e - e')) + sgn opp * (temp * e' - s)) := by ring
  have t6 := abs_add_le (V - sgn opp * temp * e) (sgn opp * (temp * (e - e')) + sgn opp * (temp * e' - s))
  have t7 := abs_add_le (sgn opp * (temp * (e - e'))) (sgn opp * (temp * e' - s))
  rw [abs_mul (sgn opp), abs_mul (sgn opp), hsg1, abs_mul (temp : ℝ), abs_of_pos htr] at t7
  rw [t5]
  linarith

end

/-! ## The values of the tree -/

section
variable {S A : Type} [DecidableEq S] [DecidableEq A]
  {env : Env S A ℚ} {m : Manager S ℚ} {alg : Alg S A ℚ (Except TErr (TXF A)) SoftF} {sq : ℚ → ℚ} {cfg : MentsCfg} {lr : S → A → ℚ}
  {k : Nat} {s0 : S} {dp tm : Int} {tb : List ((Int × S) × Option Nat)} {st st' : St S A ℚ (Except TErr (TXF A)) SoftF} {h : List (Event S A ℚ)}
  {ρ M : ℚ} {K n D : Nat}

theorem sparseError_nonneg {temp : ℚ} (ht : 0 < temp) (hM : 0 ≤ M) : 0 ≤ sparseError K n temp M := by
  have hu : (0 : ℝ) < unit := by exact_mod_cast unit_pos
  have ht' : (0 : ℝ) < temp := by exact_mod_cast ht
  have hM' : (0 : ℝ) ≤ M := by exact_mod_cast hM
  unfold sparseError
  positivity

/-- Bounds between the quantities of C96. -/
theorem sparse_range (F : SparseFits env m cfg lr ρ M K n D dp h) {i j l : ℝ} (hi : i ≤ D + 1) (hj : j ≤ D + 1) (hl : l ≤ D + 1) :
    i * ρ + j * (cfg.temp / 2) + l * sparseError K n cfg.temp M ≤ M := by
  have hρ : (0 : ℝ) ≤ ρ := by exact_mod_cast le_trans (abs_nonneg _) F.default
  have hM : 0 ≤ M := by have := F.one; linarith
  have hE := sparseError_nonneg (K := K) (n := n) F.temp.2 hM
  have ht : (0 : ℝ) < cfg.temp := by exact_mod_cast F.temp.2
  have h1 := mul_le_mul_of_nonneg_right hi hρ
  have h2 := mul_le_mul_of_nonneg_right hj (by positivity : (0 : ℝ) ≤ cfg.temp / 2)
  have h3 := mul_le_mul_of_nonneg_right hl hE
  have := F.range
  linarith

theorem chanceT_near (F : SparseFits env m cfg lr ρ M K n D dp h) (hv : alg.Valid) (H : HasFpTents alg env m sq cfg lr)
    (hu : m.useTable = false) (htb : Leftover tb) (hr : Reachable env m alg k s0 dp tm tb st h) (hq : Quiescent st)
    {j : Nat} (ih : ∀ (d : Nat) nd, j ≤ D → st.dn[d]? = some nd → (m.maxDepth - nd.depth).toNat ≤ j →
      |sparseTreeR cfg env m lr st h j d| ≤ (j + 1) * ρ + j * (cfg.temp / 2) ∧
        |((softOfF nd.x).val : ℝ) - sparseTreeR cfg env m lr st h j d| ≤ j * sparseError K n cfg.temp M)
    {d c : Nat} {a : A} {nd : DNode S A ℚ (Except TErr (TXF A))} (hjD : j + 1 ≤ D) (hd : st.dn[d]? = some nd) (hn : (m.maxDepth - nd.depth).toNat ≤ j + 1)
    (hcc : childC st d a = some c) :
    ∃ nc, st.cn[c]? = some nc ∧
      |chanceSoftR env m lr st h (sparseTreeR cfg env m lr st h j) nc| ≤ (j + 2) * ρ + j * (cfg.temp / 2) ∧
      |(nc.y.val : ℝ) - chanceSoftR env m lr st h (sparseTreeR cfg env m lr st h j) nc| ≤ j * sparseError K n cfg.temp M + (8 * K + 3) * (unit * M) := by
  have hρ : (0 : ℝ) ≤ ρ := by exact_mod_cast le_trans (abs_nonneg _) F.default
  have hM : 0 ≤ M := by have := F.one; linarith
  have hE := sparseError_nonneg (K := K) (n := n) F.temp.2 hM
  have ht : (0 : ℝ) < cfg.temp := by exact_mod_cast F.temp.2
  have hjDr : (j : ℝ) + 1 ≤ D := by exact_mod_cast hjD
  have hj0 : (0 : ℝ) ≤ j := by positivity
  have hρM : ρ ≤ M := by
    have h1 := sparse_range F (i := 1) (j := 0) (l := 0) (by linarith) (by linarith) (by linarith)
    have h2 : (ρ : ℝ) ≤ M := by linarith
    exact_mod_cast h2
  obtain ⟨nc, h1, h2, h3⟩ := chance_step (px := softOfF) (py := id) hv (tentsF_visit_false H) hu htb hr hq H.backupC
    (fun d nd => tentsF_weight H hv F.nodup htb hr hq d nd) F.one hρM F.local_ F.succs F.few F.trials
    (j := j) (below := sparseTreeR cfg env m lr st h j) (b := (j + 1) * ρ + j * (cfg.temp / 2)) (ε := j * sparseError K n cfg.temp M)
    (by positivity) (by positivity) (sparse_range F (by linarith) (by linarith) (by linarith)) (fun d nd hd hn => ih d nd (by omega) hd hn) hd hn hcc
  exact ⟨nc, h1, by linarith, h3⟩

/-- The values of all nodes are close to those of the tree in real arithmetic. -/
theorem treeT_near (hsq : GoodSq sq) (F : SparseFits env m cfg lr ρ M K n D dp h) (hv : alg.Valid) (H : HasFpTents alg env m sq cfg lr)
    (hu : m.useTable = false) (htb : Leftover tb) (hr : Reachable env m alg k s0 dp tm tb st h) (hq : Quiescent st) :
    ∀ (j d : Nat) nd, j ≤ D → st.dn[d]? = some nd → (m.maxDepth - nd.depth).toNat ≤ j →
      |sparseTreeR cfg env m lr st h j d| ≤ (j + 1) * ρ + j * (cfg.temp / 2) ∧
        |((softOfF nd.x).val : ℝ) - sparseTreeR cfg env m lr st h j d| ≤ j * sparseError K n cfg.temp M := by
  have D' := tentsValF_reach H hv F.nodup htb hr
  have I := reach_inv hv htb hr
  have hρ : (0 : ℝ) ≤ ρ := by exact_mod_cast le_trans (abs_nonneg _) F.default
  have hM : 0 ≤ M := by have := F.one; linarith
  have hE := sparseError_nonneg (K := K) (n := n) F.temp.2 hM
  have ht : (0 : ℝ) < cfg.temp := by exact_mod_cast F.temp.2
  have heur : ∀ (d : Nat) nd, st.dn[d]? = some nd → |(nd.heur : ℝ)| ≤ ρ := by
    intro d nd hd
    rw [show nd.heur = heurOf env m nd.state from I.tree.heap.dHeur d nd.skel (by simp [hd])]
    have := (Rat.cast_le (K := ℝ)).2 (F.heur nd.state)
    push_cast at this
    exact this
  have nokids : ∀ (d : Nat) nd, st.dn[d]? = some nd → nd.kids = [] → (softOfF nd.x).val = nd.heur := by
    intro d nd hd hk
    obtain ⟨t, h0, _, h2, _⟩ := D' d nd hd
    rw [h0]
    refine h2 ?_
    by_contra hne
    have hpos : 0 < h.countP (Event.selAt d) := by
      have := (reach_bk hr).1.d d
      have := List.length_pos_iff.2 hne
      omega
    obtain ⟨e, he, hs⟩ := List.countP_pos_iff.1 hpos
    cases e with
    | selected w d1 a c =>
      have hdd : d1 = d := by simpa [Event.selAt] using hs
      subst hdd
      obtain ⟨nd', _, k1, _, k2, _⟩ := childC_facts I.tree ((reach_both hv htb hr).2.evSel w d1 a c he)
      rw [hd] at k1
      obtain rfl := Option.some.inj k1
      rw [hk] at k2
      simp at k2
    | _ => simp [Event.selAt] at hs
  intro j
  induction j with
  | zero =>
    intro d nd _ hd hn
    have hl : isLeaf env m nd = true := by unfold isLeaf; simp; right; omega
    rw [isLeaf_skel] at hl
    have hk : nd.kids = [] := I.tree.heap.dLeaf d nd.skel (by simp [hd]) hl
    rw [nokids d nd hd hk]
    simp only [sparseTreeR, hd, Option.elim_some, Nat.cast_zero, zero_add, one_mul, zero_mul, add_zero, sub_self, abs_zero]
    exact ⟨heur d nd hd, le_refl _⟩
  | succ j ih =>
    intro d nd hjD hd hn
    have hj0 : (0 : ℝ) ≤ j := by positivity
    have hjDr : (j : ℝ) + 1 ≤ D := by exact_mod_cast hjD
    simp only [sparseTreeR, hd, Option.elim_some]
    by_cases hk : nd.kids = []
    · rw [if_pos hk, nokids d nd hd hk, sub_self, abs_zero]
      push_cast
      refine ⟨?_, by positivity⟩
      have h1 := heur d nd hd
      have h2 : 0 ≤ ((j : ℝ) + 1) * ρ := by positivity
      have h3 : 0 ≤ ((j : ℝ) + 1) * (cfg.temp / 2) := by positivity
      linarith
    · rw [if_neg hk]
      obtain ⟨p0, hp0⟩ := List.exists_mem_of_ne_nil _ hk
      have hc0 := childC_of_mem I.tree hd (show (p0.1, p0.2) ∈ nd.kids from hp0)
      have hret := (c39_children_backed hv htb hr hq hc0).1
      obtain ⟨t, hx, _, _, hval⟩ := D' d nd hd
      have hval := hval hret
      obtain ⟨t', z, hx', MH⟩ := tentsF_reach H hv F.nodup htb hr d nd hd
      rw [hx] at hx'
      obtain rfl := Except.ok.inj hx'
      have hane : env.actions nd.state ≠ [] := by
        obtain ⟨nd2, _, k1, _, _, _, _, _, _, k8⟩ := childC_facts I.tree hc0
        rw [hd] at k1
        obtain rfl := Option.some.inj k1
        exact List.ne_nil_of_mem k8
      have hchance := fun (c : Nat) (a : A) (hac : (a, c) ∈ nd.kids) =>
        chanceT_near F hv H hu htb hr hq ih (by omega) hd hn (childC_of_mem I.tree hd hac)
      have hfk : ∀ a, find? a (kidsY st nd) = (find? a nd.kids).bind fun c => (st.cn[c]?).map fun nc => (nc.visits, nc.y) := by
        intro a
        refine Verif.Ments.find?_kidsY a ?_
        intro p hp
        obtain ⟨nc, h1, _⟩ := hchance p.2 p.1 hp
        exact ⟨nc, h1⟩
      -- exact and computed action values
      let q : A → ℝ := fun a => (find? a nd.kids).elim (cfg.defaultQ : ℝ) fun c => (st.cn[c]?).elim 0 (chanceSoftR env m lr st h (sparseTreeR cfg env m lr st h j))
      let Q : A → ℚ := softQ cfg id (viewOf env m st nd)
      have hz : ∀ a ∈ env.actions nd.state, z a = fdiv (Q a) cfg.temp := by
        intro a ha
        refine storedF_reach H hv F.nodup htb hr hd ha ?_ hx MH
        intro w p hw
        rw [hq w p hw]
        simp [owed]
      have hov : (viewOf env m st nd).opp = isOpponent m nd.time := rfl
      generalize hopp : isOpponent m nd.time = opp at *
      have hdef : |(cfg.defaultQ : ℝ)| ≤ ρ := by
        have := (Rat.cast_le (K := ℝ)).2 F.default
        push_cast at this
        exact this
      have hcM : 0 ≤ (8 * (K : ℝ) + 3) * (unit * M) := by
        have hu0 : (0 : ℝ) < unit := by exact_mod_cast unit_pos
        have : (0 : ℝ) ≤ M := by exact_mod_cast hM
        positivity
      have hsq' : ∀ x : ℝ, |sgn opp * x| = |x| := by
        intro x
        unfold sgn
        cases opp <;> simp
      have hqs : ∀ a, |q a| ≤ (j + 2) * ρ + j * (cfg.temp / 2) ∧
          |(Q a : ℝ) - sgn opp * q a| ≤ j * sparseError K n cfg.temp M + (8 * K + 3) * (unit * M) := by
        intro a
        have hkv : (viewOf env m st nd).kids = kidsY st nd := rfl
        simp only [q, Q, softQ, hkv, hov, hfk a]
        have hsg : ((oppSign opp : ℚ) : ℝ) = sgn opp := by unfold oppSign sgn; cases opp <;> simp
        cases hf : find? a nd.kids with
        | none =>
          simp only [Option.bind_none, Option.elim_none]
          push_cast
          rw [hsg, mul_comm (cfg.defaultQ : ℝ), sub_self, abs_zero]
          refine ⟨?_, by positivity⟩
          have h2 : 0 ≤ ((j : ℝ) + 1) * ρ := by positivity
          have h3 : 0 ≤ (j : ℝ) * (cfg.temp / 2) := by positivity
          linarith
        | some c =>
          obtain ⟨nc, g1, g2, g3⟩ := hchance c a (find?_mem hf)
          simp only [Option.bind_some, g1, Option.map_some, Option.elim_some, id]
          push_cast
          rw [hsg, mul_comm (nc.y.val : ℝ), ← mul_sub, hsq']
          exact ⟨g2, g3⟩
      have hu0 : (0 : ℝ) < unit := by exact_mod_cast unit_pos
      have hM' : (0 : ℝ) ≤ M := by exact_mod_cast hM
      have hX' : (0 : ℝ) ≤ 111 * (n * n) * (unit * (M * M / cfg.temp)) := by positivity
      have huM : (0 : ℝ) ≤ unit * M := by positivity
      have hQM : ∀ a, |Q a| ≤ M := by
        intro a
        obtain ⟨h1, h2⟩ := hqs a
        have h3 := abs_sub_abs_le_abs_sub (Q a : ℝ) (sgn opp * q a)
        rw [hsq'] at h3
        have h4 := sparse_range F (i := j + 2) (j := j) (l := j + 1) (by linarith) (by linarith) (by linarith)
        have h5 : (8 * (K : ℝ) + 3) * (unit * M) ≤ sparseError K n cfg.temp M := by
          unfold sparseError
          linarith
        have h6 : |(Q a : ℝ)| ≤ M := by linarith
        have h7 : ((|Q a| : ℚ) : ℝ) ≤ M := by push_cast; exact h6
        exact_mod_cast h7
      have e1 := sparse_err hsq F.temp.1 F.temp.2 F.one F.above F.below F.small opp (F.nodup nd.state) hane (F.acts nd.state) MH hz (fun a _ => hQM a)
      have e2 := sparseMax_near ht (F.nodup nd.state) hane (Q := fun a => (Q a : ℝ)) (Q' := fun a => sgn opp * q a) (fun a _ => (hqs a).2)
      have e3 := sparseMax_abs ht (F.nodup nd.state) hane (Q := fun a => sgn opp * q a) (M := (j + 2) * ρ + j * (cfg.temp / 2)) (fun a _ => by rw [hsq']; exact (hqs a).1)
      rw [← hval] at e1
      rw [hx]
      simp only [softOfF]
      push_cast
      constructor
      · rw [hsq']
        refine le_trans e3 ?_
        linarith
      · have e4 : |sgn opp * sparseMax (cfg.temp : ℝ) (fun a => (Q a : ℝ)) (env.actions nd.state) -
            sgn opp * sparseMax cfg.temp (fun a => sgn opp * q a) (env.actions nd.state)| ≤ j * sparseError K n cfg.temp M + (8 * K + 3) * (unit * M) := by
          rw [← mul_sub, hsq']
          exact e2
        have e5 := abs_sub_le (t.soft.val : ℝ) (sgn opp * sparseMax (cfg.temp : ℝ) (fun a => (Q a : ℝ)) (env.actions nd.state))
          (sgn opp * sparseMax cfg.temp (fun a => sgn opp * q a) (env.actions nd.state))
        refine le_trans e5 ?_
        have e6 : sparseError K n cfg.temp M = (8 * K + 3) * (unit * M) + (5 * (unit * M) + 111 * (n * n) * (unit * (M * M / cfg.temp))) := by
          unfold sparseError
          ring
        linarith

end

end Verif.Fp
