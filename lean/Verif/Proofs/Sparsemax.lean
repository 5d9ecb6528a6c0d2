import Verif.Proofs.Mixture

/-! # The ordered maps of TENTS and the sparsemax operator -/

set_option linter.unusedSectionVars false
set_option linter.unusedSimpArgs false

namespace Verif.Tents

open Verif.Search Verif.Sampling Verif.Spec Verif.Backups Verif.Ments

variable {S A X Y : Type} [DecidableEq S] [DecidableEq A]

/-! ## Maps -/

section
variable {V W : Type} [LinearOrder V]

/-- The two maps of a node hold exactly one value for every action of `acts`, the value `z a`, and the multimap is in order. -/
structure MapsHold (acts : List A) (z : A → V) (byVal : List (V × A)) (byAct : List (A × V)) : Prop where
  act : byAct.Perm (acts.map fun a => (a, z a))
  val : byVal.Perm (acts.map fun a => (z a, a))
  sorted : byVal.Pairwise fun p q => p.1 ≤ q.1

theorem insertVal_perm (q : V) (a : A) (l : List (V × A)) : (insertVal q a l).Perm ((q, a) :: l) := by
  induction l with
  | nil => exact List.Perm.refl _
  | cons p l ih =>
    obtain ⟨q', a'⟩ := p
    unfold insertVal
    split
    · exact (ih.cons _).trans (List.Perm.swap _ _ _)
    · exact List.Perm.refl _

theorem insertVal_sorted (q : V) (a : A) {l : List (V × A)} (h : l.Pairwise fun p q => p.1 ≤ q.1) :
    (insertVal q a l).Pairwise fun p q => p.1 ≤ q.1 := by
  induction l with
  | nil => simp [insertVal]
  | cons p l ih =>
    obtain ⟨q', a'⟩ := p
    rw [List.pairwise_cons] at h
    unfold insertVal
    split
    · next hle =>
      rw [List.pairwise_cons]
      refine ⟨?_, ih h.2⟩
      intro r hr
      rcases List.mem_cons.1 ((insertVal_perm q a l).mem_iff.1 hr) with rfl | hr
      · exact hle
      · exact h.1 r hr
    · next hgt =>
      rw [List.pairwise_cons, List.pairwise_cons]
      refine ⟨?_, h⟩
      intro r hr
      rcases List.mem_cons.1 hr with rfl | hr
      · exact (not_le.1 hgt).le
      · exact (not_le.1 hgt).le.trans (h.1 r hr)

theorem filter_ne_self {l : List (A × V)} {a : A} (h : a ∉ l.map Prod.fst) : (l.filter fun p => p.1 ≠ a) = l := by
  rw [List.filter_eq_self]
  intro p hp
  simp only [decide_eq_true_eq]
  rintro rfl
  exact h (List.mem_map_of_mem hp)

theorem MapsHold.snoc {acts : List A} {z : A → V} {bv : List (V × A)} {ba : List (A × V)} (H : MapsHold acts z bv ba) {a : A} (ha : a ∉ acts) :
    MapsHold (acts ++ [a]) z (insertVal (z a) a bv) (assign a (z a) ba) := by
  have hk : a ∉ ba.map Prod.fst := by
    rw [(H.act.map Prod.fst).mem_iff]
    simpa [List.map_map, Function.comp_def] using ha
  refine ⟨?_, ?_, insertVal_sorted _ _ H.sorted⟩
  · unfold assign
    rw [filter_ne_self hk, List.map_append]
    exact H.act.append_right _
  · rw [List.map_append]
    refine (insertVal_perm _ _ _).trans ?_
    refine (H.val.cons _).trans ?_
    exact (List.perm_append_comm (l₁ := [(z a, a)]))

theorem fillMaps_hold (z : A → V) (l : List A) : ∀ (acts : List A) (maps : List (V × A) × List (A × V)), (acts ++ l).Nodup →
    MapsHold acts z maps.1 maps.2 →
    MapsHold (acts ++ l) z (fillMaps (l.map fun a => (a, z a)) maps).1 (fillMaps (l.map fun a => (a, z a)) maps).2 := by
  induction l with
  | nil => intro acts maps _ H; simpa [fillMaps] using H
  | cons a l ih =>
    intro acts maps hnd H
    have ha : a ∉ acts := by
      intro hm
      rw [List.nodup_append] at hnd
      exact hnd.2.2 a hm a (by simp) rfl
    have := ih (acts ++ [a]) (insertVal (z a) a maps.1, assign a (z a) maps.2) (by simpa using hnd) (H.snoc ha)
    simpa [fillMaps] using this

theorem eraseFrom_spec {old : V} {a : A} {l : List (V × A)} (hs : l.Pairwise fun p q => p.1 ≤ q.1) (hge : ∀ p ∈ l, old ≤ p.1)
    (hm : (old, a) ∈ l) : ∃ l', eraseFrom old a l = .ok l' ∧ l.Perm ((old, a) :: l') ∧ l'.Sublist l := by
  induction l with
  | nil => simp at hm
  | cons p l ih =>
    obtain ⟨q', a'⟩ := p
    rw [List.pairwise_cons] at hs
    have hq : q' = old := by
      refine le_antisymm ?_ (hge (q', a') (by simp))
      rcases List.mem_cons.1 hm with h | h
      · simp only [Prod.mk.injEq] at h
        exact h.1.symm.le
      · exact hs.1 _ h
    subst hq
    unfold eraseFrom
    rw [if_neg (by simp)]
    by_cases ha : a' = a
    · subst ha
      rw [if_neg (by simp)]
      exact ⟨l, rfl, List.Perm.refl _, List.sublist_cons_self _ _⟩
    · rw [if_pos ha]
      have : (q', a) ∈ l := by
        rcases List.mem_cons.1 hm with h | h
        · simp only [Prod.mk.injEq] at h
          exact absurd h.2.symm ha
        · exact h
      obtain ⟨l', h1, h2, h3⟩ := ih hs.2 (fun p hp => hge p (by simp [hp])) this
      rw [h1]
      exact ⟨_, rfl, (h2.cons _).trans (List.Perm.swap _ _ _), h3.cons_cons _⟩

theorem eraseVal_spec {old : V} {a : A} {l : List (V × A)} (hs : l.Pairwise fun p q => p.1 ≤ q.1)
    (hm : (old, a) ∈ l) : ∃ l', eraseVal old a l = .ok l' ∧ l.Perm ((old, a) :: l') ∧ l'.Sublist l := by
  induction l with
  | nil => simp at hm
  | cons p l ih =>
    obtain ⟨q', a'⟩ := p
    unfold eraseVal
    split
    · next h =>
      subst h
      refine eraseFrom_spec hs ?_ hm
      intro p hp
      rw [List.pairwise_cons] at hs
      rcases List.mem_cons.1 hp with rfl | hp
      · exact le_rfl
      · exact hs.1 p hp
    · next h =>
      have : (old, a) ∈ l := by
        rcases List.mem_cons.1 hm with h' | h'
        · simp only [Prod.mk.injEq] at h'
          exact absurd h'.1.symm h
        · exact h'
      rw [List.pairwise_cons] at hs
      obtain ⟨l', h1, h2, h3⟩ := ih hs.2 this
      rw [h1]
      exact ⟨_, rfl, (h2.cons _).trans (List.Perm.swap _ _ _), h3.cons_cons _⟩

theorem MapsHold.find {acts : List A} {z : A → V} {bv : List (V × A)} {ba : List (A × V)} (H : MapsHold acts z bv ba) (hnd : acts.Nodup)
    {a : A} (ha : a ∈ acts) : find? a ba = some (z a) := by
  refine find?_of_mem ?_ (H.act.mem_iff.2 (List.mem_map.2 ⟨a, ha, rfl⟩))
  rw [(H.act.map Prod.fst).nodup_iff]
  simpa [List.map_map, Function.comp_def] using hnd

theorem updateMaps_hold [Zero V] {acts : List A} {z : A → V} {t : TXV A V W} (H : MapsHold acts z t.byVal t.byAct) (hnd : acts.Nodup)
    {a : A} (ha : a ∈ acts) (q : V) :
    ∃ t', updateMaps a q t = .ok t' ∧ t'.soft = t.soft ∧ MapsHold acts (Function.update z a q) t'.byVal t'.byAct := by
  unfold updateMaps
  rw [H.find hnd ha]
  dsimp only [Option.getD_some]
  obtain ⟨l', h1, h2, h3⟩ := eraseVal_spec (a := a) (old := z a) H.sorted (H.val.mem_iff.2 (List.mem_map.2 ⟨a, ha, rfl⟩))
  rw [h1]
  refine ⟨_, rfl, rfl, ?_⟩
  dsimp only
  -- split the actions at `a`
  obtain ⟨pre, suf, rfl⟩ := List.append_of_mem ha
  have hpre : a ∉ pre ∧ a ∉ suf := by
    rw [List.nodup_append, List.nodup_cons] at hnd
    exact ⟨fun h => hnd.2.2 a h a (by simp) rfl, hnd.2.1.1⟩
  have hmap : ∀ {B : Type} (g : A → V → B), (pre ++ a :: suf).map (fun b => g b (Function.update z a q b)) =
      pre.map (fun b => g b (z b)) ++ g a q :: suf.map (fun b => g b (z b)) := by
    intro B g
    rw [List.map_append, List.map_cons, Function.update_self]
    congr 1
    · refine List.map_congr_left fun b hb => ?_
      rw [Function.update_of_ne (by rintro rfl; exact hpre.1 hb)]
    · congr 1
      refine List.map_congr_left fun b hb => ?_
      rw [Function.update_of_ne (by rintro rfl; exact hpre.2 hb)]
  refine ⟨?_, ?_, insertVal_sorted _ _ (H.sorted.sublist h3)⟩
  · have e : (t.byAct.filter fun p => p.1 ≠ a).Perm ((pre ++ suf).map fun b => (b, z b)) := by
      refine (H.act.filter _).trans ?_
      rw [List.map_append, List.map_cons, List.filter_append, List.filter_cons]
      simp only [ne_eq, not_true_eq_false, decide_false, Bool.false_eq_true, if_false]
      rw [List.map_append, filter_ne_self, filter_ne_self]
      · simpa [List.map_map, Function.comp_def] using hpre.2
      · simpa [List.map_map, Function.comp_def] using hpre.1
    have hk : a ∉ (t.byAct.filter fun p => p.1 ≠ a).map Prod.fst := by
      rw [(e.map Prod.fst).mem_iff]
      simpa [List.map_map, Function.comp_def] using hpre
    unfold assign
    rw [filter_ne_self hk, hmap fun b x => (b, x)]
    refine (e.append_right _).trans ?_
    rw [List.map_append, List.append_assoc]
    refine List.Perm.append_left _ ?_
    exact List.perm_append_singleton _ _
  · rw [hmap fun b x => (x, b)]
    refine (insertVal_perm _ _ _).trans ?_
    refine (List.Perm.cons _ ?_).trans List.perm_middle.symm
    have h4 := h2.symm.trans H.val
    rw [List.map_append, List.map_cons] at h4
    exact (List.perm_cons _).1 (h4.trans List.perm_middle)

end

/-! ## The loop over the values -/

theorem sparseLoop_nil {L : List (ℝ × A)} : ∀ (i sum : ℝ), 0 ≤ i → L.Pairwise (fun p q => q.1 ≤ p.1) → (∀ p ∈ L, 1 + i * p.1 ≤ sum) →
    sparseLoop L i sum = [] := by
  induction L with
  | nil => intros; rfl
  | cons p L ih =>
    obtain ⟨x, a⟩ := p
    intro i sum hi hs hL
    rw [List.pairwise_cons] at hs
    have h1 := hL (x, a) (by simp)
    dsimp only at h1
    unfold sparseLoop
    dsimp only
    rw [if_neg (by nlinarith)]
    refine ih (i + 1) (sum + x) (by linarith) hs.2 ?_
    intro p hp
    have h2 := hs.1 p hp
    dsimp only at h2
    nlinarith [mul_le_mul_of_nonneg_left h2 (by linarith : (0 : ℝ) ≤ i + 1)]

theorem sparseLoop_spec {L : List (ℝ × A)} : ∀ (i sum : ℝ), 0 ≤ i → L.Pairwise (fun p q => q.1 ≤ p.1) →
    ∃ pre suf, L = pre ++ suf ∧ sparseLoop L i sum = pre.map Prod.snd ∧
      (∀ p ∈ pre, sum + (pre.map Prod.fst).sum < 1 + (i + pre.length) * p.1) ∧
      (∀ p ∈ suf, 1 + (i + pre.length) * p.1 ≤ sum + (pre.map Prod.fst).sum) := by
  induction L with
  | nil => intro i sum _ _; exact ⟨[], [], rfl, rfl, by simp, by simp⟩
  | cons p L ih =>
    obtain ⟨x, a⟩ := p
    intro i sum hi hs
    by_cases hc : sum + x < 1 + (i + 1) * x
    · rw [List.pairwise_cons] at hs
      obtain ⟨pre, suf, h1, h2, h3, h4⟩ := ih (i + 1) (sum + x) (by linarith) hs.2
      have e1 : sum + (((x, a) :: pre).map Prod.fst).sum = sum + x + (pre.map Prod.fst).sum := by simp [add_assoc]
      have e2 : i + ((((x, a) :: pre).length : ℕ) : ℝ) = i + 1 + (pre.length : ℝ) := by push_cast [List.length_cons]; ring
      refine ⟨(x, a) :: pre, suf, by rw [h1]; rfl, ?_, ?_, ?_⟩
      · unfold sparseLoop
        simp [hc, h2]
      · rw [e1, e2]
        intro p hp
        rcases List.mem_cons.1 hp with rfl | hp
        · dsimp only
          cases pre with
          | nil => simpa using hc
          | cons r pre =>
            have g1 := h3 r (by simp)
            have g2 := hs.1 r (by rw [h1]; simp)
            dsimp only at g2
            have : (0 : ℝ) ≤ i + 1 + ((r :: pre).length : ℝ) := by positivity
            nlinarith [mul_le_mul_of_nonneg_left g2 this]
        · exact h3 p hp
      · rw [e1, e2]
        exact h4
    · have hx : 1 + i * x ≤ sum := by rw [not_lt] at hc; linarith
      have hall : ∀ p ∈ (x, a) :: L, 1 + i * p.1 ≤ sum := by
        intro p hp
        rw [List.pairwise_cons] at hs
        rcases List.mem_cons.1 hp with rfl | hp
        · exact hx
        · have := hs.1 p hp
          dsimp only at this
          nlinarith [mul_le_mul_of_nonneg_left this hi]
      exact ⟨[], (x, a) :: L, rfl, by rw [sparseLoop_nil i sum hi hs hall]; rfl, by simp, by simpa using hall⟩

/-- The sparse set of values `z`: a nonempty sublist `K` of the actions, those with a value above the threshold
`(∑_K z - 1) / |K|`. -/
theorem sparseSet_spec {acts : List A} {z : A → ℝ} {bv : List (ℝ × A)} {ba : List (A × ℝ)} (H : MapsHold acts z bv ba) (hne : acts ≠ []) :
    sparseSet bv ≠ [] ∧ ∃ rest, (sparseSet bv ++ rest).Perm acts ∧
      (∀ a ∈ sparseSet bv, (((sparseSet bv).map z).sum - 1) / (sparseSet bv).length < z a) ∧
      (∀ a ∈ rest, z a ≤ (((sparseSet bv).map z).sum - 1) / (sparseSet bv).length) := by
  have hs : bv.reverse.Pairwise fun p q => q.1 ≤ p.1 := by rw [List.pairwise_reverse]; exact H.sorted
  obtain ⟨pre, suf, h1, h2, h3, h4⟩ := sparseLoop_spec (L := bv.reverse) 0 0 le_rfl hs
  have hz : ∀ p ∈ bv.reverse, p.1 = z p.2 := by
    intro p hp
    obtain ⟨a, _, rfl⟩ := List.mem_map.1 (H.val.mem_iff.1 (List.mem_reverse.1 hp))
    rfl
  have hsum : (pre.map Prod.fst).sum = ((pre.map Prod.snd).map z).sum := by
    rw [List.map_map]
    congr 1
    exact List.map_congr_left fun p hp => hz p (by rw [h1]; simp [hp])
  have hset : sparseSet bv = pre.map Prod.snd := h2
  have hpre : pre ≠ [] := by
    rintro rfl
    have : bv ≠ [] := by
      rintro rfl
      exact hne (by simpa using H.val.length_eq.symm)
    have hb : bv.reverse ≠ [] := by simpa using this
    rw [h1] at hb
    obtain ⟨p, hp⟩ := List.exists_mem_of_ne_nil _ hb
    have := h4 p (by simpa using hp)
    simp at this
    linarith
  have hlen : (0 : ℝ) < (pre.length : ℝ) := by exact_mod_cast List.length_pos_of_ne_nil hpre
  refine ⟨by rw [hset]; simpa using hpre, suf.map Prod.snd, ?_, ?_, ?_⟩
  · rw [hset, ← List.map_append, ← h1]
    refine ((List.reverse_perm bv).map Prod.snd).trans ((H.val.map Prod.snd).trans ?_)
    simp [List.map_map, Function.comp_def]
  · rw [hset, List.length_map]
    intro a ha
    obtain ⟨p, hp, rfl⟩ := List.mem_map.1 ha
    have := h3 p hp
    rw [hsum, hz p (by rw [h1]; simp [hp])] at this
    rw [div_lt_iff₀ hlen]
    linarith
  · rw [hset, List.length_map]
    intro a ha
    obtain ⟨p, hp, rfl⟩ := List.mem_map.1 ha
    have := h4 p hp
    rw [hsum, hz p (by rw [h1]; simp [hp])] at this
    rw [le_div_iff₀ hlen]
    linarith

/-! ## The sparsemax distribution -/

/-- Positive part of the distance to the threshold. -/
noncomputable def above (z : A → ℝ) (τ : ℝ) (a : A) : ℝ := if z a - τ < 0 then 0 else z a - τ

theorem above_nonneg (z : A → ℝ) (τ : ℝ) (a : A) : 0 ≤ above z τ a := by
  unfold above
  split <;> linarith

theorem le_above (z : A → ℝ) (τ : ℝ) (a : A) : z a - τ ≤ above z τ a := by
  unfold above
  split <;> linarith

theorem sum_le_sum {l : List A} {f g : A → ℝ} (h : ∀ a ∈ l, f a ≤ g a) : (l.map f).sum ≤ (l.map g).sum := by
  induction l with
  | nil => simp
  | cons a l ih =>
    simp only [List.map_cons, List.sum_cons]
    have h1 := h a (by simp)
    have h2 := ih fun b hb => h b (by simp [hb])
    linarith

theorem sum_congr {l : List A} {f g : A → ℝ} (h : ∀ a ∈ l, f a = g a) : (l.map f).sum = (l.map g).sum := by
  rw [List.map_congr_left h]

theorem sum_sub_threshold (K : List A) (hK : K ≠ []) (z : A → ℝ) : (K.map fun a => z a - ((K.map z).sum - 1) / K.length).sum = 1 := by
  have hlen : (K.length : ℝ) ≠ 0 := by
    have := List.length_pos_of_ne_nil hK
    exact_mod_cast this.ne'
  have := sum_map_add (l := K) z (fun _ => -(((K.map z).sum - 1) / K.length))
  simp only [← sub_eq_add_neg] at this
  rw [this, sum_map_const]
  field_simp
  ring

/-- With any nonempty set of actions in place of the sparse set the weights sum to at least one. -/
theorem above_sum_ge {acts K rest : List A} (hp : (K ++ rest).Perm acts) (hK : K ≠ []) (z : A → ℝ) :
    1 ≤ (acts.map (above z (((K.map z).sum - 1) / K.length))).sum := by
  rw [← (hp.map _).sum_eq, List.map_append, List.sum_append]
  have h1 : (K.map fun a => z a - ((K.map z).sum - 1) / K.length).sum ≤ (K.map (above z (((K.map z).sum - 1) / K.length))).sum :=
    sum_le_sum fun a _ => le_above z _ a
  rw [sum_sub_threshold K hK z] at h1
  have h2 : 0 ≤ (rest.map (above z (((K.map z).sum - 1) / K.length))).sum := by
    refine List.sum_nonneg ?_
    intro x hx
    obtain ⟨a, _, rfl⟩ := List.mem_map.1 hx
    exact above_nonneg _ _ _
  linarith

/-- With the sparse set they sum to one. -/
theorem above_sum_eq {acts K rest : List A} (hp : (K ++ rest).Perm acts) (hK : K ≠ []) (z : A → ℝ)
    (h1 : ∀ a ∈ K, ((K.map z).sum - 1) / K.length < z a) (h2 : ∀ a ∈ rest, z a ≤ ((K.map z).sum - 1) / K.length) :
    (acts.map (above z (((K.map z).sum - 1) / K.length))).sum = 1 := by
  rw [← (hp.map _).sum_eq, List.map_append, List.sum_append]
  have e1 : (K.map (above z (((K.map z).sum - 1) / K.length))).sum = 1 := by
    refine Eq.trans (sum_congr fun a ha => ?_) (sum_sub_threshold K hK z)
    unfold above
    rw [if_neg]
    have := h1 a ha
    linarith
  have e2 : (rest.map (above z (((K.map z).sum - 1) / K.length))).sum = 0 := by
    rw [sum_congr (g := fun _ => 0)]
    · simp
    · intro a ha
      have := h2 a ha
      unfold above
      split <;> linarith
  rw [e1, e2, add_zero]

/-- The values cut off at a threshold so that they sum to one are the point of the simplex closest to the values. -/
theorem above_closest {acts : List A} {z : A → ℝ} {τ : ℝ} (hs : (acts.map (above z τ)).sum = 1) {r : A → ℝ} (hr : IsDistr acts r) :
    (acts.map fun a => (above z τ a - z a) ^ 2).sum ≤ (acts.map fun a => (r a - z a) ^ 2).sum := by
  have key : ∀ a ∈ acts, (above z τ a - z a) ^ 2 + (-2 * τ) * (r a + -1 * above z τ a) ≤ (r a - z a) ^ 2 := by
    intro a ha
    have h0 := hr.nonneg a ha
    unfold above
    split
    · next h => nlinarith [sq_nonneg (r a)]
    · nlinarith [sq_nonneg (r a - (z a - τ))]
  have h1 := sum_le_sum key
  rw [sum_map_add, sum_map_mul, sum_map_add, sum_map_mul, hr.sum] at h1
  have : (acts.map fun a => above z τ a).sum = 1 := hs
  rw [this] at h1
  linarith

end Verif.Tents
