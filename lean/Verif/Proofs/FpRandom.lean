import Verif.Spec.FpRandom
import Verif.Proofs.FpMents

/-! # The shares of the actions among the draws (C98) -/

set_option linter.unusedSectionVars false
set_option linter.unusedSimpArgs false

namespace Verif.Fp

open Verif.Sampling (Draw)

variable {K : Type}

/-! ## Shares -/

theorem share_nonneg (us : List ℚ) (P : ℚ → Prop) : 0 ≤ share us P := by unfold share; positivity

theorem share_mono {us : List ℚ} {P Q : ℚ → Prop} (h : ∀ u ∈ us, P u → Q u) : share us P ≤ share us Q := by
  classical
  unfold share
  refine div_le_div_of_nonneg_right ?_ (by positivity)
  have := List.countP_mono_left (l := us) (p := fun u => @decide (P u) (Classical.propDecidable _)) (q := fun u => @decide (Q u) (Classical.propDecidable _)) (by
    intro u hu hp
    exact @decide_eq_true _ (Classical.propDecidable _) (h u hu (@of_decide_eq_true _ (Classical.propDecidable _) hp)))
  exact_mod_cast this

theorem share_le_one (us : List ℚ) (P : ℚ → Prop) : share us P ≤ 1 := by
  unfold share
  refine div_le_one_of_le₀ ?_ (by positivity)
  exact_mod_cast List.countP_le_length

theorem share_ne_zero {us : List ℚ} {P : ℚ → Prop} (h : share us P ≠ 0) : ∃ u ∈ us, P u := by
  by_contra hx
  push Not at hx
  apply h
  unfold share
  have : us.countP (fun u => @decide (P u) (Classical.propDecidable _)) = 0 := by
    rw [List.countP_eq_zero]
    intro u hu hd
    exact hx u hu (@of_decide_eq_true _ (Classical.propDecidable _) hd)
  rw [this]
  simp

theorem share_or {us : List ℚ} {P Q : ℚ → Prop} (h : ∀ u ∈ us, P u → ¬ Q u) : share us (fun u => P u ∨ Q u) = share us P + share us Q := by
  unfold share
  rw [← add_div]
  congr 1
  induction us with
  | nil => simp
  | cons u us ih =>
    have := ih fun v hv => h v (by simp [hv])
    have hu := h u (by simp)
    simp only [List.countP_cons]
    push_cast
    rw [this]
    by_cases hp : P u
    · have hq := hu hp
      simp only [hp, hq, or_false, decide_true, decide_false, if_true, if_false, Bool.false_eq_true]
      push_cast
      ring
    · by_cases hq : Q u
      · simp only [hp, hq, or_true, decide_true, decide_false, if_true, if_false, Bool.false_eq_true]
        push_cast
        ring
      · simp only [hp, hq, or_false, decide_true, decide_false, if_true, if_false, Bool.false_eq_true]
        push_cast
        ring

theorem share_false (us : List ℚ) : share us (fun _ => False) = 0 := by
  by_contra h
  obtain ⟨u, _, hu⟩ := share_ne_zero h
  exact hu

/-- The shares of different outcomes add up. -/
theorem share_sum {us : List ℚ} {β : Type} (f : ℚ → β) {l : List K} (g : K → β) (hg : Function.Injective g) (hl : l.Nodup) :
    (l.map fun a => share us fun u => f u = g a).sum = share us fun u => ∃ a ∈ l, f u = g a := by
  induction l with
  | nil => simp [share_false]
  | cons a l ih =>
    rw [List.nodup_cons] at hl
    rw [List.map_cons, List.sum_cons, ih hl.2, ← share_or]
    · congr 1
      funext u
      simp
    · rintro u _ h1 ⟨b, hb, h2⟩
      rw [h1] at h2
      exact hl.1 (hg h2 ▸ hb)

/-! ## Segments -/

theorem segment_unique {l pre post pre' post' : List (K × ℚ)} {k k' : K} {w w' u m : ℚ} (h0 : ∀ p ∈ l, 0 ≤ p.2) (e : l = pre ++ (k, w) :: post)
    (e' : l = pre' ++ (k', w') :: post') (h1 : mass pre + m ≤ u) (h2 : u < mass pre + w - m) (h3 : mass pre' - m ≤ u) (h4 : u < mass pre' + w' + m) : k = k' := by
  have hnn : ∀ l' : List (K × ℚ), (∀ p ∈ l', 0 ≤ p.2) → 0 ≤ mass l' := by
    intro l' h
    unfold mass
    refine List.sum_nonneg ?_
    intro x hx
    obtain ⟨p, hp, rfl⟩ := List.mem_map.1 hx
    exact h p hp
  have happ : ∀ a b : List (K × ℚ), mass (a ++ b) = mass a + mass b := by
    intro a b
    simp [mass]
  rw [e] at e'
  rcases List.append_eq_append_iff.1 e' with ⟨as, h5, h6⟩ | ⟨bs, h5, h6⟩
  · cases as with
    | nil => simp at h6; exact h6.1.1
    | cons q as =>
      exfalso
      simp only [List.cons_append, List.cons.injEq] at h6
      rw [h5, happ, ← h6.1, mass_cons] at h3
      have : 0 ≤ mass as := hnn as fun p hp => h0 p (by rw [e, h6.2]; simp [hp])
      linarith
  · cases bs with
    | nil => simp at h6; exact h6.1.1.symm
    | cons q bs =>
      exfalso
      simp only [List.cons_append, List.cons.injEq] at h6
      rw [h5, happ, ← h6.1, mass_cons] at h1
      have : 0 ≤ mass bs := hnn bs fun p hp => h0 p (by rw [e, h5]; simp [hp])
      linarith

/-! ## One selection -/

section
variable {us : List ℚ} {η : ℝ} {W s lam : ℚ} {ws : List (K × ℚ)} {iter : List (K × ℚ) → List (K × ℚ)}

theorem EvenDraws.nonneg (E : EvenDraws us η) : 0 ≤ η := by
  have := E.even 0 0 (le_refl _) (le_refl _) zero_le_one
  exact le_trans (abs_nonneg _) this

/-- The exploration is more than the errors. -/
theorem explore_big (E : EvenDraws us η) (hbig : (ws.length * (48 * ws.length + 72) * unit + 4 * ws.length * η : ℝ) ≤ lam) :
    ws.length * (48 * ws.length + 72) * unit ≤ lam := by
  have h := E.nonneg
  have h1 : (0 : ℝ) ≤ 4 * ws.length * η := by positivity
  have h2 : (ws.length * (48 * ws.length + 72) * unit : ℝ) ≤ lam := by linarith
  exact_mod_cast h2

theorem explore_big6 (h : ws.length * (48 * ws.length + 72) * unit ≤ lam) : ws.length * (6 * ws.length + 12) * unit ≤ lam := by
  have hu := unit_pos
  refine le_trans ?_ h
  refine mul_le_mul_of_nonneg_right ?_ hu.le
  refine mul_le_mul_of_nonneg_left ?_ (by positivity)
  have : (0 : ℚ) ≤ ws.length := by positivity
  linarith

/-- Every weight of the mixture is at least half the weight of exploration. -/
theorem mixtureW_half (h : PosWeights W s ws) (hn : ws.length ≤ 800) (hl : IsDouble lam) (hl1 : lam ≤ 1)
    (hbig : ws.length * (48 * ws.length + 72) * unit ≤ lam) : ∀ p ∈ mixtureW lam s ws, lam / (2 * ws.length) ≤ p.2 := by
  intro p hp
  have hu := unit_pos
  have hlen : (1 : ℚ) ≤ ws.length := by exact_mod_cast h.length
  have hlen2 : (ws.length : ℚ) ≤ 800 := by exact_mod_cast hn
  have hl0 : 0 ≤ lam := le_trans (by positivity) hbig
  obtain ⟨q, hq, rfl⟩ := List.mem_map.1 hp
  have e := (abs_le.1 (mixtureW_err h (by omega) hl hl0 hl1 q hq)).1
  have hex : lam / ws.length ≤ exactMix lam (mass ws) ws.length q.2 := by
    unfold exactMix
    have : 0 ≤ (1 - lam) * (q.2 / mass ws) := mul_nonneg (by linarith) (div_nonneg (h.nonneg q hq) h.pos.le)
    linarith
  have hx : 120 * unit ≤ lam / ws.length := by
    rw [le_div_iff₀ (by linarith)]
    refine le_trans ?_ hbig
    have : 120 * unit * (ws.length : ℚ) = ws.length * 120 * unit := by ring
    rw [this]
    refine mul_le_mul_of_nonneg_right ?_ hu.le
    refine mul_le_mul_of_nonneg_left ?_ (by linarith)
    linarith
  have hsm : (3 * (ws.length : ℚ) + 8) * unit ≤ 1 / 4 := by rw [unit_eq]; linarith
  have ht := h.small
  have ht2 : unit * unit ≤ unit := by
    have : unit ≤ 1 := by rw [unit_eq]; norm_num
    calc unit * unit ≤ unit * 1 := mul_le_mul_of_nonneg_left this hu.le
      _ = unit := mul_one _
  dsimp only
  generalize fadd (fmul q.2 (fdiv (fsub 1 lam) s)) (fmul lam (fdiv 1 (fl (ws.length : ℚ)))) = y at *
  generalize exactMix lam (mass ws) ws.length q.2 = z at *
  have hz : 0 ≤ z := le_trans (by positivity) hex
  have h1 := mul_le_mul_of_nonneg_right hsm hz
  have h2 : lam / (2 * ws.length) = lam / ws.length / 2 := by field_simp
  rw [h2]
  linarith

/-- The share of an action. -/
theorem share_key (E : EvenDraws us η) (h : PosWeights W s ws) (hn : ws.length ≤ 800) (hl : IsDouble lam) (hl1 : lam ≤ 1)
    (hbig : (ws.length * (48 * ws.length + 72) * unit + 4 * ws.length * η : ℝ) ≤ lam) (hiter : ∀ l, (iter l).Perm l) {k : K} (hk : k ∈ ws.map Prod.fst) :
    (lam : ℝ) / (4 * ws.length) ≤ share us fun u => sampleFrom (iter ((mixtureW lam s ws).filter fun p => ¬ p.2 < EPS16)) true u = .key k := by
  have hu := unit_pos
  have hb := explore_big E hbig
  have hb6 := explore_big6 hb
  have hlen : (1 : ℚ) ≤ ws.length := by exact_mod_cast h.length
  have hl0 : 0 ≤ lam := le_trans (by positivity) hb
  have hp := hiter (mixtureW lam s ws)
  have hmass := mixtureW_mass h (by omega) hl hl0 hl1
  rw [← mass_perm hp] at hmass
  have hhalf := mixtureW_half h hn hl hl1 hb
  -- the segment of the action
  obtain ⟨q, hq, rfl⟩ := List.mem_map.1 hk
  obtain ⟨w, hw⟩ : ∃ w, (q.1, w) ∈ iter (mixtureW lam s ws) := ⟨_, hp.mem_iff.2 (List.mem_map_of_mem hq)⟩
  have hwhalf : lam / (2 * ws.length) ≤ w := hhalf _ (hp.mem_iff.1 hw)
  obtain ⟨pre, post, e⟩ := List.append_of_mem hw
  have hnn : ∀ p ∈ iter (mixtureW lam s ws), 0 ≤ p.2 := fun p hp' => le_trans (by positivity) (hhalf p (hp.mem_iff.1 hp'))
  have mnn : ∀ l' : List (K × ℚ), (∀ p ∈ l', 0 ≤ p.2) → 0 ≤ mass l' := by
    intro l' h
    unfold mass
    refine List.sum_nonneg ?_
    intro x hx
    obtain ⟨p, hp, rfl⟩ := List.mem_map.1 hx
    exact h p hp
  have hpre : 0 ≤ mass pre := mnn pre fun p hp' => hnn p (by rw [e]; simp [hp'])
  have hpost : 0 ≤ mass post := mnn post fun p hp' => hnn p (by rw [e]; simp [hp'])
  have htot : mass pre + w ≤ 1 + (3 * ws.length + 9) * unit := by
    have h1 := (abs_le.1 hmass).2
    rw [e] at h1
    have h2 : mass (pre ++ (q.1, w) :: post) = mass pre + (w + mass post) := by simp [mass]
    rw [h2] at h1
    linarith
  set lo := mass pre + 2 * ws.length * unit with hlo
  set hi := min (mass pre + w - 2 * ws.length * unit) (1 - (5 * ws.length + 9) * unit) with hhi
  have hlen0 : 0 ≤ (ws.length : ℚ) * unit := by positivity
  have hdiff : w - (12 * ws.length + 18) * unit ≤ hi - lo := by
    rw [hhi, hlo]
    rcases min_cases (mass pre + w - 2 * ws.length * unit) (1 - (5 * ws.length + 9) * unit) with ⟨h1, _⟩ | ⟨h1, _⟩ <;> rw [h1] <;> linarith
  -- the margins are less than half of it
  have hmarg : ((12 * ws.length + 18) * unit : ℝ) + η ≤ lam / (4 * ws.length) := by
    have hlenR : (1 : ℝ) ≤ ws.length := by exact_mod_cast h.length
    rw [le_div_iff₀ (by linarith)]
    linarith
  have hw2 : (lam : ℝ) / (2 * ws.length) ≤ w := by exact_mod_cast hwhalf
  have e2 : (lam : ℝ) / (2 * ws.length) = lam / (4 * ws.length) + lam / (4 * ws.length) := by
    have hlenR : (1 : ℝ) ≤ ws.length := by exact_mod_cast h.length
    field_simp
    ring
  have hdiffR : (w : ℝ) - (12 * ws.length + 18) * unit ≤ hi - lo := by exact_mod_cast hdiff
  have hη := E.nonneg
  have hlohi : lo ≤ hi := by
    have h0 : (0 : ℝ) ≤ lam / (4 * ws.length) := by
      have : (0 : ℝ) ≤ lam := by exact_mod_cast hl0
      positivity
    have : (lo : ℝ) ≤ hi := by linarith
    exact_mod_cast this
  have heven := (abs_le.1 (E.even lo hi (by rw [hlo]; linarith) hlohi (by
    rw [hhi]
    refine le_trans (min_le_right _ _) ?_
    linarith))).1
  have hsub : share us (fun u => lo ≤ u ∧ u < hi) ≤ share us fun u => sampleFrom (iter ((mixtureW lam s ws).filter fun p => ¬ p.2 < EPS16)) true u = .key q.1 := by
    refine share_mono ?_
    rintro u hu' ⟨h1, h2⟩
    obtain ⟨g1, g2, g3⟩ := sampleMixture_spec h hn hl hl1 hb6 hiter (E.range u hu').2.1
    have h3 := g2 (lt_of_lt_of_le h2 (min_le_right _ _))
    cases hd : sampleFrom (iter ((mixtureW lam s ws).filter fun p => ¬ p.2 < EPS16)) true u with
    | tooMuch => exact absurd hd g1
    | tooLittle => exact absurd hd h3
    | key k' =>
      obtain ⟨pre', w', post', e', g4, g5⟩ := g3 k' hd
      rw [segment_unique hnn e e' (m := 2 * ws.length * unit) (by rw [hlo] at h1; exact h1) (lt_of_lt_of_le h2 (min_le_left _ _)) g4 g5]
  linarith

/-- The share of the draws that select something. -/
theorem share_some (E : EvenDraws us η) (h : PosWeights W s ws) (hn : ws.length ≤ 800) (hl : IsDouble lam) (hl1 : lam ≤ 1)
    (hbig : (ws.length * (48 * ws.length + 72) * unit + 4 * ws.length * η : ℝ) ≤ lam) (hiter : ∀ l, (iter l).Perm l) :
    1 - failRate ws.length η ≤
      share us fun u => ∃ k ∈ ws.map Prod.fst, sampleFrom (iter ((mixtureW lam s ws).filter fun p => ¬ p.2 < EPS16)) true u = .key k := by
  have hu := unit_pos
  have hb6 := explore_big6 (explore_big E hbig)
  have hlen0 : 0 ≤ (ws.length : ℚ) * unit := by positivity
  have hlen2 : (ws.length : ℚ) ≤ 800 := by exact_mod_cast hn
  have heven := (abs_le.1 (E.even 0 (1 - (5 * ws.length + 9) * unit) (le_refl _) (by rw [unit_eq]; linarith) (by linarith))).1
  have hsub : share us (fun u => 0 ≤ u ∧ u < 1 - (5 * ws.length + 9) * unit) ≤
      share us fun u => ∃ k ∈ ws.map Prod.fst, sampleFrom (iter ((mixtureW lam s ws).filter fun p => ¬ p.2 < EPS16)) true u = .key k := by
    refine share_mono ?_
    rintro u hu' ⟨h1, h2⟩
    obtain ⟨g1, g2, g3⟩ := sampleMixture_spec h hn hl hl1 hb6 hiter (E.range u hu').2.1
    have h3 := g2 h2
    cases hd : sampleFrom (iter ((mixtureW lam s ws).filter fun p => ¬ p.2 < EPS16)) true u with
    | tooMuch => exact absurd hd g1
    | tooLittle => exact absurd hd h3
    | key k' =>
      obtain ⟨pre', w', post', e', _⟩ := g3 k' hd
      refine ⟨k', ?_, rfl⟩
      have h4 : (k', w') ∈ mixtureW lam s ws := (hiter _).mem_iff.1 (by rw [e']; simp)
      obtain ⟨q, hq, h5⟩ := List.mem_map.1 h4
      obtain ⟨rfl, _⟩ := Prod.mk.inj h5
      exact List.mem_map_of_mem hq
  unfold failRate
  push_cast at heven
  linarith

end

/-- The same for MENTS. -/
theorem ments_share {us : List ℚ} {η : ℝ} (E : EvenDraws us η) {ex : ℚ → ℚ} (hex : GoodExp ex) {temp low lam : ℚ} {qs : List (K × ℚ)} (h0 : qs ≠ [])
    (hlow : ∀ p ∈ qs, low ≤ fdiv p.2 temp) (hn : qs.length ≤ 800) (hl : IsDouble lam) (hl1 : lam ≤ 1)
    (hbig : (qs.length * (48 * qs.length + 72) * unit + 4 * qs.length * η : ℝ) ≤ lam)
    {iter : List (K × ℚ) → List (K × ℚ)} (hiter : ∀ l, (iter l).Perm l) :
    (∀ k ∈ qs.map Prod.fst, (lam : ℝ) / (4 * qs.length) ≤ share us fun u => selectMents ex temp low lam iter qs u = .key k) ∧
    1 - failRate qs.length η ≤ share us fun u => ∃ k ∈ qs.map Prod.fst, selectMents ex temp low lam iter qs u = .key k := by
  have hlen : (actionWeights ex temp low qs).length = qs.length := by simp [actionWeights]
  have hkeys : (actionWeights ex temp low qs).map Prod.fst = qs.map Prod.fst := by simp [actionWeights]
  have hW := (actionWeights_good hex h0 hlow).toPos (by rw [hlen]; exact le_trans hn (by norm_num))
  refine ⟨fun k hk => ?_, ?_⟩
  · have := share_key E hW (by rw [hlen]; exact hn) hl hl1 (by rw [hlen]; exact hbig) hiter (k := k) (by rw [hkeys]; exact hk)
    rw [hlen] at this
    exact this
  · have := share_some E hW (by rw [hlen]; exact hn) hl hl1 (by rw [hlen]; exact hbig) hiter
    rw [hlen, hkeys] at this
    exact this

end Verif.Fp
