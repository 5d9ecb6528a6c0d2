import Verif.Model.Context

namespace Verif.Context

theorem digit_inj {a b : Nat} (ha : a < 10) (hb : b < 10) (h : Char.ofNat (48 + a) = Char.ofNat (48 + b)) : a = b := by
  have h' := congrArg Char.toNat h
  have e : ∀ n : Nat, n < 10 → (Char.ofNat (48 + n)).toNat = 48 + n := by decide
  rw [e a ha, e b hb] at h'
  omega

theorem digits_ne_nil (n : Nat) : digits n ≠ [] := by
  unfold digits
  split <;> simp

theorem digits_inj (n : Nat) : ∀ m : Nat, digits n = digits m → n = m := by
  induction n using Nat.strongRecOn with
  | ind n ih =>
    intro m h
    unfold digits at h
    split at h <;> split at h
    · next h1 h2 =>
      simp only [List.cons.injEq, and_true] at h
      exact digit_inj h1 h2 h
    · next h1 h2 =>
      exfalso
      have hl := congrArg List.length h
      have := List.length_pos_iff.2 (digits_ne_nil (m / 10))
      simp only [List.length_append, List.length_cons, List.length_nil] at hl
      omega
    · next h1 h2 =>
      exfalso
      have hl := congrArg List.length h
      have := List.length_pos_iff.2 (digits_ne_nil (n / 10))
      simp only [List.length_append, List.length_cons, List.length_nil] at hl
      omega
    · next h1 h2 =>
      have h3 := List.append_inj' h rfl
      have h4 := ih (n / 10) (by omega) _ h3.1
      have h5 : n % 10 = m % 10 := digit_inj (by omega) (by omega) (by simpa using h3.2)
      omega

theorem digits_digit (n : Nat) : ∀ c ∈ digits n, ∃ d, d < 10 ∧ c = Char.ofNat (48 + d) := by
  induction n using Nat.strongRecOn with
  | ind n ih =>
    intro c hc
    unfold digits at hc
    split at hc
    · next h1 => simp at hc; exact ⟨n, h1, hc⟩
    · rw [List.mem_append] at hc
      rcases hc with hc | hc
      · exact ih (n / 10) (by omega) c hc
      · simp at hc; exact ⟨n % 10, by omega, hc⟩

theorem digit_not (d : Nat) (h : d < 10) : Char.ofNat (48 + d) ≠ '-' ∧ Char.ofNat (48 + d) ≠ 'd' := by
  revert d; decide

theorem digits_ne_cons (n : Nat) (c : Char) (l : List Char) (hc : c = '-' ∨ c = 'd') : digits n ≠ c :: l := by
  intro h
  obtain ⟨d, h1, h2⟩ := digits_digit n c (by rw [h]; simp)
  have := digit_not d h1
  rcases hc with hc | hc
  · exact this.1 (h2.symm.trans hc)
  · exact this.2 (h2.symm.trans hc)

theorem decimal_inj {i j : Int} (h : decimal i = decimal j) : i = j := by
  unfold decimal at h
  split at h <;> split at h
  · have := digits_inj _ _ (List.cons.inj h).2; omega
  · exact absurd h.symm (digits_ne_cons _ _ _ (.inl rfl))
  · exact absurd h (digits_ne_cons _ _ _ (.inl rfl))
  · have := digits_inj _ _ h; omega

theorem decimal_ne_d (i : Int) (l : List Char) : decimal i ≠ 'd' :: l := by
  unfold decimal
  split
  · intro h; simp at h
  · exact digits_ne_cons _ _ _ (.inr rfl)

end Verif.Context
