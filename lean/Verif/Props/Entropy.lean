import Verif.Proofs.Backups
import Verif.Spec.Sampling
import Mathlib.Analysis.SpecialFunctions.Log.NegMulLog
import Mathlib.Tactic.Positivity

/-!
# Properties of the entropy backups: C41

Policies are maps from actions to probabilities, as lists.
-/

set_option linter.unusedSectionVars false

namespace Verif.Backups

open Verif.Search Verif.Spec

variable {K : Type} [DecidableEq K]

/-- Shannon entropy of a policy: the sum of `-p log p`. -/
noncomputable def entropy (policy : List (K × ℝ)) : ℝ := (policy.map fun q => -(q.2 * Real.log q.2)).sum

theorem localEntropy_acc (policy : List (K × ℝ)) : ∀ acc, localEntropy policy acc = acc + entropy policy := by
  induction policy with
  | nil => intro acc; simp [localEntropy, entropy]
  | cons q l ih =>
    intro acc
    obtain ⟨a, p⟩ := q
    simp only [localEntropy]
    split
    · next h => rw [ih, h]; simp [entropy]
    · rw [ih]; simp [entropy]; ring

/-- C41.  The local entropy of a decision node after a backup is the entropy of the policy handed to it. -/
theorem c41_local_entropy (opp : Bool) (policy : List (K × ℝ)) (kids : List (K × EntC)) (x : EntD) :
    (entBackupD opp policy kids x).loc = entropy policy := by
  simp [entBackupD, localEntropy_acc]

/-- C41.  The entropy of a policy with probabilities in `[0,1]` is not negative. -/
theorem c41_entropy_nonneg (policy : List (K × ℝ)) (h : ∀ q ∈ policy, 0 ≤ q.2 ∧ q.2 ≤ 1) : 0 ≤ entropy policy := by
  unfold entropy
  refine List.sum_nonneg ?_
  intro x hx
  obtain ⟨q, hq, rfl⟩ := List.mem_map.1 hx
  obtain ⟨h0, h1⟩ := h q hq
  have := Real.log_nonpos h0 h1
  nlinarith

theorem entropy_le_aux (n : ℝ) (hn : 0 < n) (policy : List (K × ℝ)) (h : ∀ q ∈ policy, 0 ≤ q.2) :
    entropy policy ≤ policy.length / n - mass policy + mass policy * Real.log n := by
  induction policy with
  | nil => simp [entropy, mass]
  | cons q l ih =>
    have ih' := ih (fun r hr => h r (by simp [hr]))
    have h0 := h q (by simp)
    have key : -(q.2 * Real.log q.2) ≤ 1 / n - q.2 + q.2 * Real.log n := by
      rcases h0.eq_or_lt with h0 | h0
      · rw [← h0]; simp; positivity
      · have hl := Real.log_le_sub_one_of_pos (x := 1 / (n * q.2)) (by positivity)
        rw [one_div, Real.log_inv, Real.log_mul hn.ne' h0.ne'] at hl
        have h2 : q.2 * (-(Real.log n + Real.log q.2)) ≤ q.2 * ((n * q.2)⁻¹ - 1) := mul_le_mul_of_nonneg_left hl h0.le
        have h3 : q.2 * (n * q.2)⁻¹ = 1 / n := by field_simp
        have h4 : q.2 * ((n * q.2)⁻¹ - 1) = 1 / n - q.2 := by rw [mul_sub, h3, mul_one]
        rw [h4] at h2
        linarith [h2]
    have e1 : entropy (q :: l) = -(q.2 * Real.log q.2) + entropy l := by simp [entropy]
    have e2 : mass (q :: l) = q.2 + mass l := by simp [mass]
    rw [e1, e2]
    have e3 : ((q :: l).length : ℝ) / n = l.length / n + 1 / n := by push_cast [List.length_cons]; ring
    rw [e3]
    nlinarith

/-- C41.  The entropy of a policy over at most `n` actions with total mass `s` is at most `1 - s + s log n`... -/
theorem c41_entropy_upper (policy : List (K × ℝ)) (n : Nat) (hn : 0 < n) (hlen : policy.length ≤ n) (h : ∀ q ∈ policy, 0 ≤ q.2) :
    entropy policy ≤ 1 - mass policy + mass policy * Real.log n := by
  have hn' : (0 : ℝ) < n := by exact_mod_cast hn
  have h1 := entropy_le_aux n hn' policy h
  have h2 : (policy.length : ℝ) / n ≤ 1 := by
    rw [div_le_one hn']
    exact_mod_cast hlen
  linarith

/-- C41.  ... so the entropy of a probability distribution over at most `n` actions lies between 0 and `log n`. -/
theorem c41_entropy_range (policy : List (K × ℝ)) (n : Nat) (hlen : policy.length ≤ n) (h : ∀ q ∈ policy, 0 ≤ q.2)
    (hs : mass policy = 1) : 0 ≤ entropy policy ∧ entropy policy ≤ Real.log n := by
  have hle : ∀ q ∈ policy, q.2 ≤ 1 := by
    intro q hq
    rw [← hs]
    exact List.single_le_sum (by intro x hx; obtain ⟨r, hr, rfl⟩ := List.mem_map.1 hx; exact h r hr) _ (List.mem_map_of_mem hq)
  refine ⟨c41_entropy_nonneg policy fun q hq => ⟨h q hq, hle q hq⟩, ?_⟩
  have hn : 0 < n := by
    rcases policy with _ | ⟨q, l⟩
    · simp [mass] at hs
    · simp at hlen; omega
  have := c41_entropy_upper policy n hn hlen h
  rw [hs] at this
  linarith

/-- The bound is attained by the uniform distribution. -/
example : entropy [(0, (1 / 2 : ℝ)), (1, 1 / 2)] = Real.log (2 : Nat) := by
  simp [entropy, Real.log_inv]
  ring

theorem subtreeLoop_eq (policy : List (K × ℝ)) (kids : List (K × EntC)) :
    ∀ acc, subtreeLoop policy kids acc = acc + (kids.map fun k => (find? k.1 policy).getD 0 * k.2.sub).sum := by
  induction kids with
  | nil => intro acc; simp [subtreeLoop]
  | cons q l ih =>
    intro acc
    obtain ⟨a, c⟩ := q
    simp only [subtreeLoop]
    rw [ih]
    simp; ring

theorem find?_filter (policy : List (K × ℝ)) (hnd : (policy.map Prod.fst).Nodup) (a : K) :
    (find? a policy).getD 0 = weightOf policy a := by
  induction policy with
  | nil => simp [find?, weightOf, mass]
  | cons q l ih =>
    obtain ⟨b, p⟩ := q
    simp only [List.map_cons, List.nodup_cons] at hnd
    by_cases hb : b = a
    · subst hb
      have : ∀ q ∈ l, ¬ q.1 = b := fun q hq h => hnd.1 (List.mem_map.2 ⟨q, hq, h⟩)
      have hf : l.filter (fun q => decide (q.1 = b)) = [] := by simpa [List.filter_eq_nil_iff] using this
      simp [find?, weightOf, mass, List.filter_cons, hf]
    · rw [find?, if_neg hb, ih hnd.2]
      simp [weightOf, List.filter_cons, hb]

/-- C41.  The subtree entropy of a decision node after a backup: plus or minus its policy's entropy, plus the sum over the
children of the policy's probability of the child's action times the child's subtree entropy. -/
theorem c41_subtree_entropy (opp : Bool) (policy : List (K × ℝ)) (hnd : (policy.map Prod.fst).Nodup) (kids : List (K × EntC)) (x : EntD) :
    entBackupD opp policy kids x =
      { n := x.n + 1, loc := entropy policy,
        sub := (if opp then - entropy policy else entropy policy) + (kids.map fun k => weightOf policy k.1 * k.2.sub).sum } := by
  have e : localEntropy policy 0 = entropy policy := by simp [localEntropy_acc]
  simp only [entBackupD, e, subtreeLoop_eq, find?_filter policy hnd]
  cases opp <;> simp [oppCoeff]

/-- C41.  The result does not depend on the order of the policy or of the children. -/
theorem c41_order (opp : Bool) (policy policy' : List (K × ℝ)) (hnd : (policy.map Prod.fst).Nodup) (hp : policy.Perm policy')
    (kids kids' : List (K × EntC)) (hk : kids.Perm kids') (x : EntD) :
    entBackupD opp policy kids x = entBackupD opp policy' kids' x := by
  have hnd' : (policy'.map Prod.fst).Nodup := (hp.map _).nodup_iff.1 hnd
  rw [c41_subtree_entropy opp policy hnd, c41_subtree_entropy opp policy' hnd']
  have e1 : entropy policy = entropy policy' := (hp.map _).sum_eq
  have e2 : ∀ a, weightOf policy a = weightOf policy' a := fun a => ((hp.filter _).map _).sum_eq
  rw [e1, (hk.map _).sum_eq]
  simp only [e2]

/-- C41.  In a single player game subtree entropies stay non-negative: at decision nodes ... -/
theorem c41_single_player_nonneg (policy : List (K × ℝ)) (hnd : (policy.map Prod.fst).Nodup)
    (h : ∀ q ∈ policy, 0 ≤ q.2 ∧ q.2 ≤ 1) (kids : List (K × EntC)) (hk : ∀ k ∈ kids, 0 ≤ k.2.sub) (x : EntD) :
    0 ≤ (entBackupD false policy kids x).sub := by
  rw [c41_subtree_entropy false policy hnd]
  have h1 := c41_entropy_nonneg policy h
  have h2 : 0 ≤ (kids.map fun k => weightOf policy k.1 * k.2.sub).sum := by
    refine List.sum_nonneg ?_
    intro x hx
    obtain ⟨k, hk', rfl⟩ := List.mem_map.1 hx
    refine mul_nonneg ?_ (hk k hk')
    unfold weightOf mass
    refine List.sum_nonneg ?_
    intro y hy
    obtain ⟨q, hq, rfl⟩ := List.mem_map.1 hy
    exact (h q (List.mem_filter.1 hq).1).1
  simpa using add_nonneg h1 h2

/-- C41.  ... and at chance nodes. -/
theorem c41_single_player_nonneg_chance (kids : List EntD) (hk : ∀ k ∈ kids, 0 ≤ k.sub) (y : EntC) :
    0 ≤ (entBackupC kids y).sub := by
  have : (entBackupC kids y).sub = wmean (kids.map fun x => (x.n, x.sub)) := by simp only [entBackupC]; rw [meanLoop_eq]
  rw [this]
  unfold wmean
  refine div_nonneg (List.sum_nonneg ?_) (List.sum_nonneg ?_)
  · intro x hx
    simp only [List.map_map, List.mem_map, Function.comp] at hx
    obtain ⟨k, hk', rfl⟩ := hx
    exact mul_nonneg (Nat.cast_nonneg _) (hk k hk')
  · intro x hx
    simp only [List.map_map, List.mem_map, Function.comp] at hx
    obtain ⟨k, _, rfl⟩ := hx
    exact Nat.cast_nonneg _

/-- A uniform policy over two actions, one of which has a child with subtree entropy 3. -/
example : (entBackupD false [(0, (1 / 2 : ℝ)), (1, 1 / 2)] [(1, ⟨2, 3⟩)] ⟨4, 0, 0⟩).sub = Real.log 2 + 3 / 2 ∧
    (entBackupD true [(0, (1 / 2 : ℝ)), (1, 1 / 2)] [(1, ⟨2, 3⟩)] ⟨4, 0, 0⟩).sub = - Real.log 2 + 3 / 2 := by
  rw [c41_subtree_entropy _ _ (by decide), c41_subtree_entropy _ _ (by decide)]
  constructor <;> simp [entropy, weightOf, mass, Real.log_inv, List.filter_cons] <;> ring

end Verif.Backups
