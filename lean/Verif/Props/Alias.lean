import Verif.Proofs.Alias
import Mathlib.Tactic.NormNum

/-! # Properties C25-C26: categorical distributions with an alias table -/

set_option linter.unusedSectionVars false

namespace Verif.Alias
open Verif.Sampling Verif.Spec

variable {K : Type} [DecidableEq K]

/-- The probability that a sample is `k`: the table index is uniform in `{0, ..., n-1}` (see `c21_near_uniform` for how uniform
`get_rand_int` is) and the draw is uniform in `[0,1)`. -/
noncomputable def Cat.probOf (c : Cat K ℝ) (k : K) : ℝ :=
  ((List.range c.distr.length).map fun i => prob (c.sampleAlias i) (· = some k)).sum / c.distr.length

theorem total_range (F : Nat → Entry K ℝ → ℝ) : ∀ (t : List (Entry K ℝ)) (j : Nat),
    total F j t = ((List.range t.length).map fun i => (t[i]?).elim 0 (F (j + i))).sum
  | [], j => by simp [total]
  | e :: t, j => by
    rw [List.length_cons, List.range_succ_eq_map, total, total_range F t (j + 1)]
    simp only [List.map_cons, List.map_map, List.sum_cons, List.getElem?_cons_zero, Option.elim_some, Nat.add_zero]
    congr 3
    funext i
    simp only [Function.comp_apply, List.getElem?_cons_succ]
    rw [show j + 1 + i = j + (i + 1) by omega]

theorem sampleAlias_eq (c : Cat K ℝ) (raw : Nat) (u : ℝ) (hne : 0 < c.distr.length) :
    c.sampleAlias raw u = (c.table[raw % c.distr.length]?).map (·.pick u) := by
  unfold Cat.sampleAlias
  rw [getRandInt_eq (by omega)]
  have : ((c.distr.length : Int) - 0).toNat = c.distr.length := by omega
  rw [this]
  simp only [Int.zero_add]
  rw [if_neg (by omega), Int.toNat_natCast]

theorem probOf_settled {c : Cat K ℝ} {target : K → ℝ} (h : Settled target c.table)
    (hlen : c.table.length = c.distr.length) (k : K) : c.probOf k = target k / c.distr.length := by
  unfold Cat.probOf
  congr 1
  rw [← h.2 k, total_range, hlen]
  congr 1
  apply List.map_congr_left
  intro i hi
  have hi := List.mem_range.mp hi
  have hlt : i < c.table.length := by omega
  have hs : c.sampleAlias i = fun u => some ((c.table[i]).pick u) := by
    funext u
    rw [sampleAlias_eq c i u (by omega), Nat.mod_eq_of_lt hi, List.getElem?_eq_getElem hlt]
    rfl
  have hm := h.1 _ (List.getElem_mem hlt)
  rw [hs, pick_prob _ k hm.1 hm.2, List.getElem?_eq_getElem hlt]
  rfl

theorem mass_pos_length {d : List (K × ℝ)} (hpos : 0 < mass d) : (d.length : ℝ) ≠ 0 := by
  intro h
  have : d = [] := List.length_eq_zero_iff.mp (by exact_mod_cast h)
  subst this
  simp at hpos

/-! ## C25 -/

/-- A categorical distribution built with the alias method draws every key with probability weight / sum, exactly. -/
theorem c25_alias_exact (d : List (K × ℝ)) (hw : ∀ p ∈ d, 0 ≤ p.2) (hpos : 0 < mass d) (freq : Nat) (k : K) :
    (Cat.mk' d true freq).probOf k = weightOf d k / mass d := by
  obtain ⟨h1, h2⟩ := construct_spec d hw hpos
  have h := probOf_settled (c := Cat.mk' d true freq) (target := _) (by simpa [Cat.mk'] using h1)
    (by simpa [Cat.mk'] using h2) k
  rw [h]
  have hn := mass_pos_length hpos
  simp only [Cat.mk']
  field_simp

/-- Sampling from it never leaves the table. -/
theorem c25_sample_defined (d : List (K × ℝ)) (hw : ∀ p ∈ d, 0 ≤ p.2) (hpos : 0 < mass d) (freq raw : Nat) (u : ℝ) :
    ((Cat.mk' d true freq).sampleAlias raw u).isSome := by
  obtain ⟨_, h2⟩ := construct_spec d hw hpos
  have hn : 0 < d.length := Nat.pos_of_ne_zero fun h => mass_pos_length hpos (by simp [h])
  have hlt : raw % d.length < (construct d).length := by rw [h2]; exact Nat.mod_lt _ hn
  rw [sampleAlias_eq _ _ _ (by simpa [Cat.mk'] using hn)]
  simp only [Cat.mk', if_true, Option.isSome_map, List.getElem?_eq_getElem hlt, Option.isSome_some]

/-- Weights 1, 2, 3 and 0 on four keys. -/
example : (Cat.mk' ([(0, 1), (1, 2), (2, 3), (3, 0)] : List (Nat × ℝ)) true 1).probOf 1 = 1 / 3 ∧
    (Cat.mk' ([(0, 1), (1, 2), (2, 3), (3, 0)] : List (Nat × ℝ)) true 1).probOf 3 = 0 := by
  constructor <;>
  · rw [c25_alias_exact _ (by simp) (by simp; norm_num)]
    simp [weightOf, mass]
    try norm_num

/-! ## C26 -/

/-- An update of the object: `update(key, weight)` with the new iteration order, or `update(new_distr)`. -/
inductive Op (K : Type) where
  | one (k : K) (w : ℝ) (reorder : List (K × ℝ) → List (K × ℝ))
  | all (d : List (K × ℝ))

/-- One call. -/
noncomputable def Op.run (c : Cat K ℝ) : Op K → Option (Cat K ℝ)
  | .one k w r => c.update k w r
  | .all d => c.updateAll d

/-- A history of calls; `none` if one of them has undefined behaviour. -/
noncomputable def runOps (c : Cat K ℝ) : List (Op K) → Option (Cat K ℝ)
  | [] => some c
  | op :: ops => (op.run c).bind fun c' => runOps c' ops

/-- The weights a user expects after the call, in the iteration order of the map. -/
def Op.expected (d : List (K × ℝ)) : Op K → List (K × ℝ)
  | .one k w r => r (insertOrAssign d k w)
  | .all d' => d'

/-- The calls for which the property holds: they do not change the number of keys, only produce non-negative
weights of positive sum, and the new iteration order is a reordering. -/
def Op.Ok (d : List (K × ℝ)) (op : Op K) : Prop :=
  (op.expected d).length = d.length ∧ (∀ p ∈ op.expected d, 0 ≤ p.2) ∧ 0 < mass (op.expected d)

/-- Every call of the history is of that kind. -/
def OpsOk : List (K × ℝ) → List (Op K) → Prop
  | _, [] => True
  | d, op :: ops => op.Ok d ∧ OpsOk (op.expected d) ops

/-- What a user expects after a history of calls with rebuild frequency `freq`: the current weights, the number of single updates
since the last rebuild, and the weights at the last rebuild. -/
def expectedAll (freq : Nat) : List (K × ℝ) × Nat × List (K × ℝ) → List (Op K) → List (K × ℝ) × Nat × List (K × ℝ)
  | s, [] => s
  | (d, n, snap), .one k w r :: ops =>
    let d' := (Op.one k w r).expected d
    if n + 1 = freq then expectedAll freq (d', 0, d') ops else expectedAll freq (d', n + 1, snap) ops
  | _, .all d' :: ops => expectedAll freq (d', 0, d') ops

/-- The table of `c` represents the weights `snap`. -/
structure Current (freq : Nat) (c : Cat K ℝ) (n : Nat) (snap : List (K × ℝ)) : Prop where
  ali : c.useAlias = true
  fq : c.freq = freq
  num : c.numUpdates = n
  len : c.table.length = c.distr.length
  tab : c.table = construct snap
  snapLen : snap.length = c.distr.length
  snapW : ∀ p ∈ snap, 0 ≤ p.2
  snapPos : 0 < mass snap

theorem reconstruct_same_size (d : List (K × ℝ)) (t : List (Entry K ℝ)) (h : t.length = d.length) :
    reconstruct d t = some (construct d) := by
  have : (freshEntries d).length = t.length := by simp [freshEntries, h]
  unfold reconstruct overwrite
  rw [if_neg (by omega), this, List.drop_length, List.append_nil]
  rfl

theorem Current.prob {freq n : Nat} {c : Cat K ℝ} {snap : List (K × ℝ)} (h : Current freq c n snap) (k : K) :
    c.probOf k = weightOf snap k / mass snap := by
  obtain ⟨h1, h2⟩ := construct_spec snap h.snapW h.snapPos
  rw [probOf_settled (c := c) (by rw [h.tab]; exact h1) h.len k, ← h.snapLen]
  have hn := mass_pos_length h.snapPos
  field_simp

theorem Current.defined {freq n : Nat} {c : Cat K ℝ} {snap : List (K × ℝ)} (h : Current freq c n snap) (raw : Nat) (u : ℝ) :
    (c.sampleAlias raw u).isSome := by
  have h3 : 0 < c.distr.length := by
    rw [← h.snapLen]
    exact Nat.pos_of_ne_zero fun h' => mass_pos_length h.snapPos (by simp [h'])
  rw [sampleAlias_eq _ _ _ h3, Option.isSome_map, List.getElem?_eq_getElem (by
    rw [h.len]; exact Nat.mod_lt _ h3)]
  rfl

/-- After any history of calls that never changes the number of keys, samples follow exactly the weights at the last rebuild
(the last `update(new_distr)` or the last `freq`-th single update), and no call and no sample has undefined behaviour.
(Missing: calls that change the number of keys, see below.) -/
theorem c26_rebuild_frequency_partial (d : List (K × ℝ)) (hw : ∀ p ∈ d, 0 ≤ p.2) (hpos : 0 < mass d) (freq : Nat)
    (ops : List (Op K)) (hok : OpsOk d ops) :
    ∃ c, runOps (Cat.mk' d true freq) ops = some c ∧
      (∀ k, c.probOf k = weightOf (expectedAll freq (d, 0, d) ops).2.2 k / mass (expectedAll freq (d, 0, d) ops).2.2) ∧
      ∀ raw u, (c.sampleAlias raw u).isSome := by
  have gen : ∀ (ops : List (Op K)) (c : Cat K ℝ) (n : Nat) (snap : List (K × ℝ)), Current freq c n snap → OpsOk c.distr ops →
      ∃ c' n', runOps c ops = some c' ∧ Current freq c' n' (expectedAll freq (c.distr, n, snap) ops).2.2 := by
    intro ops
    induction ops with
    | nil => intro c n snap h _; exact ⟨c, n, rfl, h⟩
    | cons op ops ih =>
      intro c n snap h hok
      obtain ⟨⟨o1, o2, o3⟩, hok⟩ := hok
      cases op with
      | one k w r =>
        have hr := reconstruct_same_size (r (insertOrAssign c.distr k w)) c.table (by
          simp only [Op.expected] at o1; rw [o1, h.len])
        have hlen := (construct_spec _ o2 o3).2
        by_cases hf : n + 1 = freq
        · obtain ⟨c', n', i1, i2⟩ := ih
            { c with distr := r (insertOrAssign c.distr k w), numUpdates := 0,
                     table := construct (r (insertOrAssign c.distr k w)) } 0 (r (insertOrAssign c.distr k w))
            ⟨h.ali, h.fq, rfl, hlen, rfl, rfl, o2, o3⟩ hok
          refine ⟨c', n', ?_, by simpa [expectedAll, hf, Op.expected] using i2⟩
          simp only [runOps, Op.run, Cat.update, h.ali, h.fq, h.num, hr, hf, and_self, if_true, Option.map_some,
            Option.bind_some]
          rw [← i1, h.ali, h.fq]
        · obtain ⟨c', n', i1, i2⟩ := ih
            { c with distr := r (insertOrAssign c.distr k w), numUpdates := n + 1 } (n + 1) snap
            ⟨h.ali, h.fq, rfl, by simp only [Op.expected] at o1; rw [o1]; exact h.len, h.tab,
              by simp only [Op.expected] at o1; rw [o1]; exact h.snapLen, h.snapW, h.snapPos⟩ hok
          refine ⟨c', n', ?_, by simpa [expectedAll, hf, Op.expected] using i2⟩
          simp only [runOps, Op.run, Cat.update, h.ali, h.fq, h.num, hf, and_false, if_false, Option.bind_some]
          rw [← i1, h.ali, h.fq]
      | all d' =>
        have hr := reconstruct_same_size d' c.table (by simp only [Op.expected] at o1; rw [o1, h.len])
        have hlen := (construct_spec _ o2 o3).2
        obtain ⟨c', n', i1, i2⟩ := ih { c with distr := d', numUpdates := 0, table := construct d' } 0 d'
          ⟨h.ali, h.fq, rfl, hlen, rfl, rfl, o2, o3⟩ hok
        refine ⟨c', n', ?_, by simpa [expectedAll] using i2⟩
        simp only [runOps, Op.run, Cat.updateAll, h.ali, if_true, hr, Option.map_some, Option.bind_some]
        rw [← i1, h.ali]
  obtain ⟨c, n, h1, h2⟩ := gen ops (Cat.mk' d true freq) 0 d
    ⟨rfl, rfl, rfl, by simpa [Cat.mk'] using (construct_spec d hw hpos).2, by simp [Cat.mk'], rfl, hw, hpos⟩ hok
  exact ⟨c, h1, h2.prob, h2.defined⟩

/-- With rebuild frequency one, samples follow exactly the current weights after any history of calls that never changes the number
of keys, and no call and no sample has undefined behaviour.  (Missing: calls that change the number of keys, see below.) -/
theorem c26_updates_take_effect_partial (d : List (K × ℝ)) (hw : ∀ p ∈ d, 0 ≤ p.2) (hpos : 0 < mass d)
    (ops : List (Op K)) (hok : OpsOk d ops) :
    ∃ c, runOps (Cat.mk' d true 1) ops = some c ∧
      (∀ k, c.probOf k = weightOf (ops.foldl Op.expected d) k / mass (ops.foldl Op.expected d)) ∧
      ∀ raw u, (c.sampleAlias raw u).isSome := by
  have key : ∀ (ops : List (Op K)) (d : List (K × ℝ)), (expectedAll 1 (d, 0, d) ops).2.2 = ops.foldl Op.expected d := by
    intro ops
    induction ops with
    | nil => intro d; rfl
    | cons op ops ih =>
      intro d
      cases op with
      | one k w r => simp only [expectedAll, Nat.zero_add, if_true, List.foldl_cons]; exact ih _
      | all d' => simp only [expectedAll, List.foldl_cons]; exact ih _
  have := c26_rebuild_frequency_partial d hw hpos 1 ops hok
  rwa [key] at this

theorem weightOf_perm {l l' : List (K × ℝ)} (h : l.Perm l') (k : K) : weightOf l k = weightOf l' k :=
  List.Perm.sum_eq ((h.filter _).map _)

/-- What a single update does to the weights: the key gets the new weight, the other keys keep theirs. -/
theorem c26_update_sets_weight (c c' : Cat K ℝ) (k : K) (w : ℝ) (reorder : List (K × ℝ) → List (K × ℝ))
    (hr : ∀ l, (reorder l).Perm l) (hnd : (c.distr.map Prod.fst).Nodup) (h : c.update k w reorder = some c') :
    (c'.distr.map Prod.fst).Nodup ∧ weightOf c'.distr k = w ∧ ∀ k', k' ≠ k → weightOf c'.distr k' = weightOf c.distr k' := by
  have hd : c'.distr = reorder (insertOrAssign c.distr k w) := by
    unfold Cat.update at h
    dsimp only at h
    split at h
    · rw [Option.map_eq_some_iff] at h
      obtain ⟨t, _, rfl⟩ := h
      rfl
    · simp at h
      subst h
      rfl
  have hp := hr (insertOrAssign c.distr k w)
  rw [hd]
  rw [(hp.map Prod.fst).nodup_iff, weightOf_perm hp]
  refine ⟨?_, ?_, fun k' hk' => (weightOf_perm hp k').trans ?_⟩
  · unfold insertOrAssign
    split
    · rw [List.map_map]
      rw [show (Prod.fst ∘ fun p : K × ℝ => if p.1 = k then (k, w) else p) = Prod.fst by
        funext p; by_cases hp : p.1 = k <;> simp [hp]]
      exact hnd
    · rename_i hk
      rw [List.map_append, List.nodup_append]
      refine ⟨hnd, by simp, ?_⟩
      rintro a ha b hb rfl
      simp at hb
      subst hb
      exact hk ha
  · unfold insertOrAssign
    split
    · rename_i hk
      clear hd hp h
      revert hnd hk
      generalize c.distr = l
      intro hnd hk
      induction l with
      | nil => simp at hk
      | cons p l ih =>
        simp only [List.map_cons, List.nodup_cons] at hnd
        by_cases hpk : p.1 = k
        · have : ∀ l' : List (K × ℝ), k ∉ l'.map Prod.fst →
              weightOf (l'.map fun p => if p.1 = k then (k, w) else p) k = 0 := by
            intro l' hl'
            induction l' with
            | nil => simp [weightOf, mass]
            | cons q l' ih' =>
              simp only [List.map_cons, List.mem_cons, not_or] at hl'
              have h1 : q.1 ≠ k := fun h => hl'.1 h.symm
              have := ih' hl'.2
              simp only [weightOf, List.map_cons, h1, if_false, List.filter_cons, decide_false] at this ⊢
              simpa using this
          have hz := this l (hpk ▸ hnd.1)
          simp only [weightOf, List.map_cons, hpk, if_true, List.filter_cons, decide_true, mass, List.map_cons,
            List.sum_cons] at hz ⊢
          rw [hz]
          simp
        · have hk' : k ∈ l.map Prod.fst := by
            simp only [List.map_cons, List.mem_cons] at hk
            rcases hk with h | h
            · exact absurd h.symm hpk
            · exact h
          have := ih hnd.2 hk'
          simp only [weightOf, List.map_cons, hpk, if_false, List.filter_cons, decide_false] at this ⊢
          simpa using this
    · rename_i hk
      have hz : c.distr.filter (fun p => p.1 = k) = [] := by
        rw [List.filter_eq_nil_iff]
        intro p hp
        simp only [decide_eq_true_eq]
        exact fun h => hk (List.mem_map.mpr ⟨p, hp, h⟩)
      simp [weightOf, List.filter_append, hz, mass]
  · unfold insertOrAssign
    split
    · clear hd hp h hnd
      generalize c.distr = l
      rename_i hk
      clear hk
      induction l with
      | nil => rfl
      | cons p l ih =>
        by_cases hpk : p.1 = k
        · simp only [weightOf, List.map_cons, hpk, if_true, List.filter_cons] at ih ⊢
          simpa [hk'.symm] using ih
        · simp only [weightOf, List.map_cons, hpk, if_false, List.filter_cons] at ih ⊢
          by_cases hpk' : p.1 = k'
          · simp only [hpk', decide_true, if_true, mass, List.map_cons, List.sum_cons] at ih ⊢
            rw [ih]
          · simp only [hpk', decide_false] at ih ⊢
            simpa using ih
    · simp [weightOf, List.filter_append, mass, hk'.symm]

/-- A history that meets the hypotheses: change a weight, swap the iteration order, replace the keys. -/
example : OpsOk ([(0, 1), (1, 2)] : List (Nat × ℝ)) [.one 1 5 List.reverse, .all [(7, 1), (8, 0)]] := by
  refine ⟨⟨by simp [Op.expected, insertOrAssign], by simp [Op.expected, insertOrAssign],
    by simp [Op.expected, insertOrAssign]; norm_num⟩, ⟨by simp [Op.expected, insertOrAssign], by simp [Op.expected],
    by simp [Op.expected]⟩, trivial⟩

/-- With frequency two the first single update is not yet visible, the second one is. -/
example : (expectedAll 2 ([(0, 1)], 0, [(0, 1)]) [Op.one 0 2 id]).2.2 = ([(0, 1)] : List (Nat × ℝ)) ∧
    (expectedAll 2 ([(0, 1)], 0, [(0, 1)]) [Op.one 0 2 id, Op.one 0 3 id]).2.2 = ([(0, 3)] : List (Nat × ℝ)) := by
  constructor <;> simp [expectedAll, Op.expected, insertOrAssign]

/-- False of the code in general: adding a key with rebuild frequency one writes outside the table, for every distribution. -/
theorem c26_new_key_false (d : List (K × ℝ)) (hw : ∀ p ∈ d, 0 ≤ p.2) (hpos : 0 < mass d) (k : K) (w : ℝ)
    (hk : k ∉ d.map Prod.fst) (reorder : List (K × ℝ) → List (K × ℝ)) (hr : ∀ l, (reorder l).Perm l) :
    (Cat.mk' d true 1).update k w reorder = none := by
  obtain ⟨_, h2⟩ := construct_spec d hw hpos
  have hl : (reorder (insertOrAssign d k w)).length = d.length + 1 := by
    rw [(hr _).length_eq]
    simp only [insertOrAssign, hk, if_false, List.length_append, List.length_singleton]
  have hl2 : (freshEntries (reorder (insertOrAssign d k w))).length = d.length + 1 := by
    rw [freshEntries, List.length_map, hl]
  simp only [Cat.update, Cat.mk', if_true, reconstruct, overwrite, h2, hl2]
  simp

/-- Replacing the weights by a larger map also writes outside the table. -/
theorem c26_larger_map_false (d d' : List (K × ℝ)) (hw : ∀ p ∈ d, 0 ≤ p.2) (hpos : 0 < mass d) (freq : Nat)
    (hlen : d.length < d'.length) : (Cat.mk' d true freq).updateAll d' = none := by
  obtain ⟨_, h2⟩ := construct_spec d hw hpos
  have hl2 : (freshEntries d').length = d'.length := by rw [freshEntries, List.length_map]
  simp [Cat.updateAll, Cat.mk', reconstruct, overwrite, h2, hl2, hlen]

/-- Replacing the weights by a smaller map mixes in stale entries: here the new weights are 1 and 3, but the two keys
are drawn with probability one half each. -/
theorem c26_smaller_map_false :
    ∃ c : Cat Nat ℚ, (Cat.mk' [(5, 5 / 4), (6, 5 / 4), (7, 1 / 2)] true 1).updateAll [(0, 1), (1, 3)] = some c ∧
      ∀ u : ℚ, 0 ≤ u → u < 1 → c.sampleAlias 0 u = some 0 ∧ c.sampleAlias 1 u = some 1 := by
  refine ⟨{ distr := [(0, 1), (1, 3)], useAlias := true, freq := 1, numUpdates := 0,
            table := [⟨1, 0, 0⟩, ⟨1, 1, 1⟩, ⟨1 / 2, 7, 1⟩] }, by decide +kernel, fun u h0 h1 => ?_⟩
  simp [Cat.sampleAlias, getRandInt, Entry.pick]

/-- Without the alias method an update is visible at once: the draw uses the new weights. -/
theorem c26_without_alias (d : List (K × ℝ)) (freq : Nat) (k : K) (w : ℝ) (reorder : List (K × ℝ) → List (K × ℝ))
    (eps u : ℝ) (raw : Nat) : ∃ c, (Cat.mk' d false freq).update k w reorder = some c ∧
      c.sample eps raw u = some (sampleFrom eps (reorder (insertOrAssign d k w)) false u) := by
  refine ⟨{ distr := reorder (insertOrAssign d k w), useAlias := false, freq, numUpdates := 1, table := [] }, ?_, ?_⟩
  · simp [Cat.mk', Cat.update]
  · simp [Cat.sample]

end Verif.Alias
