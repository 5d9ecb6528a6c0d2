import Verif.Model.FpCode
import Verif.Model.Alias

/-!
# The alias table on doubles (src/distributions/categorical_distribution.cc)

The functions of `Model/Alias.lean` with every operation rounded.  Reading or writing a table out of range is undefined behaviour: `none`.
-/

namespace Verif.Fp

open Verif.Alias (Entry classify overwrite)

variable {K : Type}

/-- The entries written for a distribution (categorical_distribution.cc:89-93 and 131-139): `kv_pair.second * n / sum_weights`, in which `n` is converted to a double. -/
def freshEntries (distr : List (K × ℚ)) : List (Entry K ℚ) :=
  distr.map fun p => ⟨fdiv (fmul p.2 (fl (distr.length : ℚ))) (sumWeights distr), p.1, p.1⟩

/-- The pairing loop (categorical_distribution.cc:152-166).  The subtraction `threshold -= 1.0 - threshold` is two rounded ones. -/
def pairLoop (t : List (Entry K ℚ)) : List Nat → List Nat → Option (List (Entry K ℚ) × List Nat × List Nat)
  | l :: large, s :: small =>
    match t[l]?, t[s]? with
    | some el, some es =>
      let t1 := t.set s { es with second := el.first }
      let el' := { el with threshold := fsub el.threshold (fsub 1 es.threshold) }
      let t2 := t1.set l el'
      if 1 < el'.threshold then pairLoop t2 (l :: large) small
      else if el'.threshold < 1 then pairLoop t2 large (l :: small)
      else pairLoop t2 large small
    | _, _ => none
  | large, small => some (t, large, small)
termination_by large small => large.length + small.length

/-- The final loops (categorical_distribution.cc:168-174). -/
def setOnes (t : List (Entry K ℚ)) : List Nat → Option (List (Entry K ℚ))
  | [] => some t
  | i :: idx =>
    match t[i]? with
    | some e => setOnes (t.set i { e with threshold := 1 }) idx
    | none => none

/-- `reconstruct_alias_table` after its first part (categorical_distribution.cc:142-174). -/
def settle (t : List (Entry K ℚ)) : Option (List (Entry K ℚ)) :=
  let ls := classify 0 t [] []
  match pairLoop t ls.1 ls.2 with
  | some (t', large, small) => (setOnes t' large).bind fun t'' => setOnes t'' small
  | none => none

/-- `construct_alias_table` on an empty table, with `reconstruct_alias_table(true)` (categorical_distribution.cc:83-96). -/
def construct (distr : List (K × ℚ)) : Option (List (Entry K ℚ)) := settle (freshEntries distr)

/-- `reconstruct_alias_table(false)` (categorical_distribution.cc:124-175). -/
def reconstruct (distr : List (K × ℚ)) (t : List (Entry K ℚ)) : Option (List (Entry K ℚ)) :=
  (overwrite t (freshEntries distr)).bind settle

end Verif.Fp
