import Verif.Model.Sampling

/-!
# Categorical distributions with an alias table (src/distributions/categorical_distribution.cc)

A `vector<int>` used as a stack (`back`, `pop_back`, `push_back`) is a list whose head is the back of the vector.
-/

namespace Verif.Alias

open Verif.Sampling

variable {K 𝕜 : Type}

/-- `AliasTableEntry` (include/distributions/categorical_distribution.h, struct AliasTableEntry). -/
structure Entry (K 𝕜 : Type) where
  threshold : 𝕜
  first : K
  second : K
deriving DecidableEq, Repr

/-- A `CategoricalDistribution` object (include/distributions/categorical_distribution.h, data members). -/
structure Cat (K 𝕜 : Type) where
  distr : List (K × 𝕜)
  useAlias : Bool
  freq : Nat
  numUpdates : Nat
  table : List (Entry K 𝕜)
deriving DecidableEq, Repr

section
variable [Field 𝕜] [LinearOrder 𝕜]

/-- The entries written for a distribution (categorical_distribution.cc:89-93 and 131-139): threshold
`weight * n / sum_weights`, both keys equal. -/
def freshEntries (distr : List (K × 𝕜)) : List (Entry K 𝕜) :=
  distr.map fun p => ⟨p.2 * (distr.length : 𝕜) / sumWeights distr, p.1, p.1⟩

/-- The classification loop (categorical_distribution.cc:144-150), from index `i` on: stacks of large and small
indices. -/
def classify : Nat → List (Entry K 𝕜) → List Nat → List Nat → List Nat × List Nat
  | _, [], large, small => (large, small)
  | i, e :: rest, large, small =>
    if 1 < e.threshold then classify (i + 1) rest (i :: large) small
    else if e.threshold < 1 then classify (i + 1) rest large (i :: small)
    else classify (i + 1) rest large small

/-- The pairing loop (categorical_distribution.cc:152-166).  Indices come from `classify`, so they are in range; an index out of
range ends the loop (never reached, see `Verif.Alias.pair_spec`). -/
def pairLoop (t : List (Entry K 𝕜)) : List Nat → List Nat → List (Entry K 𝕜) × List Nat × List Nat
  | l :: large, s :: small =>
    match t[l]?, t[s]? with
    | some el, some es =>
      let t1 := t.set s { es with second := el.first }
      let el' := { el with threshold := el.threshold - (1 - es.threshold) }
      let t2 := t1.set l el'
      if 1 < el'.threshold then pairLoop t2 (l :: large) small
      else if el'.threshold < 1 then pairLoop t2 large (l :: small)
      else pairLoop t2 large small
    | _, _ => (t, l :: large, s :: small)
  | large, small => (t, large, small)
termination_by large small => large.length + small.length

/-- The final loops (categorical_distribution.cc:168-174): leftover indices get threshold one. -/
def setOnes (t : List (Entry K 𝕜)) (idx : List Nat) : List (Entry K 𝕜) :=
  idx.foldl (fun t i => match t[i]? with | some e => t.set i { e with threshold := 1 } | none => t) t

/-- `reconstruct_alias_table` after its first part (categorical_distribution.cc:142-174). -/
def settle (t : List (Entry K 𝕜)) : List (Entry K 𝕜) :=
  let ls := classify 0 t [] []
  let r := pairLoop t ls.1 ls.2
  setOnes (setOnes r.1 r.2.1) r.2.2

/-- The assignments `alias_table[i] = ...` for `i = 0, 1, ...` (categorical_distribution.cc:130-140): the first entries are overwritten;
writing beyond the end is undefined behaviour (`none`). -/
def overwrite (t fresh : List (Entry K 𝕜)) : Option (List (Entry K 𝕜)) :=
  if t.length < fresh.length then none else some (fresh ++ t.drop fresh.length)

/-- `construct_alias_table` on an empty table, with `reconstruct_alias_table(true)` (categorical_distribution.cc:83-96). -/
def construct (distr : List (K × 𝕜)) : List (Entry K 𝕜) := settle (freshEntries distr)

/-- `reconstruct_alias_table(false)` (categorical_distribution.cc:124-175). -/
def reconstruct (distr : List (K × 𝕜)) (t : List (Entry K 𝕜)) : Option (List (Entry K 𝕜)) :=
  (overwrite t (freshEntries distr)).map settle

/-- The constructor (categorical_distribution.cc:19-32). -/
def Cat.mk' (distr : List (K × 𝕜)) (useAlias : Bool) (freq : Nat) : Cat K 𝕜 :=
  { distr, useAlias, freq, numUpdates := 0, table := if useAlias then construct distr else [] }

/-- `unordered_map::insert_or_assign`, with a new key at the end. -/
def insertOrAssign [DecidableEq K] (m : List (K × 𝕜)) (k : K) (w : 𝕜) : List (K × 𝕜) :=
  if k ∈ m.map Prod.fst then m.map (fun p => if p.1 = k then (k, w) else p) else m ++ [(k, w)]

/-- `update(key, weight)` (categorical_distribution.cc:49-56).  An insertion may rehash the map: `reorder` is the new iteration
order.  `none` is undefined behaviour. -/
def Cat.update [DecidableEq K] (c : Cat K 𝕜) (k : K) (w : 𝕜) (reorder : List (K × 𝕜) → List (K × 𝕜)) :
    Option (Cat K 𝕜) :=
  let d := reorder (insertOrAssign c.distr k w)
  if c.useAlias ∧ c.numUpdates + 1 = c.freq then
    (reconstruct d c.table).map fun t => { c with distr := d, numUpdates := 0, table := t }
  else some { c with distr := d, numUpdates := c.numUpdates + 1 }

/-- `update(new_distr)` (categorical_distribution.cc:64-75).  `distr` is assigned before the sizes are compared, so the
comparison compares the new distribution with itself. -/
def Cat.updateAll (c : Cat K 𝕜) (d : List (K × 𝕜)) : Option (Cat K 𝕜) :=
  let c1 := { c with distr := d, numUpdates := 0 }
  if c1.useAlias then
    if d.length = c1.distr.length then (reconstruct d c1.table).map fun t => { c1 with table := t }
    else some { c1 with table := construct d }
  else some c1

/-- What one alias table entry returns for a uniform draw (categorical_distribution.cc:42-45). -/
def Entry.pick (e : Entry K 𝕜) (u : 𝕜) : K :=
  if e.threshold < 1 ∧ u < e.threshold then e.first else e.second

/-- `sample` with the alias method (categorical_distribution.cc:40-45); `none` is undefined behaviour (empty distribution
or index out of range). -/
def Cat.sampleAlias (c : Cat K 𝕜) (raw : Nat) (u : 𝕜) : Option K :=
  match getRandInt raw 0 c.distr.length with
  | none => none
  | some i => if i < 0 then none else (c.table[i.toNat]?).map (·.pick u)

/-- `sample` (categorical_distribution.cc:35-46). -/
def Cat.sample (eps : 𝕜) (c : Cat K 𝕜) (raw : Nat) (u : 𝕜) : Option (Draw K) :=
  if c.useAlias then (c.sampleAlias raw u).map Draw.key else some (sampleFrom eps c.distr false u)

end

end Verif.Alias
