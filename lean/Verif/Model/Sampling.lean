import Mathlib.Algebra.Order.Field.Basic

/-!
# Random helpers (include/thts_manager.h, src/helper_templates.cc, src/distributions/)

Random number generator outputs are arguments: `raw` is the integer produced by `int_distr(int_gen)`, a number in
`[0, RAND_MAX]` (include/thts_manager.h:104), `u` the real produced by `real_distr(real_gen)`, a number in `[0,1)`
(include/thts_manager.h:105).  An `unordered_map` is the list of its entries in iteration order.
`double` is an arbitrary linearly ordered field `𝕜`.
-/

namespace Verif.Sampling

variable {K 𝕜 : Type}

/-- `RandManager::get_rand_int` (include/thts_manager.h:114-118).  C++ `%` truncates towards zero; a zero divisor is
undefined behaviour (`none`).  Simplified: `int` does not overflow. -/
def getRandInt (raw : Nat) (lo hi : Int) : Option Int :=
  if hi - lo = 0 then none else some (lo + Int.tmod (raw : Int) (hi - lo))

/-- The loop of `get_max_key_break_ties_randomly` (src/helper_templates.cc:35-44): current best value and keys. -/
def maxKeyLoop [LinearOrder 𝕜] : List (K × 𝕜) → 𝕜 → List K → List K
  | [], _, bestKeys => bestKeys
  | (k, val) :: rest, bestVal, bestKeys =>
    if val < bestVal then maxKeyLoop rest bestVal bestKeys
    else if bestVal < val then maxKeyLoop rest val ([] ++ [k])
    else maxKeyLoop rest bestVal (bestKeys ++ [k])

/-- `get_max_key_break_ties_randomly` (src/helper_templates.cc:31-49).  `lowest` is
`numeric_limits<NumericT>::lowest()`.  `none` is undefined behaviour (remainder by zero, index out of range). -/
def getMaxKey [LinearOrder 𝕜] (lowest : 𝕜) (m : List (K × 𝕜)) (raw : Nat) : Option K :=
  let bestKeys := maxKeyLoop m lowest []
  if bestKeys.length = 1 then bestKeys[0]?
  else
    match getRandInt raw 0 bestKeys.length with
    | none => none
    | some indx => if indx < 0 then none else bestKeys[indx.toNat]?

/-- Outcomes of `sample_from_distribution`: a key, or one of its two exceptions
(src/helper_templates.cc:91 and :109). -/
inductive Draw (K : Type) where
  | key (k : K)
  | tooMuch
  | tooLittle
deriving DecidableEq, Repr

/-- The loop of `sample_from_distribution` (src/helper_templates.cc:78-97).  `n` is `distr_size`, `i` the counter,
`run` is `running_prob_mass`. -/
def sampleLoop [Field 𝕜] [LinearOrder 𝕜] (sum eps u : 𝕜) (n : Nat) : Nat → 𝕜 → List (K × 𝕜) → Draw K
  | _, _, [] => .tooLittle
  | i, run, (k, w) :: rest =>
    let run' := run + w / sum
    let i' := i + 1
    if sum + eps < run' ∨ (sum ≤ run' ∧ i' < n) then .tooMuch
    else if u < run' then .key k
    else sampleLoop sum eps u n i' run' rest

/-- Sum of the weights (src/helper_templates.cc:67-70, src/distributions/categorical_distribution.cc:84-87). -/
def sumWeights [Field 𝕜] (dist : List (K × 𝕜)) : 𝕜 := dist.foldl (fun s p => s + p.2) 0

/-- `sample_from_distribution` (src/helper_templates.cc:63-110); `eps` is the constant `EPS` (line 17). -/
def sampleFrom [Field 𝕜] [LinearOrder 𝕜] (eps : 𝕜) (dist : List (K × 𝕜)) (normalised : Bool) (u : 𝕜) : Draw K :=
  let sum := if normalised then 1 else sumWeights dist
  sampleLoop sum eps u dist.length 0 0 dist

/-- `DiscreteUniformDistribution::sample` (src/distributions/discrete_uniform_distribution.cc:15-18);
`none` is undefined behaviour or the exception of `at`. -/
def sampleUniform (keys : List K) (raw : Nat) : Option K :=
  match getRandInt raw 0 keys.length with
  | none => none
  | some indx => if indx < 0 then none else keys[indx.toNat]?

/-- `MixedDistribution::sample` (src/distributions/mixed_distribution.cc:27-30): draw a component with the weights,
then draw from it.  `P` are the `shared_ptr`s to the components, `comp p` is `p->sample` as a function of the randomness it consumes;
`u` picks the component and `v` is the randomness handed to the component. -/
def sampleMixed {P V : Type} [Field 𝕜] [LinearOrder 𝕜] (eps : 𝕜) (dist : List (P × 𝕜)) (comp : P → V → Draw K) (u : 𝕜) (v : V) :
    Draw K :=
  match sampleFrom eps dist true u with
  | .key p => comp p v
  | .tooMuch => .tooMuch
  | .tooLittle => .tooLittle

end Verif.Sampling
