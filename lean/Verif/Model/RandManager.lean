import Verif.Model.Fp
import Verif.Model.Sampling

/-!
# The random numbers of a manager (include/thts_manager.h)

`std::mt19937` is a sequence of 32-bit words that depends on the seed.  `std::uniform_int_distribution` and `std::uniform_real_distribution` are those of
libstdc++ (bits/uniform_int_dist.h of GCC 11 and later, bits/random.tcc), with `RAND_MAX = 2^31 - 1`.
-/

namespace Verif.Rand

open Verif.Fp

/-- A `std::mt19937`: the words it produces and how many of them have been taken. -/
structure Gen where
  word : Nat → Nat
  pos : Nat

/-- `RandManager` (include/thts_manager.h:86-92); `rng_lock` makes every call one step. -/
structure Manager where
  intGen : Gen
  realGen : Gen

/-- The constructor (thts_manager.h:100-108) and `init_random_seed` (thts_manager.h:94-97).  `mt s` are the words of a `std::mt19937` seeded with `s`,
`rd` are the numbers that `std::random_device` returns. -/
def construct (mt : Nat → Nat → Nat) (rd : Nat → Nat) (seed : Int) : Manager :=
  -- lines 102-103: the seed is converted to `unsigned`
  let s := (seed % 2 ^ 32).toNat
  let g : Manager := ⟨⟨mt s, 0⟩, ⟨mt s, 0⟩⟩
  -- line 107
  if seed = 0 then ⟨⟨mt (rd 0), 0⟩, ⟨mt (rd 1), 0⟩⟩ else g

/-- `int_distr(int_gen)` with `int_distr(0, RAND_MAX)` (thts_manager.h:104, 116): a word times `2^31`, without its lower 32 bits; no word is rejected. -/
def Gen.rawInt (g : Gen) : Nat × Gen := (g.word g.pos * 2 ^ 31 / 2 ^ 32, { g with pos := g.pos + 1 })

/-- `std::generate_canonical<double, 53>` of two words: their sum, the second one times `2^32`, over `2^64`, in doubles; the largest double below one instead of one. -/
def canonical (w0 w1 : Nat) : ℚ :=
  let r := fdiv (fadd w0 (fmul w1 (2 ^ 32))) (2 ^ 64)
  if 1 ≤ r then 1 - 2 ^ (-53 : ℤ) else r

/-- `real_distr(real_gen)` with `real_distr(0.0, 1.0)` (thts_manager.h:105, 126). -/
def Gen.rawReal (g : Gen) : ℚ × Gen := (canonical (g.word g.pos) (g.word (g.pos + 1)), { g with pos := g.pos + 2 })

/-- `get_rand_int(lo, hi)` (thts_manager.h:114-118); `none` is undefined behaviour. -/
def Manager.randInt (g : Manager) (lo hi : Int) : Option Int × Manager :=
  let r := g.intGen.rawInt
  (Sampling.getRandInt r.1 lo hi, { g with intGen := r.2 })

/-- `get_rand_uniform()` (thts_manager.h:124-127). -/
def Manager.randUniform (g : Manager) : ℚ × Manager :=
  let r := g.realGen.rawReal
  (r.1, { g with realGen := r.2 })

end Verif.Rand
