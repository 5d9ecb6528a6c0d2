import Mathlib.Analysis.SpecialFunctions.Log.Basic
import Mathlib.Analysis.SpecialFunctions.Exp
import Mathlib.Analysis.SpecialFunctions.Pow.Real

/-! # Decaying temperatures (src/algorithms/common/decaying_temp.cpp) -/

namespace Verif.Decay

/-- `compute_decayed_temp` (decaying_temp.cpp:11-17). -/
noncomputable def decayedTemp (f : ℝ → ℝ) (init min : ℝ) (visits : Nat) (scale : ℝ) : ℝ :=
  let temp := init * f (scale * visits)
  if temp < min then min else temp

/-- `decayed_temp_inv_sqrt` (decaying_temp.cpp:23-25). -/
noncomputable def invSqrt (m : ℝ) : ℝ := 1 / √(1 + m)

/-- `decayed_temp_inv_log` (decaying_temp.cpp:31-33); `CONST_E` is line 3. -/
noncomputable def invLog (m : ℝ) : ℝ := 1 / Real.log (Real.exp 1 + m)

/-- `decayed_temp_sigmoid` (decaying_temp.cpp:39-41); the numerator is line 4. -/
noncomputable def sigmoid (m : ℝ) : ℝ := (1 + Real.exp (-5)) / (1 + Real.exp (m - 5))

end Verif.Decay
