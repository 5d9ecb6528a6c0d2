import Verif.Model.Sampling

/-!
# Default observation functions of an environment (src/thts_env.cpp:16-57)

`S` and `O` are the environment's states and observations, `cast` the `static_pointer_cast<const Observation>` of a state.
-/

namespace Verif.EnvDefaults
open Verif.Sampling

variable {S O A 𝕜 : Type}

/-- An environment as far as observations are concerned: the flag `_is_fully_observable` (src/thts_env.cpp:13) and the subclass'
override of `get_observation_distribution_itfc`, if it has one. -/
structure ObsEnv (S O A 𝕜 : Type) where
  fullyObservable : Bool
  cast : S → O
  override : Option (A → S → List (O × 𝕜))

/-- The default `get_observation_distribution_itfc` (src/thts_env.cpp:27-37); `none` is the exception of line 36. -/
def defaultObsDistr [One 𝕜] (e : ObsEnv S O A 𝕜) (nextState : S) : Option (List (O × 𝕜)) :=
  if e.fullyObservable then some [(e.cast nextState, 1)] else none

/-- The virtual call `get_observation_distribution_itfc` (include/thts_env.h). -/
def getObsDistr [One 𝕜] (e : ObsEnv S O A 𝕜) (action : A) (nextState : S) : Option (List (O × 𝕜)) :=
  match e.override with
  | some f => some (f action nextState)
  | none => defaultObsDistr e nextState

/-- The default `sample_observation_distribution_itfc` (src/thts_env.cpp:46-57); `none` is the exception of line 36, the outcomes of
`Draw` are those of `sample_from_distribution`. -/
def sampleObs [Field 𝕜] [LinearOrder 𝕜] (eps : 𝕜) (e : ObsEnv S O A 𝕜) (action : A) (nextState : S) (u : 𝕜) : Option (Draw O) :=
  if e.fullyObservable then some (.key (e.cast nextState))
  else
    match getObsDistr e action nextState with
    | none => none
    | some distr => some (sampleFrom eps distr true u)

end Verif.EnvDefaults
