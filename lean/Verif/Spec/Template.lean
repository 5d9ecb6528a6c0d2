import Verif.Model.Types
import Mathlib.Algebra.BigOperators.Group.List.Basic

/-! # Distributions over objects behind pointers -/

namespace Verif.Spec
open Verif.Types (Ptr)

variable {V 𝕜 : Type}

/-- The probability a map from pointers to probabilities gives to an object: that of all pointers to it. -/
def probOf [AddMonoid 𝕜] [DecidableEq V] (distr : List (Ptr V × 𝕜)) (v : V) : 𝕜 := ((distr.filter fun p => p.1.obj = v).map Prod.snd).sum

/-- Two maps state the same distribution over objects. -/
def SameDistr [AddMonoid 𝕜] [DecidableEq V] (d d' : List (Ptr V × 𝕜)) : Prop := ∀ v, probOf d v = probOf d' v

/-- A map keyed by address: no address twice. -/
def AddressKeyed (d : List (Ptr V × 𝕜)) : Prop := (d.map fun p => p.1.addr).Nodup

/-- No two pointers lead to equal objects. -/
def DistinctObjects (d : List (Ptr V × 𝕜)) : Prop := (d.map fun p => p.1.obj).Nodup

end Verif.Spec
