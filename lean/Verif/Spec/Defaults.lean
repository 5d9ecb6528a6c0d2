import Verif.Spec.Random

/-! # Environments whose episodes end -/

namespace Verif.Random

open Verif.Search

variable {S A R : Type}

/-- Every episode that starts in state `s` ends within `L` moves: there is no play of more than `L` moves. -/
def EndsWithin (env : Env S A R) (L : Nat) (s : S) : Prop := ∀ play, ValidPlay env s play → play.length ≤ L

/-- The same manager with depth limit `M`. -/
def withLimit (m : Manager S R) (M : Int) : Manager S R := { m with maxDepth := M }

end Verif.Random
