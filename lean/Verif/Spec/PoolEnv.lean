import Verif.Model.Pool

/-!
# Vocabulary of C119, over histories of API events (newest event first)
-/

namespace Verif.Pool

/-- The environment last installed: by the last `set_new_env` that did not throw, or else by the constructor (number 0). -/
def installed : List Event → Nat
  | [] => 0
  | .swapped e :: _ => e
  | _ :: h => installed h

end Verif.Pool
