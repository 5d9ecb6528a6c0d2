import Verif.Model.Context

/-!
# What a map and a context should do, in terms of the history of operations only
-/

namespace Verif.HashMap

variable {K V : Type}

/-- The value a map should hold for a key after a history of operations (newest first), given which keys count as the same:
that of the newest `put` for the key, unless the key was erased since. -/
def lastPut (same : K → K → Prop) [DecidableRel same] (k : K) : List (Op K V) → Option V
  | [] => none
  | .put k' v :: h => if same k' k then some v else lastPut same k h
  | .erase k' :: h => if same k' k then none else lastPut same k h

/-- Keys fit for a hash map: `eq` is an equivalence relation and equal keys have equal hashes. -/
structure Keys.Good (ks : Keys K) : Prop where
  refl : ∀ a, ks.eq a a = true
  symm : ∀ a b, ks.eq a b = true → ks.eq b a = true
  trans : ∀ a b c, ks.eq a b = true → ks.eq b c = true → ks.eq a c = true
  hash : ∀ a b, ks.eq a b = true → ks.hash a = ks.hash b

end Verif.HashMap

namespace Verif.Context

/-- The non-const value a context should hold after a history of calls (newest first). -/
def lastVal (key : String) : List Call → Option Ptr
  | [] => none
  | .put k v :: h => if k = key then some v else lastVal key h
  | .erase k :: h => if k = key then none else lastVal key h
  | .putConst _ _ :: h => lastVal key h
  | .eraseConst _ :: h => lastVal key h

/-- The const value a context should hold after a history of calls (newest first). -/
def lastConst (key : String) : List Call → Option Ptr
  | [] => none
  | .putConst k v :: h => if k = key then some v else lastConst key h
  | .eraseConst k :: h => if k = key then none else lastConst key h
  | .put _ _ :: h => lastConst key h
  | .erase _ :: h => lastConst key h

/-- Is it a call on const entries? -/
def Call.isConst : Call → Bool
  | .put _ _ | .erase _ => false
  | .putConst _ _ | .eraseConst _ => true

end Verif.Context
