/-!
# Model of hash maps and of the trial context (src/thts_env_context.cpp, include/thts_env_context.h)

`std::unordered_map` is modelled as an array of buckets with the operations the code uses.  The hash function, the equality
predicate and the moment and size of every rehash are parameters, so the theorems hold for every standard library.
-/

namespace Verif.HashMap

/-- A hash map: `more + 1` buckets, each a list of entries. -/
structure HMap (K V : Type) where
  more : Nat
  bucket : Nat → List (K × V)

/-- What the key type supplies (`std::hash`, `std::equal_to`) and the library's rehash policy: number of buckets (minus one) to
have after an insertion, from the current number. -/
structure Keys (K : Type) where
  hash : K → Nat
  eq : K → K → Bool
  grow : Nat → Nat

section
variable {K V : Type} (ks : Keys K)

/-- The empty map has one bucket. -/
def empty : HMap K V := ⟨0, fun _ => []⟩

/-- Index of the bucket of a key. -/
def slot (m : HMap K V) (k : K) : Nat := ks.hash k % (m.more + 1)

/-- First entry of a bucket with an equal key. -/
def findIn (k : K) : List (K × V) → Option V
  | [] => none
  | (k', v) :: l => if ks.eq k' k then some v else findIn k l

/-- Assign the value of the first entry with an equal key (the stored key object stays), or append an entry. -/
def putIn (k : K) (v : V) : List (K × V) → List (K × V)
  | [] => [(k, v)]
  | (k', v') :: l => if ks.eq k' k then (k', v) :: l else (k', v') :: putIn k v l

/-- Remove the first entry with an equal key. -/
def eraseIn (k : K) : List (K × V) → List (K × V)
  | [] => []
  | (k', v') :: l => if ks.eq k' k then l else (k', v') :: eraseIn k l

/-- `find` / `at` (`none`: not found, `at` throws `out_of_range`). -/
def get (m : HMap K V) (k : K) : Option V := findIn ks k (m.bucket (slot ks m k))

/-- All entries. -/
def entries (m : HMap K V) : List (K × V) := (List.range (m.more + 1)).flatMap m.bucket

/-- Redistribute all entries over `more' + 1` buckets. -/
def rehash (m : HMap K V) (more' : Nat) : HMap K V :=
  ⟨more', fun j => (entries m).filter (fun p => decide (ks.hash p.1 % (more' + 1) = j))⟩

/-- `m[k] = v` / `insert_or_assign`, followed by the rehash the library decides on. -/
def put (m : HMap K V) (k : K) (v : V) : HMap K V :=
  let m1 : HMap K V := ⟨m.more, fun j => if j = slot ks m k then putIn ks k v (m.bucket j) else m.bucket j⟩
  rehash ks m1 (ks.grow m.more)

/-- `erase(k)`. -/
def erase (m : HMap K V) (k : K) : HMap K V :=
  ⟨m.more, fun j => if j = slot ks m k then eraseIn ks k (m.bucket j) else m.bucket j⟩

/-- Operations on a map. -/
inductive Op (K V : Type) where
  | put (k : K) (v : V)
  | erase (k : K)

/-- One operation. -/
def apply (m : HMap K V) : Op K V → HMap K V
  | .put k v => put ks m k v
  | .erase k => erase ks m k

/-- A sequence of operations, first operation first. -/
def run (m : HMap K V) (ops : List (Op K V)) : HMap K V := ops.foldl (apply ks) m

end

end Verif.HashMap

namespace Verif.Context

open Verif.HashMap

/-- Ways for an access to fail. -/
inductive Err where
  /-- `unordered_map::at` on a missing key -/
  | outOfRange
  /-- dereference of a stored null pointer: undefined behaviour -/
  | nullPtr
  /-- `static_pointer_cast` to a type that is not the type of the stored object, then used: undefined behaviour -/
  | wrongType
  deriving DecidableEq, Repr

/-- A stored `shared_ptr<void>` (or `shared_ptr<const void>`): null, or an object with an (erased) type and an address. -/
inductive Ptr where
  | null
  | obj (type addr : Nat)
  deriving DecidableEq, Repr

/-- `ThtsEnvContext`, thts_env_context.h:18-22: two maps from strings. -/
structure Context where
  vals : HMap String Ptr
  consts : HMap String Ptr

variable (ks : Keys String)

/-- A new context (a trial's context is made by `sample_context_itfc`, src/thts_env.cpp:65-67). -/
def new : Context := ⟨HashMap.empty, HashMap.empty⟩

/-- `context.at(key)`: throws if the key is missing. -/
def at' (m : HMap String Ptr) (key : String) : Except Err Ptr :=
  match get ks m key with
  | some p => .ok p
  | none => .error .outOfRange

/-- `get_value_raw`, thts_env_context.cpp:11-13. -/
def getRaw (c : Context) (key : String) : Except Err Ptr := at' ks c.vals key

/-- `get_value_raw_const`, thts_env_context.cpp:19-21. -/
def getRawConst (c : Context) (key : String) : Except Err Ptr := at' ks c.consts key

/-- `put_value_raw`, thts_env_context.cpp:26-28. -/
def putRaw (c : Context) (key : String) (v : Ptr) : Context := { c with vals := put ks c.vals key v }

/-- `put_value_raw_const`, thts_env_context.cpp:33-35. -/
def putRawConst (c : Context) (key : String) (v : Ptr) : Context := { c with consts := put ks c.consts key v }

/-- `erase`, thts_env_context.cpp:40-42. -/
def erase (c : Context) (key : String) : Context := { c with vals := HashMap.erase ks c.vals key }

/-- `erase_const`, thts_env_context.cpp:47-49. -/
def eraseConst (c : Context) (key : String) : Context := { c with consts := HashMap.erase ks c.consts key }

/-- Use of a pointer as a pointer to an object of type `t`: the address of the object. -/
def deref (t : Nat) : Ptr → Except Err Nat
  | .null => .error .nullPtr
  | .obj t' a => if t' = t then .ok a else .error .wrongType

/-- `get_value<T>`, thts_env_context.h:48-51 (also `get_value_ptr<T>`, lines 61-64, once the pointer is used). -/
def getValue (c : Context) (t : Nat) (key : String) : Except Err Nat := getRaw ks c key >>= deref t

/-- `get_value_const<T>`, thts_env_context.h:84-87 (also `get_value_ptr_const<T>`, lines 97-100). -/
def getValueConst (c : Context) (t : Nat) (key : String) : Except Err Nat := getRawConst ks c key >>= deref t

/-- `put_value<T>`, thts_env_context.h:118-121. -/
def putValue (c : Context) (key : String) (v : Ptr) : Context := putRaw ks c key v

/-- `put_value_const<T>`, thts_env_context.h:139-142. -/
def putValueConst (c : Context) (key : String) (v : Ptr) : Context := putRawConst ks c key v

/-- A mutating call on a context. -/
inductive Call where
  | put (key : String) (v : Ptr)
  | putConst (key : String) (v : Ptr)
  | erase (key : String)
  | eraseConst (key : String)
  deriving DecidableEq, Repr

/-- One call. -/
def call (c : Context) : Call → Context
  | .put k v => putValue ks c k v
  | .putConst k v => putValueConst ks c k v
  | .erase k => erase ks c k
  | .eraseConst k => eraseConst ks c k

/-- The calls made on a new context, first call first. -/
def after (cs : List Call) : Context := cs.foldl (call ks) new

/-- Decimal digits of a number, as written by `<<` and `to_string`. -/
def digits (n : Nat) : List Char :=
  if n < 10 then [Char.ofNat (48 + n)] else digits (n / 10) ++ [Char.ofNat (48 + n % 10)]
termination_by n
decreasing_by omega

/-- An `int` as written by `<<` and `to_string`. -/
def decimal (i : Int) : List Char :=
  if i < 0 then '-' :: digits i.natAbs else digits i.natAbs

/-- Key under which TENTS keeps the action selected at a decision depth, tents_decision_node.cpp:39-41. -/
def tentsKey (depth : Int) : String := String.ofList (decimal depth)

/-- Key under which RENTS keeps the action distribution of a decision depth, rents_decision_node.cpp:27-35. -/
def rentsKey (depth : Int) : String := String.ofList ('d' :: '_' :: decimal depth)

end Verif.Context
