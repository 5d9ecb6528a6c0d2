import Verif.Model.Context

/-!
# Model of the key types: states, observations, actions, transposition keys (src/thts_types.cpp, src/helper_templates.cc)

An `int` is a 32 bit integer, a `size_t` a 64 bit word.  `std::hash<int>` and `std::hash<string>` are parameters.
A virtual call is a match on the dynamic type of the object; `dynamic_cast` fails exactly if the dynamic types differ (no class
in /repo derives from one of the concrete types below).
-/

namespace Verif.Types

/-- `std::hash<int>` and `std::hash<std::string>`. -/
structure StdHash where
  int : Int32 → UInt64
  string : String → UInt64

variable (sh : StdHash)

/-- `helper::hash_combine`, helper_templates.cc:22-26, given the hash of the value. -/
def hashCombine (cur v : UInt64) : UInt64 := cur ^^^ (v + (0x9e3779b9 : UInt64) + (cur <<< 6) + (cur >>> 2))

/-- Objects with base class `Observation`, include/thts_types.h:39-131. -/
inductive Obs where
  /-- an object whose dynamic type is `Observation` itself or `State` itself -/
  | null (isState : Bool)
  /-- `IntState` -/
  | int (state : Int32)
  /-- `IntPairState` -/
  | pair (first second : Int32)
  /-- `Int3TupleState` -/
  | triple (first second third : Int32)
  deriving DecidableEq, Repr

/-- Objects with base class `Action`. -/
inductive Act where
  /-- an object whose dynamic type is `Action` itself -/
  | null
  /-- `IntAction` -/
  | int (action : Int32)
  /-- `StringAction` -/
  | string (action : String)
  deriving DecidableEq, Repr

/-- The exception thrown by the default implementations, thts_types.cpp:20-60. -/
inductive Err where
  | runtimeError
  deriving DecidableEq, Repr

/-- `Observation::hash`: thts_types.cpp:20-22, 35-37 (defaults), 65-67 (`IntState`), 101-105 (`IntPairState`),
139-144 (`Int3TupleState`).  Also `std::hash` of an observation, a state, or a (non-null) pointer to one, lines 258-264, 303-309. -/
def Obs.hash : Obs → Except Err UInt64
  | .null _ => .error .runtimeError
  | .int i => .ok (sh.int i)
  | .pair a b => .ok (hashCombine (hashCombine 0 (sh.int a)) (sh.int b))
  | .triple a b c => .ok (hashCombine (hashCombine (hashCombine 0 (sh.int a)) (sh.int b)) (sh.int c))

/-- `Observation::equals_itfc`: thts_types.cpp:24-26, 39-41 (defaults), 72-87 (`IntState`), 110-125 (`IntPairState`),
149-166 (`Int3TupleState`).  Also `==` and `std::equal_to` of observations, states, or (non-null) pointers to them,
lines 269-285, 313-329. -/
def Obs.equals : Obs → Obs → Except Err Bool
  | .null _, _ => .error .runtimeError
  | .int i, .int j => .ok (i == j)
  | .int _, _ => .ok false
  | .pair a b, .pair a' b' => .ok (a == a' && b == b')
  | .pair _ _, _ => .ok false
  | .triple a b c, .triple a' b' c' => .ok (a == a' && b == b' && c == c')
  | .triple _ _ _, _ => .ok false

/-- `Action::hash`: thts_types.cpp:50-52 (default), 180-182 (`IntAction`), 216-218 (`StringAction`).  Also `std::hash` of an action or a pointer to one, lines 347-353. -/
def Act.hash : Act → Except Err UInt64
  | .null => .error .runtimeError
  | .int i => .ok (sh.int i)
  | .string s => .ok (sh.string s)

/-- `Action::equals_itfc`: thts_types.cpp:54-56 (default), 187-202 (`IntAction`), 223-238 (`StringAction`).  Also `==` and
`std::equal_to`, lines 358-374. -/
def Act.equals : Act → Act → Except Err Bool
  | .null, _ => .error .runtimeError
  | .int i, .int j => .ok (i == j)
  | .int _, _ => .ok false
  | .string s, .string t => .ok (s == t)
  | .string _, _ => .ok false

/-- A transposition key `DNodeIdTuple`, thts_types.h:220. -/
structure DNodeId where
  time : Int32
  obs : Obs
  deriving DecidableEq, Repr

/-- `std::hash<DNodeIdTuple>`, thts_types.cpp:486-491. -/
def DNodeId.hash (k : DNodeId) : Except Err UInt64 := do
  let h ← k.obs.hash sh
  return hashCombine (hashCombine 0 (sh.int k.time)) h

/-- `std::equal_to<DNodeIdTuple>`, thts_types.cpp:496-498 (`&&` evaluates the observations only if the times agree). -/
def DNodeId.equals (a b : DNodeId) : Except Err Bool :=
  if a.time == b.time then a.obs.equals b.obs else .ok false

/-- A pointer: address and object. -/
structure Ptr (α : Type) where
  addr : Nat
  obj : α

/-- Keys of a hash map, from throwing functions (used only where they do not throw). -/
def keysOf {α : Type} (hash : α → Except Err UInt64) (equals : α → α → Except Err Bool) (grow : Nat → Nat) :
    HashMap.Keys (Ptr α) where
  hash p := match hash p.obj with | .ok h => h.toNat | .error _ => 0
  eq p q := match equals p.obj q.obj with | .ok b => b | .error _ => false
  grow := grow

/-- Maps keyed by `shared_ptr<const State>`, `shared_ptr<const Observation>` (`StateDistr`, children of chance nodes, ...). -/
def obsKeys (grow : Nat → Nat) : HashMap.Keys (Ptr Obs) := keysOf (Obs.hash sh) Obs.equals grow

/-- Maps keyed by `shared_ptr<const Action>` (`ActionDistr`, children of decision nodes, ...). -/
def actKeys (grow : Nat → Nat) : HashMap.Keys (Ptr Act) := keysOf (Act.hash sh) Act.equals grow

/-- The transposition table `DNodeTable`, thts_types.h:221 (the address is that of the observation). -/
def tableKeys (grow : Nat → Nat) : HashMap.Keys (Ptr DNodeId) := keysOf (DNodeId.hash sh) DNodeId.equals grow

/-- Maps keyed by a pointer to a concrete type (`IntStateDistr`, `IntPairStateDistr`, `Int3TupleStateDistr`, thts_types.h:202-204):
`std::hash` and `==` are only specialised for pointers to `Observation`, `State` and `Action` (thts_types.h:232-320), so the
library's versions for `shared_ptr` apply, which look at the address (`ptrHash`) only. -/
def typedKeys {α : Type} (ptrHash : Nat → Nat) (grow : Nat → Nat) : HashMap.Keys (Ptr α) where
  hash p := ptrHash p.addr
  eq p q := p.addr == q.addr
  grow := grow

end Verif.Types
