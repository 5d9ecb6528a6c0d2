import Verif.Model.Search

/-!
# Memory: who owns the nodes

Nodes and the manager are owned by `shared_ptr`s: a node holds its children (`children`, include/thts_decision_node.h:69 and
include/thts_chance_node.h:64) and the manager (`thts_manager`, lines 62 and 56); the parent is held by a `weak_ptr` (lines 66 and 61), and
so are the nodes in the transposition table (include/thts_types.h:213-221).  Everybody else holds handles: the pool (`thts_manager` and
`root_node`, include/thts.h:83-84), the local variables of the workers, evaluators and the client.

Simplifications: a reference count is the number of owners (that is what `shared_ptr` guarantees; it is not kept up to date step by
step but computed from the state of the search); the memory of a freed node, which the control block may keep as long as there are
`weak_ptr`s, is not modelled; one stack frame stands for the frames of the destructors of a `shared_ptr`, the node it owns and the node's map.
-/

namespace Verif.Mem

open Verif

/-- The objects with a reference count: the manager, decision nodes and chance nodes. -/
inductive Obj where
  | mgr
  | d (i : Nat)
  | c (i : Nat)
  deriving DecidableEq, Repr

/-- An object: number of owners, and the objects that it owns, in the order in which its destructor releases them. -/
structure Cell where
  count : Nat
  refs : List Obj
  deriving DecidableEq, Repr

/-- The objects alive, and those destroyed so far (newest first). -/
structure Mem where
  heap : List (Obj × Cell)
  freed : List Obj
  deriving DecidableEq, Repr

inductive Err where
  /-- stack overflow -/
  | overflow
  /-- a reference to a destroyed object is released: double free -/
  | dangling
  deriving DecidableEq, Repr

/-- Destructor of a `shared_ptr` to `x`, with `k` stack frames left.  The last owner destroys the object, whose destructor
destroys the `shared_ptr`s in it (include/thts_decision_node.h:89 and thts_chance_node.h:83: default
destructors). -/
def drop : Nat → Mem → Obj → Except Err Mem
  | 0, _, _ => .error .overflow
  | k + 1, s, x =>
    match Search.find? x s.heap with
    | none => .error .dangling
    | some ⟨0, _⟩ => .error .dangling
    | some ⟨1, refs⟩ => refs.foldlM (drop k) { heap := s.heap.filter (fun p => decide (p.1 ≠ x)), freed := x :: s.freed }
    | some ⟨n + 2, refs⟩ => .ok { s with heap := s.heap.map fun p => if p.1 = x then (x, ⟨n + 1, refs⟩) else p }

section
variable {S A R X Y : Type}

/-- What the objects of a search own.  Members are destroyed in the reverse order of their declarations: `children`, then `thts_manager`.
The order of the children is that of some iteration of the maps. -/
def owned (st : Search.St S A R X Y) : List (Obj × List Obj) :=
  (.mgr, []) ::
    ((st.dn.zipIdx.map fun p => (.d p.2, (p.1.kids.map fun k => .c k.2) ++ [.mgr])) ++
     (st.cn.zipIdx.map fun p => (.c p.2, (p.1.kids.map fun k => .d k.2) ++ [.mgr])))

/-- The memory of a search, if `hs` are the handles that others hold. -/
def memOf (st : Search.St S A R X Y) (hs : List Obj) : Mem :=
  { heap := (owned st).map fun p => (p.1, ⟨((owned st).flatMap Prod.snd).count p.1 + hs.count p.1, p.2⟩), freed := [] }

/-- The handles of the pool, in the order of their destruction: `root_node`, `thts_manager` (include/thts.h:83-84). -/
def poolHandles (st : Search.St S A R X Y) : List Obj := [.d st.root, .mgr]

/-- `nodes_to_backup` (thts.cpp:250). -/
def pathHandles (path : List (Nat × Nat)) : List Obj := path.flatMap fun p => [.d p.1, .c p.2]

/-- The local variables of a worker (thts.cpp:130-150, 201-222). -/
def localHandles : Search.Phase S A R → List Obj
  | .idle => []
  | .sel cur path _ _ => .d cur :: pathHandles path
  | .samp cur _ c path _ _ => .d cur :: .c c :: pathHandles path
  | .back nodes _ _ _ _ => pathHandles nodes
  | .backD d nodes _ _ _ _ => .d d :: pathHandles nodes

/-- Whether an object is alive. -/
def Mem.alive (s : Mem) (x : Obj) : Bool := s.heap.any fun p => decide (p.1 = x)

/-- The transposition table seen later: entries of destroyed nodes are expired `weak_ptr`s. -/
def expire (s : Mem) (tb : List ((Int × S) × Option Nat)) : List ((Int × S) × Option Nat) :=
  tb.map fun p => (p.1, p.2.filter fun i => s.alive (.d i))

end

end Verif.Mem
