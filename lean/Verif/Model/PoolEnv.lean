import Verif.Model.Pool

/-!
# Null pointers given to the pool

In `Model/Pool.lean` the (manager, root node, logger) triple is a number.  Here the two pointers that the pool dereferences are looked at.
-/

namespace Verif.Pool

/-- The manager and the root node of a triple; `none` is a null pointer.  (A null logger is allowed: `try_log` tests it, src/thts.cpp:266-267.) -/
structure Pointers where
  manager : Option Nat
  root : Option Nat
  deriving DecidableEq, Repr

/-- The condition of src/thts.cpp:46. -/
def Pointers.null (p : Pointers) : Bool := p.manager.isNone || p.root.isNone

/-- The constructor `ThtsPool::ThtsPool`, src/thts.cpp:25-52: `none` if it throws (lines 46-48), otherwise the pool with its threads.
`env 0` are the pointers given to the constructor. -/
def construct (env : Nat → Pointers) (n : Nat) : Option St :=
  if (env 0).null then none else some (init n)

/-- What `run_thts_trial` meets when it reads the pool's root and manager (src/thts.cpp:253: `thts_manager->thts_env` and
`root_node->state`; the root again at line 130): it dereferences both without a test. -/
inductive Read where
  | fine
  | nullDereference
  deriving DecidableEq, Repr

/-- The outcome of a read of the installed triple by a trial. -/
def readOutcome (env : Nat → Pointers) (e : Nat) : Read := if (env e).null then .nullDereference else .fine

/-- A whole life of a pool: the constructor, then a schedule. -/
def life (env : Nat → Pointers) (n : Nat) (ls : List Label) : Option (St × List Event) :=
  match construct env n with
  | none => none
  | some s => execFrom s [] ls

end Verif.Pool
