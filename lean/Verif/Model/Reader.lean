import Verif.Model.Program

/-!
# Reading the results of a search (C103)

`recommend_action` of every algorithm reads the node and its children without taking a lock, and so do `EvalPolicy` and everything
that follows recommendations through the tree.  A thread inside `recommend_action` is modelled one child at a time, interleaved with
steps of the program.

Simplification: the node's own data is read in one step, and so is what is read of one child.
-/

namespace Verif.Prog

open Verif.Search (DNode CNode View find?)
open Verif.LockLevel (FSt Loc ownView)

/-- What the loop of a recommendation does next. -/
inductive Item (A : Type) where
  /-- `has_child_node(action)`, then `get_child_node(action)`: the loops over the valid actions (uct_decision_node.cpp:208-211,
  228-231, ments_decision_node.cpp:268-275, 289-292; thts_decision_node.cpp:165-175) -/
  | ask (a : A)
  /-- the next entry of the map of children (dp_decision_node.cpp:30-38, emp_node.cpp:30-38) -/
  | entry (a : A) (c : Nat)
  deriving DecidableEq, Repr

/-- A thread inside `recommend_action` of a decision node: the node, what it read of the node itself, the rest of its loop, and what it
has read of the children. -/
structure Reader (S A R X Y : Type) where
  node : Nat
  own : DNode S A R X
  todo : List (Item A)
  seen : List (A × Nat × Y)

section
variable {S A R X Y : Type} [DecidableEq S] [DecidableEq A] [Add R] [Zero R]

/-- A recommendation that loops over the valid actions (uct_decision_node.cpp:204-253, ments_decision_node.cpp:262-314). -/
def overActions (env : Search.Env S A R) (f : FSt S A R X Y) (d : Nat) : Option (Reader S A R X Y) :=
  (f.dn[d]?).map fun nd => { node := d, own := nd, todo := (env.actions nd.state).map .ask, seen := [] }

/-- A recommendation that loops over the children (dp_decision_node.cpp:24-46, emp_node.cpp:24-45). -/
def overChildren (f : FSt S A R X Y) (d : Nat) : Option (Reader S A R X Y) :=
  (f.dn[d]?).map fun nd => { node := d, own := nd, todo := nd.kids.map fun k => .entry k.1 k.2, seen := [] }

/-- What the next turn of the loop reads. -/
def Reader.reads (r : Reader S A R X Y) (f : FSt S A R X Y) : List Loc :=
  match r.todo with
  | [] => []
  | .ask a :: _ => .d r.node :: (((f.dn[r.node]?).bind fun nd => find? a nd.kids).map Loc.c).toList
  | .entry _ c :: _ => [.d r.node, .c c]

/-- One turn of the loop.  `none`: the loop is over, or it reads something that does not exist. -/
def Reader.next (r : Reader S A R X Y) (f : FSt S A R X Y) : Option (Reader S A R X Y) :=
  match r.todo with
  | [] => none
  | .ask a :: rest =>
    match f.dn[r.node]? with
    | none => none
    | some nd =>
      match find? a nd.kids with
      | none => some { r with todo := rest }
      | some c => (f.cn[c]?).map fun nc => { r with todo := rest, seen := r.seen ++ [(a, nc.visits, nc.y)] }
  | .entry a c :: rest => (f.cn[c]?).map fun nc => { r with todo := rest, seen := r.seen ++ [(a, nc.visits, nc.y)] }

/-- What the recommendation is computed from once the loop is over. -/
def Reader.view (env : Search.Env S A R) (m : Search.Manager S R) (r : Reader S A R X Y) : View S A X Y := ownView env m r.own r.seen

/-- What `EvalPolicy::update_step(action, obsv)` reads at node `d` (mc_eval.cpp:49-61). -/
def followReads (f : FSt S A R X Y) (d : Nat) (a : A) : List Loc :=
  .d d :: (((f.dn[d]?).bind fun nd => find? a nd.kids).map Loc.c).toList

/-- The program and the reading thread, interleaved: `none` is a turn of the reader's loop. -/
def readExec (env : Search.Env S A R) (m : Search.Manager S R) (hash : Int × S → Nat) (alg : Search.Alg S A R X Y)
    (code : LockLevel.Code S A R X Y) (s : St S A R X Y) (h : List (Event S A R)) (r : Reader S A R X Y) :
    List (Option (Label S A)) → Option (St S A R X Y × List (Event S A R) × Reader S A R X Y)
  | [] => some (s, h, r)
  | none :: ls => match r.next s.search with
    | none => none
    | some r' => readExec env m hash alg code s h r' ls
  | some l :: ls => match step env m hash alg code s l with
    | none => none
    | some (s', es) => readExec env m hash alg code s' (es ++ h) r ls

end

end Verif.Prog
