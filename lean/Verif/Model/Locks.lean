/-!
# Lock acquisition (src/thts.cpp, src/thts_decision_node.cpp, src/thts_chance_node.cpp, include/thts_manager.h)

Which mutexes a worker acquires, in which order.  A worker works on one node at a time: it locks the node
(thts.cpp:134, 141, 162, 212, 216), and while it holds it
* may lock all children of the node one after the other and unlock them again (`lock_all_children`,
  thts_decision_node.cpp:67-80, thts_chance_node.cpp:63-76, include/algorithms/common/dp_chance_node.h:100-102, ...),
* may acquire and release a leaf mutex: the random number generator's (include/thts_manager.h:115, 125) or
  one of the transposition table's (thts_chance_node.cpp:117); nothing else is acquired while such a mutex is held, except
  that inside the table's critical section a child may be added,
* may add a child to the node.
After a trial the logger's mutex and then the root node's may be acquired (`try_log`, thts.cpp:266-281).

Nodes are numbers.  The order in which the children are locked is the iteration order of an `unordered_map`: any order.
`rank` is the depth of a node in the tree of alternating decision and chance nodes.
-/

namespace Verif.Locks

/-- What a thread holds and does next. `log`: it also holds the logger's mutex. -/
inductive Pc where
  | idle
  /-- waiting for the logger's mutex, then node `n` (thts.cpp:268) -/
  | wantLog (n : Nat)
  /-- waiting for node `n` (thts.cpp:134, 141, 162, 212, 216, 273) -/
  | want (log : Bool) (n : Nat)
  /-- holds `n` and the children `held` -/
  | own (log : Bool) (n : Nat) (held : List Nat)
  /-- in `lock_all_children`: holds `n` and `held`, still has to lock `todo` -/
  | lockKids (log : Bool) (n : Nat) (held todo : List Nat)
  /-- waiting for leaf mutex `l` -/
  | wantLeaf (log : Bool) (n : Nat) (held : List Nat) (l : Nat)
  | inLeaf (log : Bool) (n : Nat) (held : List Nat) (l : Nat)
deriving DecidableEq, Repr

/-- Mutexes. -/
inductive Mutex where
  | logger
  | node (n : Nat)
  | leaf (l : Nat)
deriving DecidableEq, Repr

/-- The mutexes a thread holds. -/
def Pc.holds : Pc → List Mutex
  | .idle => []
  | .wantLog _ => []
  | .want log _ => if log then [.logger] else []
  | .own log n held => (if log then [.logger] else []) ++ .node n :: held.map .node
  | .lockKids log n held _ => (if log then [.logger] else []) ++ .node n :: held.map .node
  | .wantLeaf log n held _ => (if log then [.logger] else []) ++ .node n :: held.map .node
  | .inLeaf log n held l => .leaf l :: ((if log then [.logger] else []) ++ .node n :: held.map .node)

/-- The mutex a thread is about to lock. -/
def Pc.wants : Pc → Option Mutex
  | .wantLog _ => some .logger
  | .want _ n => some (.node n)
  | .lockKids _ _ _ (c :: _) => some (.node c)
  | .wantLeaf _ _ _ l => some (.leaf l)
  | _ => none

/-- Tree edges (parent, child) and threads. -/
structure St where
  edges : List (Nat × Nat)
  ths : List Pc
deriving DecidableEq, Repr

/-- Children of a node. -/
def St.kids (st : St) (n : Nat) : List Nat := (st.edges.filter fun e => e.1 == n).map Prod.snd

/-- Is no thread holding the mutex? -/
def St.free (st : St) (x : Mutex) : Bool := st.ths.all fun p => !(p.holds.contains x)

/-- What a thread does. -/
inductive Act where
  | begin (n : Nat)
  | beginLog (n : Nat)
  /-- the pending `lock()` succeeds, or `lock_all_children` ends -/
  | acquire
  | lockKids (order : List Nat)
  | unlockKids
  | leaf (l : Nat)
  | unleaf
  | addChild (c : Nat)
  | release
deriving DecidableEq, Repr

/-- The edge `(n,c)` may be added: `c` is one level deeper, and without a transposition table it is a newly constructed
node, in no edge yet (thts_decision_node.cpp:113-118, thts_chance_node.cpp:97-130). -/
def mayAdd (shared : Bool) (rank : Nat → Nat) (st : St) (n c : Nat) : Bool :=
  rank c == rank n + 1 && !(st.edges.contains (n, c)) &&
    (shared || st.edges.all fun e => e.1 != c && e.2 != c)

/-- One step of thread `i`; `none`: not possible (in particular when the mutex is taken). -/
def step (shared : Bool) (rank : Nat → Nat) (st : St) (i : Nat) (a : Act) : Option St :=
  match st.ths[i]? with
  | none => none
  | some pc =>
    let set (p : Pc) : Option St := some { st with ths := st.ths.set i p }
    match pc, a with
    | .idle, .begin n => set (.want false n)
    | .idle, .beginLog n => set (.wantLog n)
    | .wantLog n, .acquire => if st.free .logger then set (.want true n) else none
    | .want log n, .acquire => if st.free (.node n) then set (.own log n []) else none
    | .own log n [], .lockKids order => if order.isPerm (st.kids n) then set (.lockKids log n [] order) else none
    | .lockKids log n held [], .acquire => set (.own log n held)
    | .lockKids log n held (c :: todo), .acquire =>
      if st.free (.node c) then set (.lockKids log n (held ++ [c]) todo) else none
    | .own log n _, .unlockKids => set (.own log n [])
    | .own log n held, .leaf l => set (.wantLeaf log n held l)
    | .wantLeaf log n held l, .acquire => if st.free (.leaf l) then set (.inLeaf log n held l) else none
    | .inLeaf log n held _, .unleaf => set (.own log n held)
    | .own _ n _, .addChild c =>
      if mayAdd shared rank st n c then some { st with edges := st.edges ++ [(n, c)] } else none
    | .inLeaf _ n _ _, .addChild c =>
      if mayAdd shared rank st n c then some { st with edges := st.edges ++ [(n, c)] } else none
    | .own _ _ [], .release => set .idle
    | _, _ => none

/-- A run. -/
def run (shared : Bool) (rank : Nat → Nat) (st : St) : List (Nat × Act) → Option St
  | [] => some st
  | (i, a) :: l => (step shared rank st i a).bind fun st' => run shared rank st' l

/-- No edges, all threads idle. -/
def init (k : Nat) : St := { edges := [], ths := List.replicate k .idle }

end Verif.Locks
