/-!
# Model of a search: shared tree, concurrent trials (src/thts.cpp, src/thts_decision_node.cpp, src/thts_chance_node.cpp)

The tree is a heap of decision nodes `dn` and chance nodes `cn`; a node's identity (its `shared_ptr`) is its index.
Any number of workers run trials concurrently.  A step executes one block of code that holds one node's lock
(and, inside it, the locks of the children / of the transposition table), so different workers interleave between blocks.
Random choices (selected action, sampled observation) are supplied by the schedule, so every theorem
quantifies over every action selection rule and every random number generator.

The algorithm specific data of a node (`X` for decision nodes, `Y` for chance nodes) and the code that updates it
are the fields of an `Alg`; UCT, DP, ... are instances (`Verif.Model.Uct`, `Verif.Model.Dp`).

Failures of the real program (an uncaught exception in a worker terminates the process, a dangling access is
undefined behaviour) are the explicit outcome `crashed`, after which nothing runs.

Simplifications: the observation type equals the state type (every node class in /repo casts one to the
other, e.g. src/algorithms/uct/uct_chance_node.cpp:82); a child map is an association list in insertion order;
numbers are unbounded.
-/

namespace Verif.Search

/-- Ways in which the real program dies. -/
inductive Err where
  /-- `unordered_map::at` on a missing key (thts_decision_node.cpp:174, thts_chance_node.cpp:169) -/
  | outOfRange
  /-- access through an invalid pointer -/
  | dangling
  /-- `shared_ptr` from an expired `weak_ptr` (thts_chance_node.cpp:121) -/
  | badWeakPtr
  /-- index into an empty vector of mutexes (thts_chance_node.cpp:117) -/
  | noMutex
  /-- `back()` of an empty vector (thts.cpp:195, 202) -/
  | emptyVector
  deriving DecidableEq, Repr

/-- Arguments of a backup call, thts.cpp:213, 217. -/
structure BArgs (R : Type) where
  before : List R
  after : List R
  retAfter : R
  total : R
  deriving DecidableEq, Repr

/-- The entries that node classes keep in a trial's context (`ThtsEnvContext`, src/thts_env_context.cpp; see `Verif.Model.Context` for
the string keyed map), by decision depth. -/
structure Ctx (A R : Type) where
  /-- "{depth}" ↦ selected action (tents_decision_node.cpp:39-41, 166, 176) -/
  acts : List (Int × A) := []
  /-- "d_{depth}" ↦ action distribution (rents_decision_node.cpp:27-35, 44, 51) -/
  distrs : List (Int × List (A × R)) := []
  deriving DecidableEq, Repr

/-- Decision node: the fields of `ThtsDNode` (include/thts_decision_node.h) plus algorithm data `x`. -/
structure DNode (S A R X : Type) where
  state : S
  depth : Int
  time : Int
  visits : Nat
  heur : R
  kids : List (A × Nat)
  x : X
  deriving DecidableEq, Repr

/-- Chance node: the fields of `ThtsCNode` (include/thts_chance_node.h) plus algorithm data `y`. -/
structure CNode (S A R Y : Type) where
  state : S
  action : A
  depth : Int
  time : Int
  visits : Nat
  kids : List (S × Nat)
  y : Y
  deriving DecidableEq, Repr

/-- The environment (include/thts_env.h) as far as the search uses it. -/
structure Env (S A R : Type) where
  isSink : S → Bool
  actions : S → List A
  succ : S → A → List S
  reward : S → A → S → R

/-- The manager (include/thts_manager.h). -/
structure Manager (S R : Type) where
  maxDepth : Int
  mctsMode : Bool
  twoPlayer : Bool
  useTable : Bool
  numMutexes : Nat
  /-- `heuristic_fn`; `none` is `nullptr` -/
  heuristic : Option (S → R)

/-- What the algorithm's code can see of a decision node while it holds the locks of the node and of its children. -/
structure View (S A X Y : Type) where
  state : S
  depth : Int
  time : Int
  /-- `is_opponent()` -/
  opp : Bool
  /-- `num_visits` -/
  visits : Nat
  /-- own data -/
  x : X
  /-- valid actions -/
  actions : List A
  /-- existing children: action, `num_visits`, data -/
  kids : List (A × Nat × Y)
  deriving DecidableEq, Repr

/-- Algorithm specific code. -/
structure Alg (S A R X Y : Type) where
  /-- constructor: initial visit count (UCT: pseudo trials, uct_decision_node.cpp:36-37; otherwise 0) -/
  initVisits : Nat
  /-- constructor of the decision node data, from state, depth, timestep and heuristic value -/
  initD : S → Int → Int → R → X
  /-- constructor of the chance node data -/
  initC : S → A → Int → Int → Y
  /-- extra work in `visit` (argument: is the node a leaf) -/
  visitD : Bool → X → X
  visitC : Y → Y
  /-- may `select_action` choose this action at a node with this view, for some random draws? -/
  canSelect : View S A X Y → Ctx A R → A → Bool
  /-- what `select_action` leaves in the context when it returns this action -/
  selCtx : View S A X Y → Ctx A R → A → Ctx A R := fun _ ctx _ => ctx
  /-- `backup` of a decision node -/
  backupD : View S A X Y → Ctx A R → BArgs R → X
  /-- `backup` of a chance node: state, action, own data, data of the children, arguments -/
  backupC : S → A → Y → List (S × X) → BArgs R → Y

/-- What a worker is doing: position inside `run_thts_trial`, thts.cpp:249-258, with its local variables. -/
inductive Phase (S A R : Type) where
  /-- between trials -/
  | idle
  /-- at the loop test of line 132 with `cur_node`, path so far, rewards so far, `new_decision_node_created_this_trial` -/
  | sel (cur : Nat) (path : List (Nat × Nat)) (rewards : List R) (new : Bool)
  /-- at line 141: action chosen, about to lock the chance node -/
  | samp (cur : Nat) (a : A) (c : Nat) (path : List (Nat × Nat)) (rewards : List R) (new : Bool)
  /-- at the loop test of line 201: remaining nodes, `rewards_before`, `rewards_after`, `total_return_after`, `total_return` -/
  | back (nodes : List (Nat × Nat)) (before after : List R) (retAfter total : R)
  /-- at line 216: the chance node of the pair has been backed up, the decision node `d` is next -/
  | backD (d : Nat) (nodes : List (Nat × Nat)) (before after : List R) (retAfter total : R)
  deriving DecidableEq, Repr

/-- State of the search. -/
structure St (S A R X Y : Type) where
  root : Nat
  dn : List (DNode S A R X)
  cn : List (CNode S A R Y)
  /-- `dmap`: (timestep, observation) ↦ node; `none` is an expired `weak_ptr` left by a destroyed tree -/
  table : List ((Int × S) × Option Nat)
  ws : List (Phase S A R)
  /-- the context of each worker's trial -/
  ctxs : List (Ctx A R)
  crashed : Option Err
  deriving DecidableEq, Repr

/-- What happened, in terms of the documented trial steps. `w` is the worker. -/
inductive Event (S A R : Type) where
  | began (w : Nat)
  /-- decision node `d` was visited and selected `a`, whose chance node is `c` -/
  | selected (w d : Nat) (a : A) (c : Nat)
  /-- chance node `c` was visited and sampled `o`, whose node is `d'`; reward; did the chance node gain a child -/
  | stepped (w d : Nat) (a : A) (c : Nat) (o : S) (d' : Nat) (r : R) (grew : Bool)
  /-- the trial's last node `d` was visited, its heuristic value `h` was recorded -/
  | ended (w d : Nat) (h : R)
  | backedC (w c : Nat) (args : BArgs R)
  | backedD (w d : Nat) (args : BArgs R)
  | completed (w : Nat)
  | crash (w : Nat) (e : Err)
  deriving DecidableEq, Repr

/-- A scheduling decision: which worker runs, and the random choice it makes (if its next block makes one). -/
inductive Choice (S A : Type) where
  | go
  | act (a : A)
  | obs (o : S)
  deriving DecidableEq, Repr

section
variable {S A R X Y : Type} [DecidableEq S] [DecidableEq A] [Add R] [Zero R]

/-- `children.find` / `children.at` on a child map, thts_decision_node.cpp:165-175, thts_chance_node.cpp:160-170. -/
def find? {K V : Type} [DecidableEq K] (k : K) : List (K × V) → Option V
  | [] => none
  | (k', v) :: l => if k' = k then some v else find? k l

/-- `is_leaf`, thts_decision_node.cpp:92-101. -/
def isLeaf (env : Env S A R) (m : Manager S R) (d : DNode S A R X) : Bool :=
  env.isSink d.state || decide (m.maxDepth ≤ d.depth)

/-- `is_opponent`, thts_decision_node.cpp:141-144 and thts_chance_node.cpp:143-146 (two's complement `& 1` is parity). -/
def isOpponent (m : Manager S R) (time : Int) : Bool :=
  m.twoPlayer && decide (time % 2 = 1)

/-- `heuristic_value` as set by the constructor, thts_decision_node.cpp:33-37. -/
def heurOf (env : Env S A R) (m : Manager S R) (s : S) : R :=
  match m.heuristic with
  | none => 0
  | some f => if env.isSink s then 0 else f s

/-- A new decision node: thts_decision_node.cpp:20-38 plus the algorithm's constructor. -/
def newD (env : Env S A R) (m : Manager S R) (alg : Alg S A R X Y) (s : S) (depth time : Int) : DNode S A R X :=
  { state := s, depth := depth, time := time, visits := alg.initVisits, heur := heurOf env m s, kids := [],
    x := alg.initD s depth time (heurOf env m s) }

/-- A new chance node: thts_chance_node.cpp:21-37 plus the algorithm's constructor, with the arguments passed by
`create_child_node_helper` of a decision node (uct_decision_node.cpp:279-287: same state, depth and timestep). -/
def newC (alg : Alg S A R X Y) (d : DNode S A R X) (a : A) : CNode S A R Y :=
  { state := d.state, action := a, depth := d.depth, time := d.time, visits := 0, kids := [],
    y := alg.initC d.state a d.depth d.time }

/-- State of a freshly constructed search: a root node, no children, `k` workers, possibly a table with left-overs. -/
def init (env : Env S A R) (m : Manager S R) (alg : Alg S A R X Y) (k : Nat) (s0 : S) (depth time : Int)
    (table : List ((Int × S) × Option Nat)) : St S A R X Y :=
  { root := 0, dn := [newD env m alg s0 depth time], cn := [], table := table,
    ws := List.replicate k .idle, ctxs := List.replicate k {}, crashed := none }

/-- `ThtsDNode::create_child_node_itfc`, thts_decision_node.cpp:113-118. -/
def createC (alg : Alg S A R X Y) (st : St S A R X Y) (d : Nat) (nd : DNode S A R X) (a : A) : St S A R X Y :=
  match find? a nd.kids with
  | some _ => st
  | none =>
    { st with cn := st.cn ++ [newC alg nd a],
              dn := st.dn.set d { nd with kids := nd.kids ++ [(a, st.cn.length)] } }

/-- Index of the table mutex, thts_chance_node.cpp:111-115. -/
def mutexIndex (numMutexes hash : Nat) : Nat :=
  if 1 < numMutexes then hash % numMutexes else 0

/-- `ThtsCNode::create_child_node_itfc`, thts_chance_node.cpp:97-130.  Child nodes get depth and timestep plus one
(uct_chance_node.cpp:80-89).  (The hash only selects a mutex; every index below `numMutexes` is fine.) -/
def createD (env : Env S A R) (m : Manager S R) (alg : Alg S A R X Y) (st : St S A R X Y) (c : Nat)
    (nc : CNode S A R Y) (o : S) : Except Err (St S A R X Y) :=
  match find? o nc.kids with
  | some _ => .ok st
  | none =>
    let fresh := newD env m alg o (nc.depth + 1) (nc.time + 1)
    let link (i : Nat) : List (CNode S A R Y) := st.cn.set c { nc with kids := nc.kids ++ [(o, i)] }
    if m.useTable then
      if m.numMutexes = 0 then .error .noMutex
      else match find? (nc.time, o) st.table with
        | some (some i) => .ok { st with cn := link i }
        | some none => .error .badWeakPtr
        | none =>
          .ok { st with dn := st.dn ++ [fresh], cn := link st.dn.length,
                        table := st.table ++ [((nc.time, o), some st.dn.length)] }
    else .ok { st with dn := st.dn ++ [fresh], cn := link st.dn.length }

/-- Visit counts and data of the children of a decision node, in map order. -/
def kidsY (st : St S A R X Y) (nd : DNode S A R X) : List (A × Nat × Y) :=
  nd.kids.filterMap (fun p => (st.cn[p.2]?).map (fun c => (p.1, c.visits, c.y)))

/-- What the code of a decision node sees. -/
def viewOf (env : Env S A R) (m : Manager S R) (st : St S A R X Y) (nd : DNode S A R X) : View S A X Y :=
  { state := nd.state, depth := nd.depth, time := nd.time, opp := isOpponent m nd.time, visits := nd.visits, x := nd.x,
    actions := env.actions nd.state, kids := kidsY st nd }

/-- Data of the children of a chance node, in map order. -/
def kidsX (st : St S A R X Y) (nc : CNode S A R Y) : List (S × X) :=
  nc.kids.filterMap (fun p => (st.dn[p.2]?).map (fun d => (p.1, d.x)))

/-- Sum of a list of rewards as computed by the loop of thts.cpp:189-190. -/
def total (rs : List R) : R := rs.foldl (· + ·) 0

def St.setW (st : St S A R X Y) (w : Nat) (p : Phase S A R) : St S A R X Y := { st with ws := st.ws.set w p }

/-- The context of worker `w`'s trial, thts.cpp:253. -/
def St.ctxOf (st : St S A R X Y) (w : Nat) : Ctx A R := (st.ctxs[w]?).getD {}

def St.setCtx (st : St S A R X Y) (w : Nat) (c : Ctx A R) : St S A R X Y := { st with ctxs := st.ctxs.set w c }

/-- The process dies. -/
def crash (st : St S A R X Y) (w : Nat) (e : Err) : Option (St S A R X Y × Event S A R) :=
  some ({ st with crashed := some e }, .crash w e)

/-- `should_continue_selection_phase`, thts.cpp:95-103. -/
def shouldContinue (env : Env S A R) (m : Manager S R) (d : DNode S A R X) (new : Bool) : Bool :=
  if isLeaf env m d then false
  else if m.mctsMode && new then false
  else true

/-- Decision node block of the selection phase, thts.cpp:134-138, with the selected action `a`. -/
def blockD (alg : Alg S A R X Y) (env : Env S A R) (m : Manager S R) (st : St S A R X Y) (w cur : Nat) (nd : DNode S A R X)
    (path : List (Nat × Nat)) (rewards : List R) (new : Bool) (a : A) : Option (St S A R X Y × Event S A R) :=
  -- line 135
  let nd1 := { nd with visits := nd.visits + 1, x := alg.visitD false nd.x }
  if alg.canSelect (viewOf env m st nd1) (st.ctxOf w) a then
    -- line 136: select_action creates the child
    let st1 := createC alg { st with dn := st.dn.set cur nd1 } cur nd1 a
    -- line 137
    match (st1.dn[cur]?).bind (fun nd2 => find? a nd2.kids) with
    | none => crash st w .outOfRange
    | some c => some ((st1.setCtx w (alg.selCtx (viewOf env m st nd1) (st.ctxOf w) a)).setW w (.samp cur a c path rewards new), .selected w cur a c)
  else none

/-- Final block of the selection phase, thts.cpp:162-165, followed by the (local) start of the backup phase, lines 189-199. -/
def blockEnd (alg : Alg S A R X Y) (env : Env S A R) (m : Manager S R) (st : St S A R X Y) (w cur : Nat)
    (nd : DNode S A R X) (path : List (Nat × Nat)) (rewards : List R) : Option (St S A R X Y × Event S A R) :=
  let nd1 := { nd with visits := nd.visits + 1, x := alg.visitD (isLeaf env m nd) nd.x }
  let rewards' := rewards ++ [nd.heur]
  match rewards'.getLast? with
  | none => crash st w .emptyVector
  | some h =>
    some ({ st with dn := st.dn.set cur nd1 }.setW w (.back path rewards'.dropLast [h] h (total rewards')),
          .ended w cur nd.heur)

/-- Chance node block, thts.cpp:141-158, with the sampled observation `o`. -/
def blockC (alg : Alg S A R X Y) (env : Env S A R) (m : Manager S R) (st : St S A R X Y) (w cur : Nat) (a : A) (c : Nat)
    (path : List (Nat × Nat)) (rewards : List R) (new : Bool) (o : S) : Option (St S A R X Y × Event S A R) :=
  match st.cn[c]?, st.dn[cur]? with
  | some nc, some nd =>
    if o ∈ env.succ nc.state nc.action then
      let nc1 := { nc with visits := nc.visits + 1, y := alg.visitC nc.y }
      match createD env m alg { st with cn := st.cn.set c nc1 } c nc1 o with
      | .error e => crash st w e
      | .ok st1 =>
        match st1.cn[c]? with
        | none => crash st w .dangling
        | some nc2 =>
          match find? o nc2.kids with
          | none => crash st w .outOfRange
          | some d' =>
            -- lines 142, 145-148
            let grew := decide (nc.kids.length < nc2.kids.length)
            let r := env.reward nd.state a o
            some (st1.setW w (.sel d' (path ++ [(cur, c)]) (rewards ++ [r]) (new || grew)),
                  .stepped w cur a c o d' r grew)
    else none
  | _, _ => crash st w .dangling

/-- Chance node part of one iteration of the backup loop, thts.cpp:202-214; end of the trial if no node is left. -/
def blockBackC (alg : Alg S A R X Y) (st : St S A R X Y) (w : Nat) (nodes : List (Nat × Nat)) (before after : List R)
    (retAfter tot : R) : Option (St S A R X Y × Event S A R) :=
  match nodes.getLast? with
  | none => some (st.setW w .idle, .completed w)
  | some (d, c) =>
    match before.getLast? with
    | none => crash st w .emptyVector
    | some r =>
      let before' := before.dropLast
      let after' := after ++ [r]
      let ret' := retAfter + r
      let args : BArgs R := ⟨before', after', ret', tot⟩
      match st.cn[c]? with
      | none => crash st w .dangling
      | some nc =>
        let nc1 := { nc with y := alg.backupC nc.state nc.action nc.y (kidsX st nc) args }
        some ({ st with cn := st.cn.set c nc1 }.setW w (.backD d nodes.dropLast before' after' ret' tot),
              .backedC w c args)

/-- Decision node part of one iteration of the backup loop, thts.cpp:216-218. -/
def blockBackD (alg : Alg S A R X Y) (env : Env S A R) (m : Manager S R) (st : St S A R X Y) (w d : Nat) (nodes : List (Nat × Nat))
    (before after : List R) (retAfter tot : R) : Option (St S A R X Y × Event S A R) :=
  let args : BArgs R := ⟨before, after, retAfter, tot⟩
  match st.dn[d]? with
  | none => crash st w .dangling
  | some nd =>
    let nd1 := { nd with x := alg.backupD (viewOf env m st nd) (st.ctxOf w) args }
    some ({ st with dn := st.dn.set d nd1 }.setW w (.back nodes before after retAfter tot), .backedD w d args)

/-- One step of worker `w`.  `none`: not enabled (no such worker, or the choice does not fit the block). -/
def step (env : Env S A R) (m : Manager S R) (alg : Alg S A R X Y) (st : St S A R X Y) (w : Nat) (ch : Choice S A) :
    Option (St S A R X Y × Event S A R) :=
  if st.crashed.isSome then none
  else match st.ws[w]? with
  | none => none
  | some .idle => match ch with
      -- thts.cpp:253, 129-130 (a new trial with an empty context; the pool decides when, see `Verif.Model.Pool`)
      | .go => some ((st.setCtx w {}).setW w (.sel st.root [] [] false), .began w)
      | _ => none
  | some (.sel cur path rewards new) =>
      match st.dn[cur]? with
      | none => crash st w .dangling
      | some nd =>
        if shouldContinue env m nd new then
          match ch with
          | .act a => blockD alg env m st w cur nd path rewards new a
          | _ => none
        else match ch with
          | .go => blockEnd alg env m st w cur nd path rewards
          | _ => none
  | some (.samp cur a c path rewards new) =>
      match ch with
      | .obs o => blockC alg env m st w cur a c path rewards new o
      | _ => none
  | some (.back nodes before after ret tot) =>
      match ch with
      | .go => blockBackC alg st w nodes before after ret tot
      | _ => none
  | some (.backD d nodes before after ret tot) =>
      match ch with
      | .go => blockBackD alg env m st w d nodes before after ret tot
      | _ => none

/-- Run a schedule; events are collected newest first. -/
def execFrom (env : Env S A R) (m : Manager S R) (alg : Alg S A R X Y) (st : St S A R X Y) (h : List (Event S A R)) :
    List (Nat × Choice S A) → Option (St S A R X Y × List (Event S A R))
  | [] => some (st, h)
  | (w, ch) :: ls => match step env m alg st w ch with
      | some (st', e) => execFrom env m alg st' (e :: h) ls
      | none => none

end

end Verif.Search
