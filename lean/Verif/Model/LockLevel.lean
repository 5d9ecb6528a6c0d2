import Verif.Model.Search

/-!
# The search at the level of mutexes and single memory accesses

`Verif.Model.Search` executes a whole block of code (everything a worker does while it holds one node's lock) in one step.  Here a
step is a single lock operation or a single access to one node (or to the transposition table), so workers interleave inside blocks:
`thts.cpp:134-165, 212-218`, `lock_all_children`/`unlock_all_children` (thts_decision_node.cpp:67-80, thts_chance_node.cpp:63-76,
include/algorithms/common/*.h), `create_child_node_itfc` (thts_decision_node.cpp:113-118, thts_chance_node.cpp:97-130).
`Verif.Proofs.LockMain` proves that this finer program does nothing that the coarser one does not do.

Simplifications: the mutable fields of one node (visit count, children map, algorithm data) are one memory cell; the fields that never
change (`state`, `decision_depth`, `decision_timestep`, `heuristic_value`) are read without any access being recorded, as in
the code (thts.cpp:98, 153, 163); a block writes the new values of a node's fields in one access, at the place of the last
assignment in the code; the draws of a selection are made when the children have been read (the code draws after unlocking them), and a node that
the block creates gets its address then; the logger and the mutex of the random number generator are left out (see
`Verif.Model.Locks`).
-/

namespace Verif.LockLevel

open Verif.Search

/-- Mutexes: `node_lock` of a decision node, of a chance node; an element of `dmap_mutexes`. -/
inductive Lk where
  | d (i : Nat)
  | c (i : Nat)
  | t (j : Nat)
  deriving DecidableEq, Repr

/-- How the code of an algorithm reads the children: under `lock_all_children`, or not at all. -/
structure Code (S A R X Y : Type) where
  /-- may `select_action` return `a` without locking the children?  Sees the node itself and for which actions it has children. -/
  selBlind : View S A X Y → List A → Ctx A R → A → Bool
  /-- how often `backup` of a decision node locks and reads children -/
  nD : Nat
  /-- which children it locks -/
  readsD : View S A X Y → Ctx A R → A → Bool
  /-- the new data, from the node itself and what was read each time -/
  resD : View S A X Y → List (List (A × Nat × Y)) → Ctx A R → BArgs R → X
  /-- how often `backup` of a chance node locks and reads all children -/
  nC : Nat
  resC : S → A → Y → List (List (S × X)) → BArgs R → Y

/-- What remains to be done in a block after its outcome is known. -/
inductive Act (S X Y A : Type) where
  /-- `unlock` -/
  | rel (l : Lk)
  /-- `children[action] = child` at decision node `d` (thts_decision_node.cpp:116) -/
  | kidD (d : Nat) (a : A) (c : Nat)
  /-- `children[observation] = child` at chance node `c` (thts_chance_node.cpp:104, 122, 127) -/
  | kidC (c : Nat) (o : S) (d : Nat)
  /-- assignment to the data of decision node `d` -/
  | setX (d : Nat) (x : X)
  /-- assignment to the data of chance node `c` -/
  | setY (c : Nat) (y : Y)
  /-- `dmap[dnode_id] = child` (thts_chance_node.cpp:128) -/
  | ins (k : Int × S) (d : Nat)
  deriving DecidableEq, Repr

/-- Where a worker is.  `p` is the position of `Verif.Search.Phase` at which the current block began. -/
inductive Pc (S A R X Y : Type) where
  /-- between blocks -/
  | out (p : Phase S A R)
  /-- holds the lock of the node (thts.cpp:134, 141, 162, 212, 216) -/
  | own (p : Phase S A R)
  /-- has called `visit_itfc` (thts.cpp:135, 143) -/
  | vis (p : Phase S A R)
  /-- a decision node locks children: what was read in earlier rounds, locks held, locks still to be taken -/
  | lockD (p : Phase S A R) (snaps : List (List (A × Nat × Y))) (held todo : List Nat)
  /-- it reads them: what was read in this round, children still to be read -/
  | readD (p : Phase S A R) (snaps : List (List (A × Nat × Y))) (held : List Nat) (acc : List (A × Nat × Y)) (todo : List (A × Nat))
  /-- it unlocks them before another round -/
  | relD (p : Phase S A R) (snaps : List (List (A × Nat × Y))) (held : List Nat)
  | lockC (p : Phase S A R) (snaps : List (List (S × X))) (held todo : List Nat)
  | readC (p : Phase S A R) (snaps : List (List (S × X))) (held : List Nat) (acc : List (S × X)) (todo : List (S × Nat))
  | relC (p : Phase S A R) (snaps : List (List (S × X))) (held : List Nat)
  /-- holds table mutex `j`, about to look the observation up (thts_chance_node.cpp:119) -/
  | tab (p : Phase S A R) (o : S) (j : Nat)
  /-- the outcome is known: rest of the block, then the next position -/
  | post (next : Phase S A R) (acts : List (Act S X Y A))
  deriving DecidableEq, Repr

/-- State: as `Verif.Search.St`, with the owner of every mutex. -/
structure FSt (S A R X Y : Type) where
  root : Nat
  dn : List (DNode S A R X)
  cn : List (CNode S A R Y)
  table : List ((Int × S) × Option Nat)
  lock : Lk → Option Nat
  ws : List (Pc S A R X Y)
  ctxs : List (Ctx A R)
  crashed : Option Err

/-- A scheduling decision. -/
inductive FChoice (S A : Type) where
  | go
  | act (a : A)
  | obs (o : S)
  /-- lock the children in this order: the iteration order of the `unordered_map` -/
  | order (ks : List Nat)
  deriving DecidableEq, Repr

section
variable {S A R X Y : Type} [DecidableEq S] [DecidableEq A] [Add R] [Zero R]

def FSt.setW (f : FSt S A R X Y) (w : Nat) (p : Pc S A R X Y) : FSt S A R X Y := { f with ws := f.ws.set w p }

/-- The context of worker `w`'s trial, thts.cpp:253. -/
def FSt.ctxOf (f : FSt S A R X Y) (w : Nat) : Ctx A R := (f.ctxs[w]?).getD {}

/-- `mutex::lock` (possible only while nobody holds the mutex), `mutex::unlock`. -/
def FSt.setLock (f : FSt S A R X Y) (l : Lk) (v : Option Nat) : FSt S A R X Y :=
  { f with lock := fun l' => if l' = l then v else f.lock l' }

/-- State of a freshly constructed search; no mutex is held. -/
def finit (env : Env S A R) (m : Manager S R) (alg : Alg S A R X Y) (k : Nat) (s0 : S) (depth time : Int)
    (table : List ((Int × S) × Option Nat)) : FSt S A R X Y :=
  { root := 0, dn := [newD env m alg s0 depth time], cn := [], table := table, lock := fun _ => none,
    ws := List.replicate k (.out .idle), ctxs := List.replicate k {}, crashed := none }

/-- The process dies. -/
def fcrash (f : FSt S A R X Y) (w : Nat) (e : Err) : Option (FSt S A R X Y × Option (Event S A R)) :=
  some ({ f with crashed := some e }, some (.crash w e))

/-- A step without an event. -/
def tau (f : FSt S A R X Y) : Option (FSt S A R X Y × Option (Event S A R)) := some (f, none)

/-- Acquire mutex `l` and go to `p`. -/
def acquire (f : FSt S A R X Y) (w : Nat) (l : Lk) (p : Pc S A R X Y) : Option (FSt S A R X Y × Option (Event S A R)) :=
  match f.lock l with
  | none => tau ((f.setLock l (some w)).setW w p)
  | some _ => none

/-- What the code sees of a decision node it holds, with the children data `ks` it has read. -/
def ownView (env : Env S A R) (m : Manager S R) (nd : DNode S A R X) (ks : List (A × Nat × Y)) : View S A X Y :=
  { state := nd.state, depth := nd.depth, time := nd.time, opp := isOpponent m nd.time, visits := nd.visits, x := nd.x,
    actions := env.actions nd.state, kids := ks }

/-- Decision node block: action `a` has been chosen after reading `ks`, children `held` are locked.  The child is created if there
is none (thts_decision_node.cpp:113-118), the children are unlocked, the lock is released (thts.cpp:136-138). -/
def outcomeSel (env : Env S A R) (m : Manager S R) (alg : Alg S A R X Y) (f : FSt S A R X Y) (w cur : Nat) (nd : DNode S A R X)
    (path : List (Nat × Nat)) (rewards : List R) (new : Bool) (ks : List (A × Nat × Y)) (held : List Nat) (a : A) :
    Option (FSt S A R X Y × Option (Event S A R)) :=
  let ctx := alg.selCtx (ownView env m nd ks) (f.ctxOf w) a
  match find? a nd.kids with
  | some c =>
    some ({ f with ctxs := f.ctxs.set w ctx }.setW w
      (.post (.samp cur a c path rewards new) (held.map (fun k => Act.rel (.c k)) ++ [Act.rel (.d cur)])), some (.selected w cur a c))
  | none =>
    let c := f.cn.length
    some ({ f with ctxs := f.ctxs.set w ctx, cn := f.cn ++ [newC alg nd a] }.setW w
      (.post (.samp cur a c path rewards new) (held.map (fun k => Act.rel (.c k)) ++ [Act.kidD cur a c, Act.rel (.d cur)])), some (.selected w cur a c))

/-- Chance node block: observation `o` has been sampled and its child `d'` is known, newly constructed (`fresh`) or not; `acts` is
what remains to be done before the lock is released (thts.cpp:145-158). -/
def outcomeSamp (env : Env S A R) (f : FSt S A R X Y) (w cur : Nat) (a : A) (c : Nat) (path : List (Nat × Nat)) (rewards : List R)
    (new : Bool) (o : S) (d' : Nat) (grew : Bool) (fresh : List (DNode S A R X)) (acts : List (Act S X Y A)) :
    Option (FSt S A R X Y × Option (Event S A R)) :=
  match f.dn[cur]? with
  | none => fcrash f w .dangling
  | some nd =>
    let r := env.reward nd.state a o
    some ({ f with dn := f.dn ++ fresh }.setW w (.post (.sel d' (path ++ [(cur, c)]) (rewards ++ [r]) (new || grew)) (acts ++ [Act.rel (.c c)])),
      some (.stepped w cur a c o d' r grew))

/-- The rest of a block, one access at a time. -/
def doAct (f : FSt S A R X Y) : Act S X Y A → FSt S A R X Y
  | .rel l => f.setLock l none
  | .kidD d a c => { f with dn := f.dn.modify d fun nd => { nd with kids := nd.kids ++ [(a, c)] } }
  | .kidC c o d => { f with cn := f.cn.modify c fun nc => { nc with kids := nc.kids ++ [(o, d)] } }
  | .setX d x => { f with dn := f.dn.modify d fun nd => { nd with x := x } }
  | .setY c y => { f with cn := f.cn.modify c fun nc => { nc with y := y } }
  | .ins k d => { f with table := f.table ++ [(k, some d)] }

/-- Chance node backup whose reads are complete (thts.cpp:213-214). -/
def outcomeBackC (code : Code S A R X Y) (f : FSt S A R X Y) (w : Nat) (d c : Nat) (nc : CNode S A R Y) (nodes : List (Nat × Nat))
    (before after : List R) (ret tot : R) (snaps : List (List (S × X))) (held : List Nat) :
    Option (FSt S A R X Y × Option (Event S A R)) :=
  let args : BArgs R := ⟨before, after, ret, tot⟩
  some (f.setW w (.post (.backD d nodes before after ret tot)
    (held.map (fun k => Act.rel (.d k)) ++ [.setY c (code.resC nc.state nc.action nc.y snaps args), .rel (.c c)])), some (.backedC w c args))

/-- Decision node backup whose reads are complete (thts.cpp:217-218). -/
def outcomeBackD (env : Env S A R) (m : Manager S R) (code : Code S A R X Y) (f : FSt S A R X Y) (w d : Nat) (nd : DNode S A R X)
    (nodes : List (Nat × Nat)) (before after : List R) (ret tot : R) (snaps : List (List (A × Nat × Y))) (held : List Nat) :
    Option (FSt S A R X Y × Option (Event S A R)) :=
  let args : BArgs R := ⟨before, after, ret, tot⟩
  some (f.setW w (.post (.back nodes before after ret tot)
    (held.map (fun k => Act.rel (.c k)) ++ [.setX d (code.resD (ownView env m nd []) snaps (f.ctxOf w) args), .rel (.d d)])),
    some (.backedD w d args))

/-- The children that a block of a decision node reads: all of them in `select_action`, those given by `readsD` in `backup`. -/
def kidsToRead (env : Env S A R) (m : Manager S R) (code : Code S A R X Y) (f : FSt S A R X Y) (w : Nat) (p : Phase S A R)
    (nd : DNode S A R X) : List (A × Nat) :=
  match p with
  | .backD _ _ _ _ _ _ => nd.kids.filter fun k => code.readsD (ownView env m nd []) (f.ctxOf w) k.1
  | _ => nd.kids

/-- One step of worker `w`.  `none`: not enabled (a mutex it wants is taken, or the choice does not fit).  `hash` is
`std::hash<DNodeIdTuple>`. -/
def fstep (env : Env S A R) (m : Manager S R) (hash : Int × S → Nat) (alg : Alg S A R X Y) (code : Code S A R X Y)
    (f : FSt S A R X Y) (w : Nat) (ch : FChoice S A) : Option (FSt S A R X Y × Option (Event S A R)) :=
  if f.crashed.isSome then none
  else match f.ws[w]?, ch with
  -- thts.cpp:253, 129-130
  | some (.out .idle), .go =>
    some ({ f with ctxs := f.ctxs.set w {} }.setW w (.out (.sel f.root [] [] false)), some (.began w))
  -- thts.cpp:134 or 162
  | some (.out (.sel cur path rewards new)), .go =>
    if cur < f.dn.length then acquire f w (.d cur) (.own (.sel cur path rewards new)) else fcrash f w .dangling
  -- thts.cpp:141
  | some (.out (.samp cur a c path rewards new)), .go =>
    if c < f.cn.length then acquire f w (.c c) (.own (.samp cur a c path rewards new)) else fcrash f w .dangling
  -- thts.cpp:201-212
  | some (.out (.back nodes before after ret tot)), .go =>
    match nodes.getLast? with
    | none => some (f.setW w (.out .idle), some (.completed w))
    | some (_, c) =>
      match before.getLast? with
      | none => fcrash f w .emptyVector
      | some _ =>
        if c < f.cn.length then acquire f w (.c c) (.own (.back nodes before after ret tot)) else fcrash f w .dangling
  -- thts.cpp:216
  | some (.out (.backD d nodes before after ret tot)), .go =>
    if d < f.dn.length then acquire f w (.d d) (.own (.backD d nodes before after ret tot)) else fcrash f w .dangling
  -- thts.cpp:135, or 163-164 and 189-199
  | some (.own (.sel cur path rewards new)), .go =>
    match f.dn[cur]? with
    | none => fcrash f w .dangling
    | some nd =>
      if shouldContinue env m nd new then
        tau ({ f with dn := f.dn.set cur { nd with visits := nd.visits + 1, x := alg.visitD false nd.x } }.setW w
          (.vis (.sel cur path rewards new)))
      else
        some ({ f with dn := f.dn.set cur { nd with visits := nd.visits + 1, x := alg.visitD (isLeaf env m nd) nd.x } }.setW w
          (.post (.back path rewards [nd.heur] nd.heur (total (rewards ++ [nd.heur]))) [Act.rel (.d cur)]), some (.ended w cur nd.heur))
  -- thts.cpp:136, without looking at the children
  | some (.vis (.sel cur path rewards new)), .act a =>
    match f.dn[cur]? with
    | none => fcrash f w .dangling
    | some nd =>
      if code.selBlind (ownView env m nd []) (nd.kids.map fun k => k.1) (f.ctxOf w) a then
        outcomeSel env m alg f w cur nd path rewards new [] [] a
      else none
  -- thts.cpp:136: lock_all_children
  | some (.vis (.sel cur path rewards new)), .order ks =>
    match f.dn[cur]? with
    | none => fcrash f w .dangling
    | some nd =>
      if ks.Perm (nd.kids.map fun k => k.2) then tau (f.setW w (.lockD (.sel cur path rewards new) [] [] ks)) else none
  | some (.lockD p snaps held (k :: todo)), .go =>
    if k < f.cn.length then acquire f w (.c k) (.lockD p snaps (held ++ [k]) todo) else fcrash f w .dangling
  | some (.lockD p snaps held []), .go =>
    match p with
    | .sel d _ _ _ | .backD d _ _ _ _ _ =>
      match f.dn[d]? with
      | none => fcrash f w .dangling
      | some nd => tau (f.setW w (.readD p snaps held [] (kidsToRead env m code f w p nd)))
    | _ => none
  | some (.readD p snaps held acc ((a, k) :: todo)), .go =>
    match f.cn[k]? with
    | none => fcrash f w .dangling
    | some nc => tau (f.setW w (.readD p snaps held (acc ++ [(a, nc.visits, nc.y)]) todo))
  | some (.readD (.sel cur path rewards new) _ held acc []), .act a =>
    match f.dn[cur]? with
    | none => fcrash f w .dangling
    | some nd =>
      if alg.canSelect (ownView env m nd acc) (f.ctxOf w) a then outcomeSel env m alg f w cur nd path rewards new acc held a else none
  -- thts.cpp:143
  | some (.own (.samp cur a c path rewards new)), .go =>
    match f.cn[c]? with
    | none => fcrash f w .dangling
    | some nc =>
      tau ({ f with cn := f.cn.set c { nc with visits := nc.visits + 1, y := alg.visitC nc.y } }.setW w (.vis (.samp cur a c path rewards new)))
  -- thts.cpp:144
  | some (.vis (.samp cur a c path rewards new)), .obs o =>
    match f.cn[c]? with
    | none => fcrash f w .dangling
    | some nc =>
      if o ∈ env.succ nc.state nc.action then
        match find? o nc.kids with
        | some d' => outcomeSamp env f w cur a c path rewards new o d' false [] []
        | none =>
          if m.useTable then
            if m.numMutexes = 0 then fcrash f w .noMutex
            else
              let j := mutexIndex m.numMutexes (hash (nc.time, o))
              acquire f w (.t j) (.tab (.samp cur a c path rewards new) o j)
          else
            outcomeSamp env f w cur a c path rewards new o f.dn.length true [newD env m alg o (nc.depth + 1) (nc.time + 1)]
              [.kidC c o f.dn.length]
      else none
  -- thts_chance_node.cpp:119-129
  | some (.tab (.samp cur a c path rewards new) o j), .go =>
    match f.cn[c]? with
    | none => fcrash f w .dangling
    | some nc =>
      match find? (nc.time, o) f.table with
      | some (some i) => outcomeSamp env f w cur a c path rewards new o i true [] [.kidC c o i, .rel (.t j)]
      | some none => fcrash f w .badWeakPtr
      | none =>
        outcomeSamp env f w cur a c path rewards new o f.dn.length true [newD env m alg o (nc.depth + 1) (nc.time + 1)]
          [.kidC c o f.dn.length, .ins (nc.time, o) f.dn.length, .rel (.t j)]
  -- thts.cpp:213
  | some (.own (.back nodes before after ret tot)), ch =>
    match nodes.getLast?, before.getLast? with
    | some (d, c), some r =>
      match f.cn[c]?, ch with
      | none, _ => fcrash f w .dangling
      | some nc, .go =>
        if code.nC = 0 then
          outcomeBackC code f w d c nc nodes.dropLast before.dropLast (after ++ [r]) (ret + r) tot [] []
        else none
      | some nc, .order ks =>
        if code.nC ≠ 0 ∧ ks.Perm (nc.kids.map fun k => k.2) then
          tau (f.setW w (.lockC (.back nodes before after ret tot) [] [] ks)) else none
      | some _, _ => none
    | _, _ => none
  | some (.lockC p snaps held (k :: todo)), .go =>
    if k < f.dn.length then acquire f w (.d k) (.lockC p snaps (held ++ [k]) todo) else fcrash f w .dangling
  | some (.lockC (.back nodes before after ret tot) snaps held []), .go =>
    match nodes.getLast?, before.getLast? with
    | some (_, c), some _ =>
      match f.cn[c]? with
      | none => fcrash f w .dangling
      | some nc => tau (f.setW w (.readC (.back nodes before after ret tot) snaps held [] nc.kids))
    | _, _ => none
  | some (.readC p snaps held acc ((o, k) :: todo)), .go =>
    match f.dn[k]? with
    | none => fcrash f w .dangling
    | some nd => tau (f.setW w (.readC p snaps held (acc ++ [(o, nd.x)]) todo))
  | some (.readC (.back nodes before after ret tot) snaps held acc []), .go =>
    match nodes.getLast?, before.getLast? with
    | some (d, c), some r =>
      match f.cn[c]? with
      | none => fcrash f w .dangling
      | some nc =>
        if snaps.length + 1 = code.nC then
          outcomeBackC code f w d c nc nodes.dropLast before.dropLast (after ++ [r]) (ret + r) tot (snaps ++ [acc]) held
        else tau (f.setW w (.relC (.back nodes before after ret tot) (snaps ++ [acc]) held))
    | _, _ => none
  | some (.relC p snaps (k :: held)), .go => tau ((f.setLock (.d k) none).setW w (.relC p snaps held))
  | some (.relC (.back nodes before after ret tot) snaps []), .order ks =>
    match nodes.getLast?, before.getLast? with
    | some (_, c), some _ =>
      match f.cn[c]? with
      | none => fcrash f w .dangling
      | some nc =>
        if ks.Perm (nc.kids.map fun k => k.2) then tau (f.setW w (.lockC (.back nodes before after ret tot) snaps [] ks)) else none
    | _, _ => none
  -- thts.cpp:217
  | some (.own (.backD d nodes before after ret tot)), ch =>
    match f.dn[d]?, ch with
    | none, _ => fcrash f w .dangling
    | some nd, .go =>
      if code.nD = 0 then outcomeBackD env m code f w d nd nodes before after ret tot [] [] else none
    | some nd, .order ks =>
      if code.nD ≠ 0 ∧ ks.Perm ((kidsToRead env m code f w (.backD d nodes before after ret tot) nd).map fun k => k.2) then
        tau (f.setW w (.lockD (.backD d nodes before after ret tot) [] [] ks)) else none
    | some _, _ => none
  | some (.readD (.backD d nodes before after ret tot) snaps held acc []), .go =>
    match f.dn[d]? with
    | none => fcrash f w .dangling
    | some nd =>
      if snaps.length + 1 = code.nD then
        outcomeBackD env m code f w d nd nodes before after ret tot (snaps ++ [acc]) held
      else tau (f.setW w (.relD (.backD d nodes before after ret tot) (snaps ++ [acc]) held))
  | some (.relD p snaps (k :: held)), .go => tau ((f.setLock (.c k) none).setW w (.relD p snaps held))
  | some (.relD (.backD d nodes before after ret tot) snaps []), .order ks =>
    match f.dn[d]? with
    | none => fcrash f w .dangling
    | some nd =>
      if ks.Perm ((kidsToRead env m code f w (.backD d nodes before after ret tot) nd).map fun k => k.2) then
        tau (f.setW w (.lockD (.backD d nodes before after ret tot) snaps [] ks)) else none
  -- the rest of a block
  | some (.post next (act :: acts)), .go => tau ((doAct f act).setW w (.post next acts))
  | some (.post next []), .go => tau (f.setW w (.out next))
  | _, _ => none

/-- Run a schedule; events are collected newest first. -/
def fexec (env : Env S A R) (m : Manager S R) (hash : Int × S → Nat) (alg : Alg S A R X Y) (code : Code S A R X Y)
    (f : FSt S A R X Y) (h : List (Event S A R)) : List (Nat × FChoice S A) → Option (FSt S A R X Y × List (Event S A R))
  | [] => some (f, h)
  | (w, ch) :: ls => match fstep env m hash alg code f w ch with
      | some (f', e) => fexec env m hash alg code f' (e.toList ++ h) ls
      | none => none

/-! ## Memory accesses -/

/-- Memory shared between workers: the mutable fields of a node, the transposition table. -/
inductive Loc where
  | d (i : Nat)
  | c (i : Nat)
  | table
  deriving DecidableEq, Repr

/-- The node whose lock the block beginning at a position takes. -/
def nodeOf : Phase S A R → Option Loc
  | .idle => none
  | .sel cur _ _ _ => some (.d cur)
  | .samp _ _ c _ _ _ => some (.c c)
  | .back nodes _ _ _ _ => nodes.getLast?.map fun p => .c p.2
  | .backD d _ _ _ _ _ => some (.d d)

/-- The accesses of the next step of a worker: location, and is it a write? -/
def accesses : Pc S A R X Y → List (Loc × Bool)
  | .out _ => []
  | .own (.sel cur _ _ _) => [(.d cur, true)]
  | .own (.samp _ _ c _ _ _) => [(.c c, true)]
  | .own p => (nodeOf p).toList.map fun l => (l, false)
  | .vis p => (nodeOf p).toList.map fun l => (l, false)
  | .lockD _ _ _ (_ :: _) => []
  | .lockD p _ _ [] => (nodeOf p).toList.map fun l => (l, false)
  | .readD _ _ _ _ ((_, k) :: _) => [(.c k, false)]
  | .readD p _ _ _ [] => (nodeOf p).toList.map fun l => (l, false)
  | .relD _ _ (_ :: _) => []
  | .relD p _ [] => (nodeOf p).toList.map fun l => (l, false)
  | .lockC _ _ _ (_ :: _) => []
  | .lockC p _ _ [] => (nodeOf p).toList.map fun l => (l, false)
  | .readC _ _ _ _ ((_, k) :: _) => [(.d k, false)]
  | .readC p _ _ _ [] => (nodeOf p).toList.map fun l => (l, false)
  | .relC _ _ (_ :: _) => []
  | .relC p _ [] => (nodeOf p).toList.map fun l => (l, false)
  | .tab p _ _ => (.table, false) :: (nodeOf p).toList.map fun l => (l, false)
  | .post _ [] => []
  | .post _ (.rel _ :: _) => []
  | .post _ (.kidD d _ _ :: _) => [(.d d, true)]
  | .post _ (.kidC c _ _ :: _) => [(.c c, true)]
  | .post _ (.setX d _ :: _) => [(.d d, true)]
  | .post _ (.setY c _ :: _) => [(.c c, true)]
  | .post _ (.ins _ _ :: _) => [(.table, true)]

/-- A data race: two workers are about to access the same location, at least one of them to write it. -/
def Race (f : FSt S A R X Y) : Prop :=
  ∃ (w1 w2 : Nat) (p1 p2 : Pc S A R X Y) (l : Loc) (b1 b2 : Bool), w1 ≠ w2 ∧ f.ws[w1]? = some p1 ∧ f.ws[w2]? = some p2 ∧
    (l, b1) ∈ accesses p1 ∧ (l, b2) ∈ accesses p2 ∧ (b1 = true ∨ b2 = true)

end

end Verif.LockLevel
