import Verif.Model.Search

/-!
# Vocabulary for the search properties, over histories of trial events (newest event first) and over the tree
-/

namespace Verif.Search

variable {S A R X Y : Type} [DecidableEq S] [DecidableEq A]

/-! ## Reading the tree -/

/-- The child (chance node) of decision node `d` for action `a`. -/
def childC (st : St S A R X Y) (d : Nat) (a : A) : Option Nat :=
  (st.dn[d]?).bind (fun nd => find? a nd.kids)

/-- The child (decision node) of chance node `c` for observation `o`. -/
def childD (st : St S A R X Y) (c : Nat) (o : S) : Option Nat :=
  (st.cn[c]?).bind (fun nc => find? o nc.kids)

/-- The state of decision node `d`. -/
def stateOf (st : St S A R X Y) (d : Nat) : Option S := (st.dn[d]?).map DNode.state

/-! ## Reading the history -/

/-- The worker an event belongs to. -/
def Event.worker : Event S A R → Nat
  | .began w | .selected w _ _ _ | .stepped w _ _ _ _ _ _ _ | .ended w _ _ | .backedC w _ _ | .backedD w _ _
  | .completed w | .crash w _ => w

/-- Events of worker `w` since its current (or last) trial began, newest first. -/
def trialOf (w : Nat) : List (Event S A R) → List (Event S A R)
  | [] => []
  | e :: h =>
    if e.worker = w then
      match e with
      | .began _ => []
      | e => e :: trialOf w h
    else trialOf w h

/-- One step of a trial: from decision node `d` by action `a` (chance node `c`) and observation `o` to `d'`. -/
structure Step (S A R : Type) where
  d : Nat
  a : A
  c : Nat
  o : S
  d' : Nat
  r : R
  grew : Bool

def Event.step? : Event S A R → Option (Step S A R)
  | .stepped _ d a c o d' r g => some ⟨d, a, c, o, d', r, g⟩
  | _ => none

/-- The steps of the current (or last) trial of worker `w`, in chronological order. -/
def stepsOf (w : Nat) (h : List (Event S A R)) : List (Step S A R) :=
  ((trialOf w h).filterMap Event.step?).reverse

/-- Where the trial of worker `w` ended and with which heuristic value, if it has ended. -/
def endOf (w : Nat) (h : List (Event S A R)) : Option (Nat × R) :=
  ((trialOf w h).filterMap (fun e => match e with | .ended _ d v => some (d, v) | _ => none)).head?

/-- A backup call on a node. -/
inductive Call (R : Type) where
  | chance (c : Nat) (args : BArgs R)
  | decision (d : Nat) (args : BArgs R)
  deriving DecidableEq

def Event.call? : Event S A R → Option (Call R)
  | .backedC _ c args => some (.chance c args)
  | .backedD _ d args => some (.decision d args)
  | _ => none

/-- The backup calls made by the current (or last) trial of worker `w`, in chronological order. -/
def callsOf (w : Nat) (h : List (Event S A R)) : List (Call R) :=
  ((trialOf w h).filterMap Event.call?).reverse

/-! ## What a trial should look like -/

/-- `ss` is a path of the tree from node `d` to node `e`: every step takes an action valid in
the node's state, reaches a possible successor, follows the child links and earns the environment's reward for it. -/
def IsPath (env : Env S A R) (st : St S A R X Y) : Nat → List (Step S A R) → Nat → Prop
  | d, [], e => d = e
  | d, s :: ss, e =>
    s.d = d ∧ childC st d s.a = some s.c ∧ childD st s.c s.o = some s.d' ∧
    (∃ x, stateOf st d = some x ∧ s.a ∈ env.actions x ∧ s.o ∈ env.succ x s.a ∧ s.r = env.reward x s.a s.o) ∧
    IsPath env st s.d' ss e

/-- The backup arguments documented in thts.cpp:176-182 for the `i`-th pair of a trial with rewards `rs` and final
heuristic value `hv`. -/
def argsAt [Add R] [Zero R] (rs : List R) (hv : R) (i : Nat) : BArgs R where
  before := rs.take i
  after := hv :: (rs.drop i).reverse
  retAfter := (hv :: (rs.drop i).reverse).sum
  total := (rs ++ [hv]).sum

/-- The two backup calls for step `i`: chance node first. -/
def callsAt [Add R] [Zero R] (ss : List (Step S A R)) (hv : R) (i : Nat) : List (Call R) :=
  match ss[i]? with
  | none => []
  | some s => [.chance s.c (argsAt (ss.map Step.r) hv i), .decision s.d (argsAt (ss.map Step.r) hv i)]

/-- All backup calls of a trial, deepest pair first. -/
def expectedCalls [Add R] [Zero R] (ss : List (Step S A R)) (hv : R) : List (Call R) :=
  (List.range ss.length).reverse.flatMap (callsAt ss hv)

/-! ## Counting trials and visits -/

/-- Number of trials started. -/
def trialsBegun (h : List (Event S A R)) : Nat := h.countP (fun e => match e with | .began _ => true | _ => false)

/-- Number of trials finished. -/
def trialsCompleted (h : List (Event S A R)) : Nat := h.countP (fun e => match e with | .completed _ => true | _ => false)

/-- Number of trials whose selection phase ended at decision node `d`. -/
def trialsEndedAt (d : Nat) (h : List (Event S A R)) : Nat :=
  h.countP (fun e => match e with | .ended _ d' _ => d' == d | _ => false)

/-- Number of times a trial went through chance node `c` and on to decision node `d`. -/
def timesWent (c d : Nat) (h : List (Event S A R)) : Nat :=
  h.countP (fun e => match e with | .stepped _ _ _ c' _ d' _ _ => c' == c && d' == d | _ => false)

/-- Visit count of decision node `d`. -/
def visitsD (st : St S A R X Y) (d : Nat) : Nat := ((st.dn[d]?).map DNode.visits).getD 0

/-- Visit count of chance node `c`. -/
def visitsC (st : St S A R X Y) (c : Nat) : Nat := ((st.cn[c]?).map CNode.visits).getD 0

/-- No worker is in the middle of a trial. -/
def Quiescent (st : St S A R X Y) : Prop := ∀ (w : Nat) p, st.ws[w]? = some p → p = Phase.idle

/-- Number of actions selected by the current (or last) trial of worker `w`. -/
def selectionsOf (w : Nat) (h : List (Event S A R)) : Nat :=
  (trialOf w h).countP (fun e => match e with | .selected _ _ _ _ => true | _ => false)

/-- Number of blocks (critical sections) executed so far by the current (or last) trial of worker `w`. -/
def blocksOf (w : Nat) (h : List (Event S A R)) : Nat :=
  (trialOf w h).countP (fun e => match e with | .crash _ _ => false | _ => true)

/-! ## Reachability -/

/-- The selection rule only returns valid actions. -/
def Alg.Valid (alg : Alg S A R X Y) : Prop := ∀ v ctx a, alg.canSelect v ctx a = true → a ∈ v.actions


/-- Some schedule of `k` workers leads from a freshly constructed search (root state `s0`, depth `dp`, timestep `tm`,
table contents `tb`) to `st`, with history `h`. -/
def Reachable [Add R] [Zero R] (env : Env S A R) (m : Manager S R) (alg : Alg S A R X Y) (k : Nat) (s0 : S) (dp tm : Int)
    (tb : List ((Int × S) × Option Nat)) (st : St S A R X Y) (h : List (Event S A R)) : Prop :=
  ∃ ls, execFrom env m alg (init env m alg k s0 dp tm tb) [] ls = some (st, h)

/-- What trees destroyed earlier leave behind in a shared table: expired entries only. -/
def Leftover (tb : List ((Int × S) × Option Nat)) : Prop := ∀ p ∈ tb, p.2 = none

/-- `e` is a proper descendant of decision node `d`. -/
inductive Desc (st : St S A R X Y) : Nat → Nat → Prop where
  | step {d a c o e} (h1 : childC st d a = some c) (h2 : childD st c o = some e) : Desc st d e
  | trans {d e f} (h1 : Desc st d e) (h2 : Desc st e f) : Desc st d f

end Verif.Search
