import Verif.Model.Sampling
import Verif.Model.Types

/-!
# Model of the environment template (include/templates/thts_env_template.h) and of the child creation of the chance node template

`V` are the objects with base class `Observation` (states are observations), `A` those with base class `Action`, `C` those with base
class `ThtsEnvContext`, `G` is the state of the random number generators behind `RandManager&`.  A `shared_ptr` is an address and an
object, or null.  `==` of objects is equality (C54).  A hash map is the list of its entries in iteration order; typed maps are keyed by
address, maps of the interface by object (C54).
-/

namespace Verif.Template
open Verif.Types (Ptr)
open Verif.Sampling (Draw sampleFrom)

variable {V A C G 𝕜 α : Type}

/-- How a call can go wrong. -/
inductive Bad where
  /-- dereference of a null pointer: undefined behaviour -/
  | nullDeref
  /-- `static_pointer_cast` of an object to a class it does not belong to: undefined behaviour when used -/
  | wrongType
  /-- the exception of src/thts_env.cpp:36 -/
  | runtimeError
  deriving DecidableEq, Repr

/-- A `shared_ptr`. -/
abbrev Sp (α : Type) := Option (Ptr α)

/-- `static_pointer_cast` to a class `is`: the pointer stays what it is.  (Casts to a base class always fit and are left out below.) -/
def cast (is : α → Bool) : Sp α → Except Bad (Sp α)
  | none => .ok none
  | some p => if is p.obj then .ok (some p) else .error .wrongType

/-- `insert_or_assign` into a map keyed by objects (the stored key stays). -/
def assign [DecidableEq α] (k : Ptr α) (v : 𝕜) : List (Ptr α × 𝕜) → List (Ptr α × 𝕜)
  | [] => [(k, v)]
  | (k', v') :: l => if k'.obj = k.obj then (k', v) :: l else (k', v') :: assign k v l

/-- `insert_or_assign` into a map keyed by pointers to a concrete type. -/
def assignTyped (k : Ptr α) (v : 𝕜) : List (Ptr α × 𝕜) → List (Ptr α × 𝕜)
  | [] => [(k, v)]
  | (k', v') :: l => if k'.addr = k.addr then (k', v) :: l else (k', v') :: assignTyped k v l

/-- The template with its functions filled in (thts_env_template.h:50-228): what a user writes. -/
structure Filled (V A C G 𝕜 : Type) where
  /-- objects of the classes `_S`, `_O`, `_A`, `_Context` (lines 6-10) -/
  isS : V → Bool
  isO : V → Bool
  isA : A → Bool
  isC : C → Bool
  /-- constructor argument, line 280 -/
  fullyObservable : Bool
  /-- `get_initial_state` -/
  init : Sp V
  /-- `is_sink_state` -/
  sink : Sp V → Bool
  /-- `get_valid_actions`; `none` is a null pointer, as in the unfilled template (line 293) -/
  actions : Sp V → Option (List (Ptr A))
  /-- `get_transition_distribution` -/
  trans : Sp V → Sp A → Option (List (Ptr V × 𝕜))
  /-- `sample_transition_distribution` -/
  sampleTrans : Sp V → Sp A → G → Sp V × G
  /-- `get_reward` -/
  reward : Sp V → Sp A → Sp V → 𝕜
  /-- own version of `get_observation_distribution` in place of the boilerplate, if any (comment at lines 319-324) -/
  ownObsDistr : Option (Sp A → Sp V → Option (List (Ptr V × 𝕜)))
  /-- own version of `sample_observation_distribution`, if any -/
  ownSampleObs : Option (Sp A → Sp V → G → Sp V × G)
  /-- own version of `sample_context`, if any -/
  ownContext : Option (Sp V → Sp C)

/-- The parts of the library the boilerplate calls: a freshly made `ThtsEnvContext` (src/thts_env.cpp:66), and the next real number in
`[0,1)` of the generators (include/thts_manager.h:124). -/
structure Lib (C G 𝕜 : Type) where
  newContext : Ptr C
  nextReal : G → 𝕜 × G

variable (e : Filled V A C G 𝕜)

/-- `get_initial_state_itfc`, thts_env_template.h:369-372. -/
def initItfc : Except Bad (Sp V) := .ok e.init

/-- `is_sink_state_itfc`, lines 374-377. -/
def sinkItfc (s : Sp V) : Except Bad Bool := do
  let s ← cast e.isS s
  return e.sink s

/-- `get_valid_actions_itfc`, lines 379-388: `*valid_actions_itfc` on a null pointer is undefined. -/
def actionsItfc (s : Sp V) : Except Bad (List (Ptr A)) := do
  let s ← cast e.isS s
  match e.actions s with
  | none => .error .nullDeref
  | some acts => return acts.foldl (fun valid act => valid ++ [act]) []

/-- `get_transition_distribution_itfc`, lines 390-404. -/
def transItfc [DecidableEq V] (s : Sp V) (a : Sp A) : Except Bad (List (Ptr V × 𝕜)) := do
  let s ← cast e.isS s
  let a ← cast e.isA a
  match e.trans s a with
  | none => .error .nullDeref
  | some distr => return distr.foldl (fun d p => assign p.1 p.2 d) []

/-- `sample_transition_distribution_itfc`, lines 406-413. -/
def sampleTransItfc (s : Sp V) (a : Sp A) (g : G) : Except Bad (Sp V × G) := do
  let s ← cast e.isS s
  let a ← cast e.isA a
  return e.sampleTrans s a g

/-- `get_reward_itfc`, lines 442-451. -/
def rewardItfc (s : Sp V) (a : Sp A) (o : Sp V) : Except Bad 𝕜 := do
  let s ← cast e.isS s
  let a ← cast e.isA a
  let o ← cast e.isO o
  return e.reward s a o

/-- `ThtsEnv::get_observation_distribution_itfc`, src/thts_env.cpp:27-37, for a next state that is not null. -/
def baseObsDistr [One 𝕜] (e : Filled V A C G 𝕜) (s : Ptr V) : Except Bad (List (Ptr V × 𝕜)) :=
  if e.fullyObservable then .ok [(s, 1)] else .error .runtimeError

/-- `distr->insert_or_assign(obsv, prob)` through a `shared_ptr<_ODistr>`, thts_env_template.h:336. -/
def intoTyped (distr : Option (List (Ptr V × 𝕜))) (k : Ptr V) (p : 𝕜) : Except Bad (Option (List (Ptr V × 𝕜))) :=
  match distr with
  | none => .error .nullDeref
  | some d => .ok (some (assignTyped k p d))

/-- `distr->insert_or_assign(obsv, prob)` through a `shared_ptr<ObservationDistr>`, thts_env_template.h:425. -/
def intoItfc [DecidableEq V] (distr : Option (List (Ptr V × 𝕜))) (k : Ptr V) (p : 𝕜) : Except Bad (Option (List (Ptr V × 𝕜))) :=
  match distr with
  | none => .error .nullDeref
  | some d => .ok (some (assign k p d))

/-- The boilerplate `get_observation_distribution`, thts_env_template.h:326-339: `distr` is declared at line 333 and never allocated. -/
def boilerObsDistr [One 𝕜] (s : Ptr V) : Except Bad (Option (List (Ptr V × 𝕜))) := do
  let itfc ← baseObsDistr e s
  itfc.foldlM (fun distr p => do
    let k ← cast e.isO (some p.1)
    match k with
    | none => .error .nullDeref
    | some k => intoTyped distr k p.2) none

/-- `get_observation_distribution`: the user's, or the boilerplate. -/
def typedObsDistr [One 𝕜] (a : Sp A) (s : Ptr V) : Except Bad (Option (List (Ptr V × 𝕜))) :=
  match e.ownObsDistr with
  | some f => .ok (f a (some s))
  | none => boilerObsDistr e s

/-- `get_observation_distribution_itfc`, thts_env_template.h:415-428: `distr` is declared at line 422 and never allocated. -/
def obsDistrItfc [One 𝕜] [DecidableEq V] (a : Sp A) (s : Ptr V) : Except Bad (Option (List (Ptr V × 𝕜))) := do
  let a ← cast e.isA a
  let _ ← cast e.isS (some s)
  match ← typedObsDistr e a s with
  | none => .error .nullDeref
  | some typed => typed.foldlM (fun distr p => intoItfc distr p.1 p.2) none

/-- What sampling an observation gives: a pointer, or an exception of `sample_from_distribution`. -/
abbrev Obsv (V G : Type) := Draw (Sp V) × G

/-- `ThtsEnv::sample_observation_distribution_itfc`, src/thts_env.cpp:46-57; the call at line 54 is virtual, so it is the template's
`get_observation_distribution_itfc`. -/
def baseSampleObs [Field 𝕜] [LinearOrder 𝕜] [DecidableEq V] (lib : Lib C G 𝕜) (eps : 𝕜) (a : Sp A) (s : Ptr V) (g : G) :
    Except Bad (Obsv V G) :=
  if e.fullyObservable then .ok (.key (some s), g)
  else do
    match ← obsDistrItfc e a s with
    | none => .error .nullDeref
    | some distr =>
      let (u, g) := lib.nextReal g
      match sampleFrom eps distr true u with
      | .key k => return (.key (some k), g)
      | .tooMuch => return (.tooMuch, g)
      | .tooLittle => return (.tooLittle, g)

/-- `sample_observation_distribution`: the user's, or the boilerplate of thts_env_template.h:341-351. -/
def typedSampleObs [Field 𝕜] [LinearOrder 𝕜] [DecidableEq V] (lib : Lib C G 𝕜) (eps : 𝕜) (a : Sp A) (s : Ptr V) (g : G) :
    Except Bad (Obsv V G) :=
  match e.ownSampleObs with
  | some f => .ok (.key (f a (some s) g).1, (f a (some s) g).2)
  | none => do
    match ← baseSampleObs e lib eps a s g with
    | (.key o, g) => return (.key (← cast e.isO o), g)
    | r => return r

/-- `sample_observation_distribution_itfc`, thts_env_template.h:430-440. -/
def sampleObsItfc [Field 𝕜] [LinearOrder 𝕜] [DecidableEq V] (lib : Lib C G 𝕜) (eps : 𝕜) (a : Sp A) (s : Ptr V) (g : G) :
    Except Bad (Obsv V G) := do
  let a ← cast e.isA a
  let _ ← cast e.isS (some s)
  typedSampleObs e lib eps a s g

/-- `sample_context_itfc`, thts_env_template.h:453-458, with the user's `sample_context` or the boilerplate of lines 353-358, which casts
the library's new `ThtsEnvContext` (src/thts_env.cpp:65-67) to `_Context`. -/
def contextItfc (lib : Lib C G 𝕜) (s : Sp V) : Except Bad (Sp C) := do
  let s ← cast e.isS s
  match e.ownContext with
  | some f => return f s
  | none => cast e.isC (some lib.newContext)

/-- What `_CNode::create_child_node_helper` (include/templates/thts_chance_node_template.h:319-329) gives the constructor of the child,
called through `create_child_node_helper_itfc` (lines 390-397): state, depth and timestep. -/
def childItfc (depth timestep : Int) (o next : Sp V) : Except Bad (Sp V × Int × Int) := do
  let o ← cast e.isO o
  let _ ← cast e.isS next
  let s ← cast e.isS o
  return (s, depth + 1, timestep + 1)

/-- Sampling at a chance node: `MentsCNode::sample_observation_random` (src/algorithms/ments/ments_chance_node.cpp:28, 41-47) and
`UctCNode::sample_observation_random` (src/algorithms/uct/uct_chance_node.cpp:27, 41-47) draw from the transition distribution the
environment gives through the interface; `iter` puts its entries in the order in which the map is traversed. -/
def sampleAtChanceNode [Field 𝕜] [LinearOrder 𝕜] [DecidableEq V] (eps : 𝕜) (iter : List (Ptr V × 𝕜) → List (Ptr V × 𝕜)) (s : Sp V) (a : Sp A)
    (u : 𝕜) : Except Bad (Draw (Ptr V)) := do
  let distr ← transItfc e s a
  return sampleFrom eps (iter distr) true u

end Verif.Template
