import Verif.Model.Dents

/-!
# TENTS and RENTS (src/algorithms/ments/tents/tents_decision_node.cpp, src/algorithms/ments/rents/rents_decision_node.cpp)

Real arithmetic.  Both classes derive from `MentsDNode` and override `compute_action_weights`; their chance nodes behave like
`MentsCNode`.  They keep data in the context of the trial.
-/

namespace Verif.Tents

open Verif.Search Verif.Sampling Verif.Backups Verif.Decay Verif.Ments Verif.Dents

variable {S A X Y : Type} [DecidableEq S] [DecidableEq A]

/-- `ThtsEnvContext::put_value` / `put_value_const` (src/thts_env_context.cpp): assignment through `operator[]` of a map. -/
def put {V : Type} (k : Int) (x : V) (l : List (Int × V)) : List (Int × V) := (l.filter fun p => p.1 ≠ k) ++ [(k, x)]

/-! ## Action distribution for given weights -/

/-- `compute_action_distribution` without the removal of near zero probabilities (ments_decision_node.cpp:190-226), for the weights
and the sum computed by the virtual function `compute_action_weights`. -/
noncomputable def fullDistrW (cfg : Cfg S A) (v : View S A X Y) (ws : Except Bad (List (A × ℝ) × ℝ)) : Except Bad (List (A × ℝ)) :=
  match ws, lambda cfg v with
  | .ok (ws, sum), .ok lam => interpolateAll cfg v lam sum v.actions.length ws
  | .error e, _ => .error e
  | .ok ([], _), .error _ => .ok []
  | .ok (_ :: _, _), .error e => .error e

/-- `compute_action_distribution` (ments_decision_node.cpp:190-231). -/
noncomputable def actionDistrW (cfg : Cfg S A) (v : View S A X Y) (ws : Except Bad (List (A × ℝ) × ℝ)) : Except Bad (List (A × ℝ)) :=
  match fullDistrW cfg v ws with
  | .ok l => .ok (l.filter fun p => ¬ p.2 < EPS)
  | .error e => .error e

/-- `select_action_ments` (ments_decision_node.cpp:240-248) and `select_action_rents` (rents_decision_node.cpp:128-137) without the
creation of the child, for the uniform number `u` and the iteration order `iter` of the distribution. -/
noncomputable def selectActionW (eps : ℝ) (cfg : Cfg S A) (v : View S A X Y) (ws : Except Bad (List (A × ℝ) × ℝ)) (u : ℝ)
    (iter : List (A × ℝ) → List (A × ℝ)) : Except Bad (Draw A) :=
  match actionDistrW cfg v ws with
  | .ok l => .ok (sampleFrom eps (iter l) true u)
  | .error e => .error e

/-- Can the selection return `a`, for some draw and map order? -/
noncomputable def selectableW (eps : ℝ) (cfg : Cfg S A) (v : View S A X Y) (ws : Except Bad (List (A × ℝ) × ℝ)) (a : A) : Bool :=
  @decide (∃ u iter, 0 ≤ u ∧ u < 1 ∧ (∀ l, List.Perm (iter l) l) ∧ selectActionW eps cfg v ws u iter = .ok (.key a))
    (Classical.propDecidable _)

/-- The uniform fallback of both classes (tents_decision_node.cpp:150-157, rents_decision_node.cpp:110-117). -/
noncomputable def orUniform (acts : List A) (ws : List (A × ℝ)) (sum : ℝ) : List (A × ℝ) × ℝ :=
  if sum < EPS then (acts.map fun a => (a, 1 / (acts.length : ℝ)), 1) else (ws, sum)

/-! ## TENTS -/

/-- What can go wrong in the constructor or in `backup` of `TentsDNode`. -/
inductive TErr where
  /-- `get_soft_q_value` fails -/
  | q (b : Bad)
  /-- the context has no entry for the node's key (tents_decision_node.cpp:176) -/
  | noEntry
  /-- `runtime_error("Error in updating Tents maps.")` (tents_decision_node.cpp:60) -/
  | broken
  /-- `act_to_qval.at` throws (tents_decision_node.cpp:104, 110) -/
  | outOfRange
  deriving DecidableEq, Repr

/-- Data of `TentsDNode` (tents_decision_node.h), for values of type `V` and the data `W` of `MentsDNode`. -/
structure TXV (A V W : Type) where
  soft : W
  /-- `qval_to_act`, a multimap: in increasing order of the values -/
  byVal : List (V × A)
  /-- `act_to_qval` -/
  byAct : List (A × V)

/-- With real numbers. -/
abbrev TX (A : Type) := TXV A ℝ Soft

section
variable {V W : Type} [LinearOrder V]

/-- `multimap::insert`: behind the entries with the same or a smaller key. -/
def insertVal (q : V) (a : A) : List (V × A) → List (V × A)
  | [] => [(q, a)]
  | (q', a') :: l => if q' ≤ q then (q', a') :: insertVal q a l else (q, a) :: (q', a') :: l

/-- `unordered_map::insert_or_assign`. -/
def assign (a : A) (q : V) (l : List (A × V)) : List (A × V) := (l.filter fun p => p.1 ≠ a) ++ [(a, q)]

/-- The loop of the constructor (tents_decision_node.cpp:33-37) for values computed already. -/
def fillMaps : List (A × V) → List (V × A) × List (A × V) → List (V × A) × List (A × V)
  | [], maps => maps
  | (a, q) :: l, maps => fillMaps l (insertVal q a maps.1, assign a q maps.2)

/-- The loop of `update_maps` (tents_decision_node.cpp:59-64) from an entry of the multimap on. -/
def eraseFrom (old : V) (a : A) : List (V × A) → Except TErr (List (V × A))
  | [] => .ok []
  | (q', a') :: l =>
    if q' ≠ old then .error .broken
    else if a' ≠ a then match eraseFrom old a l with
      | .ok l' => .ok ((q', a') :: l')
      | .error e => .error e
    else .ok l

/-- That loop, started at `qval_to_act.find(old)` (the first entry with that key; nothing happens if there is none). -/
def eraseVal (old : V) (a : A) : List (V × A) → Except TErr (List (V × A))
  | [] => .ok []
  | (q', a') :: l =>
    if q' = old then eraseFrom old a ((q', a') :: l)
    else match eraseVal old a l with
      | .ok l' => .ok ((q', a') :: l')
      | .error e => .error e

/-- `update_maps` (tents_decision_node.cpp:56-68); `act_to_qval[action]` is 0 if there is no entry. -/
def updateMaps [Zero V] (a : A) (q : V) (t : TXV A V W) : Except TErr (TXV A V W) :=
  let old := (find? a t.byAct).getD 0
  let byAct := t.byAct.filter fun p => p.1 ≠ a
  match eraseVal old a t.byVal with
  | .ok byVal => .ok { t with byVal := insertVal q a byVal, byAct := assign a q byAct }
  | .error e => .error e

/-- `act_to_qval.at` of several actions. -/
def atAll (byAct : List (A × V)) : List A → Except TErr (List V)
  | [] => .ok []
  | a :: l => match find? a byAct, atAll byAct l with
    | some q, .ok r => .ok (q :: r)
    | none, _ => .error .outOfRange
    | _, .error e => .error e

end

/-- The loop of `get_sparse_action_set` (tents_decision_node.cpp:82-90): `i` and `sum_values`. -/
noncomputable def sparseLoop : List (ℝ × A) → ℝ → ℝ → List A
  | [], _, _ => []
  | (value, a) :: rest, i, sum =>
    let sum' := sum + value
    if sum' < 1 + (i + 1) * value then a :: sparseLoop rest (i + 1) sum' else sparseLoop rest (i + 1) sum'

/-- `get_sparse_action_set` (tents_decision_node.cpp:78-92): highest value first. -/
noncomputable def sparseSet (byVal : List (ℝ × A)) : List A := sparseLoop byVal.reverse 0 0

/-- `spmax` (tents_decision_node.cpp:99-115). -/
noncomputable def spmax (t : TX A) : Except TErr ℝ :=
  match atAll t.byAct (sparseSet t.byVal) with
  | .ok vals =>
    let common := 0.5 * (vals.foldl (· + ·) 0 - 1) ^ 2 / (vals.length : ℝ) ^ 2
    .ok (vals.foldl (fun s x => s + (x ^ 2 / 2 - common)) 0.5)
  | .error e => .error e

/-- `compute_action_weights` (tents_decision_node.cpp:125-158); `q` is `get_soft_q_value`.  With an empty sparse set the common term
is `-1/0`, and the weights of the actions, if there are any, are infinite. -/
noncomputable def tentsWeights (cfg : Cfg S A) (q : A → Except Bad ℝ) (v : View S A X Y) (byVal : List (ℝ × A)) :
    Except Bad (List (A × ℝ) × ℝ) :=
  match qList q (sparseSet byVal), qList q v.actions with
  | .ok sq, .ok qs =>
    if sq = [] ∧ qs ≠ [] then .error .nan
    else
      let sumSparse := sq.foldl (fun s p => s + p.2 / getTemp cfg v) 0
      let common := (sumSparse - 1) / (sq.length : ℝ)
      let ws := qs.map fun p => (p.1, if p.2 / getTemp cfg v - common < 0 then 0 else p.2 / getTemp cfg v - common)
      .ok (orUniform v.actions ws (ws.foldl (fun s p => s + p.2) 0))
  | .error e, _ => .error e
  | .ok _, .error e => .error e

/-- `TentsDNode` constructor (tents_decision_node.cpp:20-42). -/
noncomputable def tentsInitD (cfg : Cfg S A) (env : Env S A ℝ) (m : Manager S ℝ) (s : S) (dep tim : Int) (heur : ℝ) : Except TErr (TX A) :=
  let v : View S A Unit Soft := newView env m s dep tim ()
  match qList (mentsQ cfg id v) v.actions with
  | .ok qs =>
    let maps := fillMaps (qs.map fun p => (p.1, p.2 / getTemp cfg v)) ([], [])
    .ok { soft := softInitD heur, byVal := maps.1, byAct := maps.2 }
  | .error e => .error (.q e)

/-- `TentsDNode::backup` (tents_decision_node.cpp:175-205, 210-218). -/
noncomputable def tentsBackupD (cfg : Cfg S A) (v : View S A (Except TErr (TX A)) Soft) (ctx : Ctx A ℝ) : Except TErr (TX A) :=
  match v.x with
  | .error e => .error e
  | .ok t =>
    match find? v.depth ctx.acts with
    | none => .error .noEntry
    | some a =>
      match mentsQ cfg id v a with
      | .error e => .error (.q e)
      | .ok q =>
        match updateMaps a (q / getTemp cfg v) t with
        | .error e => .error e
        | .ok t' =>
          match spmax t' with
          | .error e => .error e
          | .ok s => .ok { t' with soft := { n := t.soft.n + 1, val := some (oppCoeff v.opp * getTemp cfg v * s) } }

/-- The MENTS part of a node (after an exception there is none; the process has died). -/
def softOfX : Except TErr (TX A) → Soft
  | .ok t => t.soft
  | .error _ => { n := 0, val := none }

/-- The stored values of a node. -/
def byValOf : Except TErr (TX A) → List (ℝ × A)
  | .ok t => t.byVal
  | .error _ => []

/-- `MentsDNode::visit` (ments_decision_node.cpp:95-100) of a TENTS node. -/
def tentsVisit (leaf : Bool) : Except TErr (TX A) → Except TErr (TX A)
  | .ok t => .ok { t with soft := softVisit leaf t.soft }
  | .error e => .error e

/-- TENTS as an instance of the search schema; `TentsCNode` behaves like `MentsCNode`
(src/algorithms/ments/tents/tents_chance_node.cpp). -/
noncomputable def tents (eps : ℝ) (cfg : Cfg S A) (env : Env S A ℝ) (m : Manager S ℝ) (lr : S → A → ℝ) :
    Alg S A ℝ (Except TErr (TX A)) Soft where
  initVisits := 0
  initD s dep tim h := tentsInitD cfg env m s dep tim h
  initC _ _ _ _ := softInitC cfg
  visitD := tentsVisit
  visitC y := y
  canSelect v _ a := selectableW eps cfg v (tentsWeights cfg (mentsQ cfg id v) v (byValOf v.x)) a
  selCtx v ctx a := { ctx with acts := put v.depth a ctx.acts }
  backupD v ctx _ := tentsBackupD cfg v ctx
  backupC s a y kids _ := softBackupC (lr s a) (kids.map fun k => softOfX k.2) y

/-! ## RENTS -/

/-- `get_parent_distr_from_context` (rents_decision_node.cpp:42-45); `none` is `nullptr`. -/
def parentDistr (v : View S A X Y) (ctx : Ctx A ℝ) : Except Bad (Option (List (A × ℝ))) :=
  if v.depth < 1 then .ok none
  else match find? (v.depth - 1) ctx.distrs with
    | some l => .ok (some l)
    | none => .error .noEntry

/-- `get_parent_action_prob` (rents_decision_node.cpp:62-68). -/
def parentProb (parent : Option (List (A × ℝ))) (a : A) : ℝ :=
  match parent with
  | none => 1
  | some l => (find? a l).getD 0

/-- `compute_action_weights` (rents_decision_node.cpp:78-118): weights, sum and normalisation term. -/
noncomputable def rentsWeights (cfg : Cfg S A) (q : A → Except Bad ℝ) (v : View S A X Y) (ctx : Ctx A ℝ) :
    Except Bad (List (A × ℝ) × ℝ × ℝ) :=
  match qList q v.actions, parentDistr v ctx with
  | .ok qs, .ok parent =>
    let norm := normTerm (getTemp cfg v) qs cfg.low
    let ws := qs.map fun p => (p.1, Real.exp (p.2 / getTemp cfg v - norm) * parentProb parent p.1)
    let r := orUniform v.actions ws (ws.foldl (fun s p => s + p.2) 0)
    .ok (r.1, r.2, norm)
  | .error e, _ => .error e
  | .ok _, .error e => .error e

/-- Weights and sum. -/
noncomputable def rentsWS (cfg : Cfg S A) (q : A → Except Bad ℝ) (v : View S A X Y) (ctx : Ctx A ℝ) : Except Bad (List (A × ℝ) × ℝ) :=
  match rentsWeights cfg q v ctx with
  | .ok (ws, sum, _) => .ok (ws, sum)
  | .error e => .error e

/-- `backup_soft` (ments_decision_node.cpp:330-343) with those weights. -/
noncomputable def rentsBackupD (cfg : Cfg S A) (v : View S A Soft Soft) (ctx : Ctx A ℝ) : Soft :=
  { n := v.x.n + 1,
    val := match rentsWeights cfg (mentsQ cfg id v) v ctx with
      | .ok (_, sum, norm) => some (oppCoeff v.opp * getTemp cfg v * (Real.log sum + norm))
      | .error _ => none }

/-- What `select_action_rents` leaves in the context (rents_decision_node.cpp:129-131). -/
noncomputable def rentsSelCtx (cfg : Cfg S A) (v : View S A Soft Soft) (ctx : Ctx A ℝ) : Ctx A ℝ :=
  match actionDistrW cfg v (rentsWS cfg (mentsQ cfg id v) v ctx) with
  | .ok l => { ctx with distrs := put v.depth l ctx.distrs }
  | .error _ => ctx

/-- RENTS as an instance of the search schema; `RentsCNode` behaves like `MentsCNode`
(src/algorithms/ments/rents/rents_chance_node.cpp). -/
noncomputable def rents (eps : ℝ) (cfg : Cfg S A) (lr : S → A → ℝ) : Alg S A ℝ Soft Soft where
  initVisits := 0
  initD _ _ _ h := softInitD h
  initC _ _ _ _ := softInitC cfg
  visitD leaf x := softVisit leaf x
  visitC y := y
  canSelect v ctx a := selectableW eps cfg v (rentsWS cfg (mentsQ cfg id v) v ctx) a
  selCtx v ctx _ := rentsSelCtx cfg v ctx
  backupD v ctx _ := rentsBackupD cfg v ctx
  backupC s a y kids _ := softBackupC (lr s a) (kids.map fun k => k.2) y

end Verif.Tents
