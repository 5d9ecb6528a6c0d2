import Verif.Model.Ments

/-!
# DB-MENTS, DENTS and EST (src/algorithms/ments/dbments_*.cpp, src/algorithms/ments/dents/*.cpp, src/algorithms/est/*.cpp)

Real arithmetic; `none` stands for a value that is not a number.

Simplifications:
* A `backup` of these nodes calls `lock_all_children` several times, once per mixin.  The model reads the children once, so it does
  not show a backup whose parts saw different states of the children; `Verif.Model.LockAlgs` does, see C79.
* An exception thrown by the constructor of `DentsDNode` (a prior that misses an action) shows in the model as an entropy that is
  not a number.
-/

namespace Verif.Dents

open Verif.Search Verif.Sampling Verif.Backups Verif.Decay Verif.Ments

variable {S A X Y : Type} [DecidableEq S] [DecidableEq A]

/-- `DentsManager` (include/algorithms/ments/dents/dents_manager.h). -/
structure DCfg (S A : Type) extends Cfg S A where
  /-- `value_temp_decay_fn`; `none` is `nullptr` -/
  valueDecay : Option (ℝ → ℝ)
  /-- `value_temp_init` -/
  valueInit : ℝ
  /-- `value_temp_decay_min_temp` -/
  valueMin : ℝ
  /-- `value_temp_decay_visits_scale` -/
  valueScale : ℝ
  /-- `value_temp_decay_root_node_visits_scale` -/
  valueRootScale : ℝ
  /-- `use_dp_value` -/
  useDp : Bool

/-- `DentsDNode::get_value_temp` (dents_decision_node.cpp:33-47), for a node at depth `depth` with `visits` visits. -/
noncomputable def valueTempD (cfg : DCfg S A) (depth : Int) (visits : Nat) : ℝ :=
  match cfg.valueDecay with
  | none => cfg.valueInit
  | some f =>
    let scale := if depth = 0 ∧ cfg.valueRootScale > 0 then cfg.valueRootScale else cfg.valueScale
    decayedTemp f cfg.valueInit cfg.valueMin visits scale

/-- `DentsCNode::get_value_temp` (dents_chance_node.cpp:31-41). -/
noncomputable def valueTempC (cfg : DCfg S A) (visits : Nat) : ℝ :=
  match cfg.valueDecay with
  | none => cfg.valueInit
  | some f => decayedTemp f cfg.valueInit cfg.valueMin visits cfg.valueScale

/-! ## Entropy data that may be not a number -/

/-- Data of `EntDNode` (ent_decision_node.h). -/
structure EntDO where
  n : Nat
  loc : Option ℝ
  sub : Option ℝ

/-- Data of `EntCNode` (ent_chance_node.h). -/
structure EntCO where
  n : Nat
  sub : Option ℝ

/-- The chance children's entropy data, if all are numbers. -/
def finiteEntC : List (A × EntCO) → Option (List (A × EntC))
  | [] => some []
  | (a, y) :: rest => match y.sub, finiteEntC rest with
    | some x, some l => some ((a, { n := y.n, sub := x }) :: l)
    | _, _ => none

/-- The decision children's entropy data, if all are numbers. -/
def finiteEntD : List EntDO → Option (List EntD)
  | [] => some []
  | x :: rest => match x.loc, x.sub, finiteEntD rest with
    | some lo, some su, some l => some ({ n := x.n, loc := lo, sub := su } :: l)
    | _, _, _ => none

/-- `EntDNode::backup_ent_impl` (ent_decision_node.cpp:34-54) with the policy computed by `compute_action_distribution`. -/
noncomputable def entD (opp : Bool) (policy : Except Bad (List (A × ℝ))) (kids : List (A × EntCO)) (x : EntDO) : EntDO :=
  match policy, finiteEntC kids with
  | .ok p, some l =>
    let r := entBackupD opp p l { n := x.n, loc := 0, sub := 0 }
    { n := r.n, loc := some r.loc, sub := some r.sub }
  | _, _ => { n := x.n + 1, loc := none, sub := none }

/-- `EntCNode::backup_ent_impl` (ent_chance_node.cpp:17-30).  Every decision node has been backed up by its constructor, so no child
is skipped. -/
noncomputable def entC (kids : List EntDO) (y : EntCO) : EntCO :=
  match finiteEntD kids with
  | some l =>
    let r := entBackupC l { n := y.n, sub := 0 }
    { n := r.n, sub := some r.sub }
  | none => { n := y.n + 1, sub := none }

/-! ## Node data -/

/-- Data of `DentsDNode`: MENTS, DP, empirical average and entropy. -/
structure DX where
  soft : Soft
  dp : Dp ℝ
  emp : Emp ℝ
  ent : EntDO

/-- Data of `DentsCNode`; `visits` is a copy of `num_visits`. -/
structure DY where
  visits : Nat
  soft : Soft
  dp : Dp ℝ
  emp : Emp ℝ
  ent : EntCO

/-- The value estimate of a child: `dp_value` or `avg_return` (dents_decision_node.cpp:64-65, est_decision_node.cpp:31). -/
def estimate (cfg : DCfg S A) (dp : Dp ℝ) (emp : Emp ℝ) : Option ℝ := if cfg.useDp then dp.val else some emp.avg

/-- `DentsDNode::get_soft_q_value` (dents_decision_node.cpp:57-67). -/
noncomputable def dentsQ (cfg : DCfg S A) (v : View S A X DY) (a : A) : Except Bad ℝ :=
  match find? a v.kids with
  | none => mentsQ cfg.toCfg DY.soft v a
  | some (_, y) => match estimate cfg y.dp y.emp, y.ent.sub with
    | some val, some ent => .ok (oppCoeff v.opp * (val + valueTempD cfg v.depth v.visits * ent))
    | _, _ => .error .nan

/-- `EstDNode::get_soft_q_value` (est_decision_node.cpp:27-36). -/
noncomputable def estQ (cfg : DCfg S A) (v : View S A X DY) (a : A) : Except Bad ℝ :=
  match find? a v.kids with
  | some (_, y) => match estimate cfg y.dp y.emp with
    | some val => .ok (val * oppCoeff v.opp)
    | none => .error .nan
  | none => mentsQ cfg.toCfg DY.soft v a

/-- The node as the constructor of `DentsDNode` sees it: no visits, no children. -/
def newView (env : Env S A ℝ) (m : Manager S ℝ) (s : S) (dep tim : Int) (x : X) : View S A X Y :=
  { state := s, depth := dep, time := tim, opp := isOpponent m tim, actions := env.actions s, visits := 0, x := x, kids := [] }

/-- `DentsDNode` constructor (dents_decision_node.cpp:8-28, dbments_decision_node.cpp:6-20): the entropy is initialised by a backup
with the policy of the new node. -/
noncomputable def dentsInitD (cfg : DCfg S A) (env : Env S A ℝ) (m : Manager S ℝ) (s : S) (dep tim : Int) (heur : ℝ) : DX :=
  let x : DX := { soft := softInitD heur, dp := dpInitD heur, emp := { n := 1, avg := heur }, ent := { n := 0, loc := some 0, sub := some 0 } }
  let v : View S A DX DY := newView env m s dep tim x
  { x with ent := entD v.opp (actionDistr cfg.toCfg (dentsQ cfg v) v) [] x.ent }

/-- `DentsCNode` constructor (dents_chance_node.cpp:9-27, dbments_chance_node.cpp:9-25). -/
noncomputable def dentsInitC (cfg : DCfg S A) : DY :=
  { visits := 0, soft := softInitC cfg.toCfg, dp := dpInitC, emp := { n := 0, avg := 0 }, ent := { n := 0, sub := some 0 } }

/-- `DBMentsDNode::visit` (dbments_decision_node.cpp:25-28). -/
def dentsVisitD (leaf : Bool) (x : DX) : DX := { x with soft := softVisit leaf x.soft, dp := dpVisit leaf x.dp }

/-- The value part of `DentsDNode::backup` and `EstDNode::backup` (dents_decision_node.cpp:117-125, est_decision_node.cpp:52-58). -/
noncomputable def valueBackupD (cfg : DCfg S A) (v : View S A DX DY) (ret : ℝ) : Dp ℝ × Emp ℝ :=
  if cfg.useDp then (dpBackupD v.opp (v.kids.map fun k => k.2.2.dp) v.x.dp, v.x.emp)
  else (v.x.dp, empBackup v.x.emp ret)

/-- The value part of `DentsCNode::backup` and `EstCNode::backup` (dents_chance_node.cpp:60-69, est_chance_node.cpp:40-46). -/
noncomputable def valueBackupC (cfg : DCfg S A) (localReward : ℝ) (kids : List (S × DX)) (y : DY) (ret : ℝ) : Dp ℝ × Emp ℝ :=
  if cfg.useDp then (dpBackupC localReward (kids.map fun k => k.2.dp) y.dp, y.emp) else (y.dp, empBackup y.emp ret)

/-- `val_estimate + get_value_temp() * subtree_entropy` (dents_decision_node.cpp:128, dents_chance_node.cpp:72). -/
noncomputable def softOf (temp : ℝ) : Option ℝ → Option ℝ → Option ℝ
  | some val, some ent => some (val + temp * ent)
  | _, _ => none

/-- `DentsDNode::backup` (dents_decision_node.cpp:102-129). -/
noncomputable def dentsBackupD (cfg : DCfg S A) (v : View S A DX DY) (ret : ℝ) : DX :=
  let ent := entD v.opp (actionDistr cfg.toCfg (dentsQ cfg v) v) (v.kids.map fun k => (k.1, k.2.2.ent)) v.x.ent
  let (dp, emp) := valueBackupD cfg v ret
  { soft := { n := v.x.soft.n + 1, val := softOf (valueTempD cfg v.depth v.visits) (estimate cfg dp emp) ent.sub },
    dp := dp, emp := emp, ent := ent }

/-- `DentsCNode::backup` (dents_chance_node.cpp:48-73). -/
noncomputable def dentsBackupC (cfg : DCfg S A) (localReward : ℝ) (kids : List (S × DX)) (y : DY) (ret : ℝ) : DY :=
  let ent := entC (kids.map fun k => k.2.ent) y.ent
  let (dp, emp) := valueBackupC cfg localReward kids y ret
  { visits := y.visits, soft := { n := y.soft.n + 1, val := softOf (valueTempC cfg y.visits) (estimate cfg dp emp) ent.sub },
    dp := dp, emp := emp, ent := ent }

/-- DENTS as an instance of the search schema. -/
noncomputable def dents (eps : ℝ) (cfg : DCfg S A) (env : Env S A ℝ) (m : Manager S ℝ) (lr : S → A → ℝ) : Alg S A ℝ DX DY where
  initVisits := 0
  initD s dep tim h := dentsInitD cfg env m s dep tim h
  initC _ _ _ _ := dentsInitC cfg
  visitD := dentsVisitD
  visitC y := { y with visits := y.visits + 1 }
  canSelect v _ a := selectable eps cfg.toCfg (dentsQ cfg v) v a
  backupD v _ args := dentsBackupD cfg v args.retAfter
  backupC s a y kids args := dentsBackupC cfg (lr s a) kids y args.retAfter

/-- `EstDNode::backup` (est_decision_node.cpp:43-59): neither the soft value nor the entropy is updated. -/
noncomputable def estBackupD (cfg : DCfg S A) (v : View S A DX DY) (ret : ℝ) : DX :=
  let (dp, emp) := valueBackupD cfg v ret
  { v.x with soft := { v.x.soft with n := v.x.soft.n + 1 }, dp := dp, emp := emp }

/-- `EstCNode::backup` (est_chance_node.cpp:31-47). -/
noncomputable def estBackupC (cfg : DCfg S A) (localReward : ℝ) (kids : List (S × DX)) (y : DY) (ret : ℝ) : DY :=
  let (dp, emp) := valueBackupC cfg localReward kids y ret
  { y with soft := { y.soft with n := y.soft.n + 1 }, dp := dp, emp := emp }

/-- EST as an instance of the search schema; the constructors are those of DENTS (est_decision_node.cpp:9-22,
est_chance_node.cpp:9-24). -/
noncomputable def est (eps : ℝ) (cfg : DCfg S A) (env : Env S A ℝ) (m : Manager S ℝ) (lr : S → A → ℝ) : Alg S A ℝ DX DY where
  initVisits := 0
  initD s dep tim h := dentsInitD cfg env m s dep tim h
  initC _ _ _ _ := dentsInitC cfg
  visitD := dentsVisitD
  visitC y := { y with visits := y.visits + 1 }
  canSelect v _ a := selectable eps cfg.toCfg (estQ cfg v) v a
  backupD v _ args := estBackupD cfg v args.retAfter
  backupC s a y kids args := estBackupC cfg (lr s a) kids y args.retAfter

/-! ## DB-MENTS -/

/-- Data of `DBMentsDNode` and of `DBMentsCNode`. -/
structure DB where
  soft : Soft
  dp : Dp ℝ

/-- DB-MENTS as an instance of the search schema: constructors dbments_decision_node.cpp:6-20 and dbments_chance_node.cpp:9-25,
`visit` dbments_decision_node.cpp:25-28, `backup` dbments_decision_node.cpp:60-69 and dbments_chance_node.cpp:32-41. -/
noncomputable def dbments (eps : ℝ) (cfg : Cfg S A) (lr : S → A → ℝ) : Alg S A ℝ DB DB where
  initVisits := 0
  initD _ _ _ h := { soft := softInitD h, dp := dpInitD h }
  initC _ _ _ _ := { soft := softInitC cfg, dp := dpInitC }
  visitD leaf x := { soft := softVisit leaf x.soft, dp := dpVisit leaf x.dp }
  visitC y := y
  canSelect v _ a := selectable eps cfg (mentsQ cfg DB.soft v) v a
  backupD v _ _ :=
    { soft := softBackupD cfg (mentsQ cfg DB.soft v) v v.x.soft, dp := dpBackupD v.opp (v.kids.map fun k => k.2.2.dp) v.x.dp }
  backupC s a y kids _ :=
    { soft := softBackupC (lr s a) (kids.map fun k => k.2.soft) y.soft, dp := dpBackupC (lr s a) (kids.map fun k => k.2.dp) y.dp }

/-! ## Recommendations -/

/-- `DBMentsDNode::recommend_action` (dbments_decision_node.cpp:33-53); a value that is not a number is outside the model. -/
noncomputable def recommendDB (cfg : Cfg S A) (lowI : Int) (v : View S A X Y) (py : Y → Dp ℝ) (raw : Nat)
    (iter : List (A × ℝ) → List (A × ℝ)) (iterI : List (A × Int) → List (A × Int)) : Option A :=
  if cfg.mostVisited then recommendVisited lowI v raw iterI
  else recommendBestOrRandom cfg.low cfg.threshold v.opp v.actions
    (v.kids.map fun k => (k.1, (py k.2.2).n, (py k.2.2).val.getD 0)) raw iter

/-- `DentsDNode::recommend_action` (dents_decision_node.cpp:72-95), inherited by EST. -/
noncomputable def recommendDents (cfg : DCfg S A) (lowI : Int) (v : View S A X DY) (raw : Nat)
    (iter : List (A × ℝ) → List (A × ℝ)) (iterI : List (A × Int) → List (A × Int)) : Option A :=
  if cfg.mostVisited then recommendVisited lowI v raw iterI
  else if cfg.useDp then recommendDB cfg.toCfg lowI v DY.dp raw iter iterI
  else recommendBestOrRandom cfg.low cfg.threshold v.opp v.actions (v.kids.map fun k => (k.1, k.2.2.emp.n, k.2.2.emp.avg)) raw iter

end Verif.Dents
