import Verif.Model.LockLevel
import Verif.Model.Uct
import Verif.Model.Tents

/-!
# When the algorithms lock and read children

For each algorithm, the `Code` that `Verif.LockLevel` runs: which blocks read children, in how many rounds of
`lock_all_children` / `unlock_all_children`, and what is computed from what was read in each round.  The computations are those
of `Verif.Model.Uct`, `Verif.Model.Ments`, `Verif.Model.Tents` and `Verif.Model.Dents`, applied to what one round saw.

Simplification: a selection that has locked and read the children may return whatever `select_action` may return on what it has
read, also what the code chooses without reading (a random or an untried action of UCT).
-/

namespace Verif.LockLevel

open Verif.Search

variable {S A : Type} [DecidableEq S] [DecidableEq A]

/-- What round `j` saw. -/
def round {L : Type} (snaps : List (List L)) (j : Nat) : List L := (snaps[j]?).getD []

/-- The node, with the children as round `j` saw them. -/
def View.at {X Y : Type} (v : View S A X Y) (snaps : List (List (A × Nat × Y))) (j : Nat) : View S A X Y := { v with kids := round snaps j }

/-- UCT and PUCT.  `select_action` takes a random action (uct_decision_node.cpp:189-193) or an untried one
(uct_decision_node.cpp:143-157) without locking the children; `fill_ucb_values` locks all of them (uct_decision_node.cpp:99,
131).  `backup` reads no child (uct_decision_node.cpp:258-274, uct_chance_node.cpp:59-75). -/
def uctCode {𝕜 : Type} [Field 𝕜] [LinearOrder 𝕜] (cfg : Uct.Cfg S A 𝕜) : Code S A 𝕜 (Uct.Stats 𝕜) (Uct.Stats 𝕜) where
  selBlind v acts _ a := decide (a ∈ v.actions) &&
    (decide (0 < cfg.epsilon) || (decide (cfg.epsilon < 1) && ! Uct.hasPrior cfg && decide (a ∉ acts)))
  nD := 0
  readsD _ _ _ := true
  resD v _ _ args := Uct.backupAvg v.x args.retAfter
  nC := 0
  resC _ _ y _ args := Uct.backupAvg y args.retAfter

open Verif.Ments in
/-- MENTS: one round in `select_action` (`compute_action_distribution`, ments_decision_node.cpp:197-199), one in `backup`
(ments_decision_node.cpp:336-338, ments_chance_node.cpp:80-88). -/
noncomputable def mentsCode (cfg : Cfg S A) (lr : S → A → ℝ) : Code S A ℝ Soft Soft where
  selBlind _ _ _ _ := false
  nD := 1
  readsD _ _ _ := true
  resD v snaps _ _ := softBackupD cfg (mentsQ cfg id (View.at v snaps 0)) v v.x
  nC := 1
  resC s a y snaps _ := softBackupC (lr s a) ((round snaps 0).map fun k => k.2) y

open Verif.Ments Verif.Tents in
/-- RENTS: as MENTS (rents_decision_node.cpp:128-137, ments_decision_node.cpp:330-343). -/
noncomputable def rentsCode (cfg : Cfg S A) (lr : S → A → ℝ) : Code S A ℝ Soft Soft where
  selBlind _ _ _ _ := false
  nD := 1
  readsD _ _ _ := true
  resD v snaps ctx _ := rentsBackupD cfg (View.at v snaps 0) ctx
  nC := 1
  resC s a y snaps _ := softBackupC (lr s a) ((round snaps 0).map fun k => k.2) y

open Verif.Ments Verif.Tents in
/-- TENTS: `backup` of a decision node locks the child of the selected action only (tents_decision_node.cpp:175-189). -/
noncomputable def tentsCode (cfg : Cfg S A) (lr : S → A → ℝ) : Code S A ℝ (Except TErr (TX A)) Soft where
  selBlind _ _ _ _ := false
  nD := 1
  readsD v ctx a := decide (find? v.depth ctx.acts = some a)
  resD v snaps ctx _ := tentsBackupD cfg (View.at v snaps 0) ctx
  nC := 1
  resC s a y snaps _ := softBackupC (lr s a) ((round snaps 0).map fun k => softOfX k.2) y

open Verif.Ments Verif.Dents in
/-- EST: `backup` reads the children for the DP value only (est_decision_node.cpp:51-58, est_chance_node.cpp:39-46,
dp_decision_node.h:161-166, dp_chance_node.h:98-103). -/
noncomputable def estCode (cfg : DCfg S A) (lr : S → A → ℝ) : Code S A ℝ DX DY where
  selBlind _ _ _ _ := false
  nD := if cfg.useDp then 1 else 0
  readsD _ _ _ := true
  resD v snaps _ args := estBackupD cfg (View.at v snaps 0) args.retAfter
  nC := if cfg.useDp then 1 else 0
  resC s a y snaps args := estBackupC cfg (lr s a) (round snaps 0) y args.retAfter

open Verif.Ments Verif.Dents Verif.Backups in
/-- DB-MENTS: `backup` reads the children twice, for the soft value and for the DP value (dbments_decision_node.cpp:67-68,
dbments_chance_node.cpp:39-40). -/
noncomputable def dbmentsCode (cfg : Cfg S A) (lr : S → A → ℝ) : Code S A ℝ DB DB where
  selBlind _ _ _ _ := false
  nD := 2
  readsD _ _ _ := true
  resD v snaps _ _ :=
    { soft := softBackupD cfg (mentsQ cfg DB.soft (View.at v snaps 0)) v v.x.soft,
      dp := dpBackupD v.opp ((round snaps 1).map fun k => k.2.2.dp) v.x.dp }
  nC := 2
  resC s a y snaps _ :=
    { soft := softBackupC (lr s a) ((round snaps 0).map fun k => k.2.soft) y.soft,
      dp := dpBackupC (lr s a) ((round snaps 1).map fun k => k.2.dp) y.dp }

open Verif.Ments Verif.Dents Verif.Backups in
/-- DENTS: `backup` of a decision node reads the children for the policy (dents_decision_node.cpp:113), for the entropy
(dents_decision_node.cpp:114, ent_decision_node.h:112-114) and for the DP value if that is used (dents_decision_node.cpp:120); of
a chance node for the entropy (dents_chance_node.cpp:58, ent_chance_node.h:97-99) and the DP value. -/
noncomputable def dentsCode (cfg : DCfg S A) (lr : S → A → ℝ) : Code S A ℝ DX DY where
  selBlind _ _ _ _ := false
  nD := if cfg.useDp then 3 else 2
  readsD _ _ _ := true
  resD v snaps _ args :=
    let ent := entD v.opp (actionDistr cfg.toCfg (dentsQ cfg (View.at v snaps 0)) v) ((round snaps 1).map fun k => (k.1, k.2.2.ent)) v.x.ent
    let (dp, emp) := valueBackupD cfg (View.at v snaps 2) args.retAfter
    { soft := { n := v.x.soft.n + 1, val := softOf (valueTempD cfg v.depth v.visits) (estimate cfg dp emp) ent.sub },
      dp := dp, emp := emp, ent := ent }
  nC := if cfg.useDp then 2 else 1
  resC s a y snaps args :=
    let ent := entC ((round snaps 0).map fun k => k.2.ent) y.ent
    let (dp, emp) := valueBackupC cfg (lr s a) (round snaps 1) y args.retAfter
    { visits := y.visits, soft := { n := y.soft.n + 1, val := softOf (valueTempC cfg y.visits) (estimate cfg dp emp) ent.sub },
      dp := dp, emp := emp, ent := ent }

/-! ## The parts of DB-MENTS and DENTS -/

/-- The DP part of DB-MENTS or DENTS: the search as someone sees it who looks at `num_backups` and `dp_value` of the mixins
(dp_decision_node.cpp, dp_chance_node.cpp) only; any valid action may be selected. -/
def dpPart {𝕜 : Type} [Field 𝕜] [LinearOrder 𝕜] (lr : S → A → 𝕜) : Alg S A 𝕜 (Backups.Dp 𝕜) (Backups.Dp 𝕜) where
  initVisits := 0
  initD _ _ _ h := Backups.dpInitD h
  initC _ _ _ _ := Backups.dpInitC
  visitD leaf x := Backups.dpVisit leaf x
  visitC y := y
  canSelect v _ a := decide (a ∈ v.actions)
  backupD v _ _ := Backups.dpBackupD v.opp (v.kids.map fun k => k.2.2) v.x
  backupC s a y kids _ := Backups.dpBackupC (lr s a) (kids.map fun k => k.2) y

/-- The empirical part of DENTS (emp_node.cpp:49-52). -/
def empPart {𝕜 : Type} [Field 𝕜] [LinearOrder 𝕜] : Alg S A 𝕜 (Backups.Emp 𝕜) (Backups.Emp 𝕜) where
  initVisits := 0
  initD _ _ _ h := { n := 1, avg := h }
  initC _ _ _ _ := { n := 0, avg := 0 }
  visitD _ x := x
  visitC y := y
  canSelect v _ a := decide (a ∈ v.actions)
  backupD v _ args := Backups.empBackup v.x args.retAfter
  backupC _ _ y _ args := Backups.empBackup y args.retAfter

end Verif.LockLevel
