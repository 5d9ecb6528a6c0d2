import Verif.Model.LockLevel
import Verif.Spec.Search

/-!
# What the lock level model is compared with

`Verif.LockLevel` runs single lock operations and memory accesses, `Verif.Search` whole blocks.  A quiet state of the first (no worker
inside a block) is a state of the second: `quietState`.
-/

namespace Verif.LockLevel

open Verif.Search

variable {S A R X Y X' Y' : Type}

/-- A decision node, looking only at the part `π` of its data. -/
def mapD (π : X → X') (nd : DNode S A R X) : DNode S A R X' :=
  { state := nd.state, depth := nd.depth, time := nd.time, visits := nd.visits, heur := nd.heur, kids := nd.kids, x := π nd.x }

/-- A chance node, looking only at the part `ρ` of its data. -/
def mapC (ρ : Y → Y') (nc : CNode S A R Y) : CNode S A R Y' :=
  { state := nc.state, action := nc.action, depth := nc.depth, time := nc.time, visits := nc.visits, kids := nc.kids, y := ρ nc.y }

/-- What was read of a child, looking only at the part `ρ` of its data. -/
def mapK (ρ : Y → Y') (k : A × Nat × Y) : A × Nat × Y' := (k.1, k.2.1, ρ k.2.2)

/-- A view, looking only at parts of the data. -/
def mapV (π : X → X') (ρ : Y → Y') (v : View S A X Y) : View S A X' Y' :=
  { state := v.state, depth := v.depth, time := v.time, opp := v.opp, visits := v.visits, x := π v.x, actions := v.actions,
    kids := v.kids.map (mapK ρ) }

/-- Between which blocks a worker is. -/
def Pc.between : Pc S A R X Y → Option (Phase S A R)
  | .out p => some p
  | _ => none

/-- No worker is inside a block. -/
def Quiet (f : FSt S A R X Y) : Prop := ∀ (w : Nat) p, f.ws[w]? = some p → ∃ q, p = .out q

/-- The state of the search that a quiet state is, looking only at parts of the nodes' data. -/
def quietState (π : X → X') (ρ : Y → Y') (f : FSt S A R X Y) : St S A R X' Y' :=
  { root := f.root, dn := f.dn.map (mapD π), cn := f.cn.map (mapC ρ), table := f.table, ws := f.ws.filterMap Pc.between, ctxs := f.ctxs,
    crashed := f.crashed }

/-- The events of worker `w`, newest first. -/
def eventsOf (w : Nat) (h : List (Event S A R)) : List (Event S A R) := h.filter fun e => decide (e.worker = w)

/-- The code `code` of algorithm `alg`, which reads the children of a node several times in a backup, looks like the algorithm `alg'`,
which reads them once, to someone who sees only the parts `π` and `ρ` of the nodes' data: that part of a new value depends on what was
read in one of the rounds (number `jD` or `jC`) only. -/
structure Simulates (alg : Alg S A R X Y) (code : Code S A R X Y) (alg' : Alg S A R X' Y') (π : X → X') (ρ : Y → Y') (jD jC : Nat) :
    Prop where
  initVisits : alg'.initVisits = alg.initVisits
  initD : ∀ s dp tm h, alg'.initD s dp tm h = π (alg.initD s dp tm h)
  initC : ∀ s a dp tm, alg'.initC s a dp tm = ρ (alg.initC s a dp tm)
  visitD : ∀ b x, alg'.visitD b (π x) = π (alg.visitD b x)
  visitC : ∀ y, alg'.visitC (ρ y) = ρ (alg.visitC y)
  /-- selection that has read all children -/
  select : ∀ v ctx a, alg.canSelect v ctx a = true →
    alg'.canSelect (mapV π ρ v) ctx a = true ∧ alg'.selCtx (mapV π ρ v) ctx a = alg.selCtx v ctx a
  /-- selection that has read none: whatever the children contain -/
  blind : ∀ v kids ctx a, v.kids = [] → code.selBlind v (kids.map fun k => k.1) ctx a = true →
    alg'.canSelect { mapV π ρ v with kids := kids } ctx a = true ∧
    alg'.selCtx { mapV π ρ v with kids := kids } ctx a = alg.selCtx v ctx a
  roundD : jD < code.nD ∨ code.nD = 0
  /-- backup of a decision node: if round `jD` saw (of the children to be read) what is in `kids` -/
  resD : ∀ v kids snaps ctx args, v.kids = [] → snaps.length = code.nD →
    (jD < code.nD → (snaps[jD]?).map (fun l => l.map (mapK ρ)) = some (kids.filter fun k => code.readsD v ctx k.1)) →
    π (code.resD v snaps ctx args) = alg'.backupD { mapV π ρ v with kids := kids } ctx args
  roundC : jC < code.nC ∨ code.nC = 0
  resC : ∀ s a y kids snaps args, snaps.length = code.nC →
    (jC < code.nC → (snaps[jC]?).map (fun l => l.map fun k => (k.1, π k.2)) = some kids) →
    ρ (code.resC s a y snaps args) = alg'.backupC s a (ρ y) kids args

section
variable [DecidableEq S] [DecidableEq A] [Add R] [Zero R]

/-- Some schedule of `k` workers, at the level of locks, leads from a freshly constructed search to `f` with history `h`. -/
def FReachable (env : Env S A R) (m : Manager S R) (hash : Int × S → Nat) (alg : Alg S A R X Y) (code : Code S A R X Y) (k : Nat)
    (s0 : S) (dp tm : Int) (tb : List ((Int × S) × Option Nat)) (f : FSt S A R X Y) (h : List (Event S A R)) : Prop :=
  ∃ ls, fexec env m hash alg code (finit env m alg k s0 dp tm tb) [] ls = some (f, h)

end

end Verif.LockLevel
