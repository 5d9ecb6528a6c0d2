import Verif.Spec.LockLevel
import Verif.Spec.Live

/-! # Progress at the level of locks (C80) -/

namespace Verif.LockLevel

open Verif.Search

variable {S A R X Y : Type}

/-- A state of the search, seen as a state at the level of locks: no worker is inside a block, no mutex is held. -/
def ofSt (s : St S A R X Y) : FSt S A R X Y :=
  { root := s.root, dn := s.dn, cn := s.cn, table := s.table, lock := fun _ => none, ws := s.ws.map Pc.out, ctxs := s.ctxs,
    crashed := s.crashed }

/-- The code `code` computes the backups of `alg` if nobody changes the children between its rounds of reading. -/
structure Faithful (alg : Alg S A R X Y) (code : Code S A R X Y) : Prop where
  resD : ∀ v kids snaps ctx args, v.kids = [] → snaps.length = code.nD →
    (∀ l ∈ snaps, l = kids.filter fun k => code.readsD v ctx k.1) →
    code.resD v snaps ctx args = alg.backupD { v with kids := kids } ctx args
  resC : ∀ s a y kids snaps args, snaps.length = code.nC → (∀ l ∈ snaps, l = kids) →
    code.resC s a y snaps args = alg.backupC s a y kids args

/-- A worker inside a block whose next step is to lock a mutex that somebody holds.  (A worker that samples may need one of the table's
mutexes, depending on what it samples.) -/
def Waiting (f : FSt S A R X Y) : Pc S A R X Y → Prop
  | .lockD _ _ _ (k :: _) => f.lock (.c k) ≠ none
  | .lockC _ _ _ (k :: _) => f.lock (.d k) ≠ none
  | .vis (.samp _ _ _ _ _ _) => ∃ j, f.lock (.t j) ≠ none
  | _ => False

section
variable [DecidableEq S] [DecidableEq A] [Add R] [Zero R]

/-- Selection, having read all children, always finds an action: in every state that can be reached at the level of locks. -/
def FSelects (env : Env S A R) (m : Manager S R) (hash : Int × S → Nat) (alg : Alg S A R X Y) (code : Code S A R X Y) (k : Nat) (s0 : S)
    (dp tm : Int) (tb : List ((Int × S) × Option Nat)) : Prop :=
  ∀ {f : FSt S A R X Y} {h : List (Event S A R)} {w cur : Nat} {path : List (Nat × Nat)} {rs : List R} {new : Bool}
    {snaps : List (List (A × Nat × Y))} {held : List Nat} {acc : List (A × Nat × Y)} {nd : DNode S A R X},
    FReachable env m hash alg code k s0 dp tm tb f h → f.crashed = none → f.ws[w]? = some (.readD (.sel cur path rs new) snaps held acc []) →
    f.dn[cur]? = some nd → ∃ a, alg.canSelect (ownView env m nd acc) (f.ctxOf w) a = true

/-- Some schedule that begins no new trial leads from `f` with history `h` to `f'` with history `ext ++ h`. -/
def FinishesTo (env : Env S A R) (m : Manager S R) (hash : Int × S → Nat) (alg : Alg S A R X Y) (code : Code S A R X Y)
    (f : FSt S A R X Y) (h : List (Event S A R)) (f' : FSt S A R X Y) (ext : List (Event S A R)) : Prop :=
  ∃ ls, fexec env m hash alg code f h ls = some (f', ext ++ h) ∧ ∀ v, Event.began v ∉ ext

/-- No worker that is running a trial can take a step. -/
def Deadlocked (env : Env S A R) (m : Manager S R) (hash : Int × S → Nat) (alg : Alg S A R X Y) (code : Code S A R X Y)
    (f : FSt S A R X Y) : Prop :=
  f.crashed = none ∧ (∃ (w : Nat) (p : Pc S A R X Y), f.ws[w]? = some p ∧ p ≠ .out .idle) ∧
  ∀ (w : Nat) (p : Pc S A R X Y), f.ws[w]? = some p → p ≠ .out .idle → ∀ ch, fstep env m hash alg code f w ch = none

/-- ... and every worker is running a trial. -/
def AllStuck (env : Env S A R) (m : Manager S R) (hash : Int × S → Nat) (alg : Alg S A R X Y) (code : Code S A R X Y)
    (f : FSt S A R X Y) : Prop :=
  Deadlocked env m hash alg code f ∧ ∀ (w : Nat) (p : Pc S A R X Y), f.ws[w]? = some p → p ≠ .out .idle

/-- In every reachable state: no crash, no deadlock, all trials can be finished, and no schedule goes on for ever without beginning a
trial. -/
def Progresses (env : Env S A R) (m : Manager S R) (hash : Int × S → Nat) (alg : Alg S A R X Y) (code : Code S A R X Y) (k : Nat) (s0 : S)
    (dp tm : Int) (tb : List ((Int × S) × Option Nat)) : Prop :=
  ∀ {f : FSt S A R X Y} {h : List (Event S A R)}, FReachable env m hash alg code k s0 dp tm tb f h →
    f.crashed = none ∧ ¬ Deadlocked env m hash alg code f ∧
    (∃ f' ext, FinishesTo env m hash alg code f h f' ext ∧ ∀ (w : Nat) pc, f'.ws[w]? = some pc → pc = .out .idle) ∧
    ¬ ∃ g : Nat → FSt S A R X Y, g 0 = f ∧
      ∀ n, ∃ v ch e, fstep env m hash alg code (g n) v ch = some (g (n + 1), e) ∧ ∀ u, e ≠ some (.began u)

end

end Verif.LockLevel
