import Verif.Spec.LockChain
import Verif.Proofs.LockAlgs

/-! # A backup whose rounds see different states of a child -/

namespace Verif.LockLevel

open Verif.Search Verif.Ments Verif.Dents Verif.Backups

section
variable {S A R X Y : Type} [DecidableEq S] [DecidableEq A] [Add R] [Zero R] {env : Env S A R} {m : Manager S R} {hash : Int × S → Nat}
  {alg : Alg S A R X Y} {code : Code S A R X Y}

/-- A more permissive selection allows more. -/
theorem fstep_sel {sel : View S A X Y → Ctx A R → A → Bool}
    (h : ∀ v ctx a, v.actions = env.actions v.state → sel v ctx a = true → alg.canSelect v ctx a = true)
    {f : FSt S A R X Y} {w : Nat} {ch : FChoice S A} {r : FSt S A R X Y × Option (Event S A R)}
    (hs : fstep env m hash { alg with canSelect := sel } code f w ch = some r) : fstep env m hash alg code f w ch = some r := by
  revert hs
  unfold fstep
  split
  · exact id
  · split <;> try exact id
    · split <;> try exact id
      rename_i nd hnd
      split
      · rename_i hc
        rw [if_pos (h _ _ _ rfl hc)]
        exact id
      · intro hh; cases hh

theorem fexec_sel {sel : View S A X Y → Ctx A R → A → Bool}
    (h : ∀ v ctx a, v.actions = env.actions v.state → sel v ctx a = true → alg.canSelect v ctx a = true)
    {ls : List (Nat × FChoice S A)} {f : FSt S A R X Y} {hist : List (Event S A R)} {r : FSt S A R X Y × List (Event S A R)}
    (hs : fexec env m hash { alg with canSelect := sel } code f hist ls = some r) : fexec env m hash alg code f hist ls = some r := by
  induction ls generalizing f hist with
  | nil => exact hs
  | cons l ls ih =>
    obtain ⟨w, ch⟩ := l
    unfold fexec at hs ⊢
    cases hf : fstep env m hash { alg with canSelect := sel } code f w ch with
    | none => rw [hf] at hs; cases hs
    | some p =>
      rw [hf] at hs
      rw [fstep_sel h hf]
      exact ih hs

end

namespace Chain

variable {R X Y : Type} [Add R] [Zero R]

/-- The data of state 1's node when both workers have visited it, before any backup. -/
def before (alg : Alg Nat Nat R X Y) : X := alg.visitD false (alg.visitD false (alg.initD 1 1 1 0))

/-- The lower chance node after worker 1's backup. -/
def lower (r : R) (alg : Alg Nat Nat R X Y) (resC : Nat → Nat → Y → List (List (Nat × X)) → BArgs R → Y) : Y :=
  resC 1 0 (alg.visitC (alg.initC 1 0 1 1))
    [[(2, alg.visitD true (alg.initD 2 2 2 0))], [(2, alg.visitD true (alg.initD 2 2 2 0))]] ⟨[r], [0, r], 0 + r, 0 + r + r + 0⟩

/-- State 1's node after worker 1's backup. -/
def after (r : R) (alg : Alg Nat Nat R X Y) (resD : View Nat Nat X Y → List (List (Nat × Nat × Y)) → Ctx Nat R → BArgs R → X)
    (resC : Nat → Nat → Y → List (List (Nat × X)) → BArgs R → Y) : X :=
  resD { state := 1, depth := 1, time := 1, opp := false, visits := 2, x := before alg, actions := [0], kids := [] }
    [[(0, 1, lower r alg resC)], [(0, 1, lower r alg resC)]] {} ⟨[r], [0, r], 0 + r, 0 + r + r + 0⟩

/-- Where the two workers are at the end. -/
def ends (r : R) : List (Pc Nat Nat R X Y) :=
  [.out (.backD 0 [] [] [0, r] (0 + r) (0 + r + 0)), .out (.back [(0, 0)] [r] [0, r] (0 + r) (0 + r + r + 0))]

/-- `alg`, except that any valid action may be selected at a node whose children have soft values, and that a new chance node has
value `q`. -/
def freely (alg : Alg Nat Nat R X DB) (q : ℝ) (d0 : Dp ℝ) : Alg Nat Nat R X DB :=
  { alg with
    canSelect := fun v _ a => decide (a ∈ v.actions) && v.kids.all fun k => k.2.2.soft.val.isSome
    selCtx := fun _ c _ => c
    initVisits := 0
    visitC := fun y => y
    initC := fun _ _ _ _ => { soft := { n := 0, val := some q }, dp := d0 } }

theorem run_free (r : R) (q : ℝ) (d0 : Dp ℝ) (alg : Alg Nat Nat R X DB) (resD : View Nat Nat X DB → List (List (Nat × Nat × DB)) → Ctx Nat R → BArgs R → X)
    (resC : Nat → Nat → DB → List (List (Nat × X)) → BArgs R → DB) (blind : View Nat Nat X DB → List Nat → Ctx Nat R → Nat → Bool) :
    (fexec (env r) mgr hash (freely alg q d0)
        { selBlind := blind, nD := 2, readsD := fun _ _ _ => true, resD := resD, nC := 2, resC := resC }
        (finit (env r) mgr (freely alg q d0) 2 0 0 0 []) [] sched).map
      (fun p => (p.1.ws, p.1.crashed, (p.1.cn[0]?).map fun nc => nc.y)) =
    some (ends r, none, some (resC 0 0 { soft := { n := 0, val := some q }, dp := d0 }
      [[(1, before alg)], [(1, after r (freely alg q d0) resD resC)]] ⟨[], [0, r], 0 + r, 0 + r + 0⟩)) := by
  cbv

end Chain

end Verif.LockLevel
