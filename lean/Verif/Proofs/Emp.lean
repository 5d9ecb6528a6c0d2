import Verif.Proofs.Dp
import Verif.Proofs.Uct

/-! # Average returns of the algorithms that use `EmpNode` -/

namespace Verif.Backups

open Verif.Search

set_option linter.unusedSectionVars false

variable {S A 𝕜 X Y : Type} [DecidableEq S] [DecidableEq A] [Field 𝕜] [LinearOrder 𝕜] [IsStrictOrderedRing 𝕜]

theorem empBackup_spec (x : Emp 𝕜) (r : 𝕜) :
    (empBackup x r).n = x.n + 1 ∧ ((empBackup x r).n : 𝕜) * (empBackup x r).avg = x.n * x.avg + r := by
  refine ⟨rfl, ?_⟩
  have : ((x.n : 𝕜) + 1) ≠ 0 := by positivity
  simp only [empBackup]
  push_cast
  field_simp
  ring

structure EmpInv (px : X → Emp 𝕜) (py : Y → Emp 𝕜) (pseudo : Nat) (st : St S A 𝕜 X Y) (h : List (Event S A 𝕜)) : Prop where
  d : ∀ (d : Nat) (nd : DNode S A 𝕜 X), st.dn[d]? = some nd →
    (px nd.x).n = pseudo + (returnsD d h).length ∧ ((px nd.x).n : 𝕜) * (px nd.x).avg = pseudo * nd.heur + (returnsD d h).sum ∧
    ((px nd.x).n = 0 → (px nd.x).avg = nd.heur)
  c : ∀ (c : Nat) (nc : CNode S A 𝕜 Y), st.cn[c]? = some nc →
    (py nc.y).n = (returnsC c h).length ∧ ((py nc.y).n : 𝕜) * (py nc.y).avg = (returnsC c h).sum ∧ ((py nc.y).n = 0 → (py nc.y).avg = 0)

variable {env : Env S A 𝕜} {m : Manager S 𝕜} {alg : Alg S A 𝕜 X Y} {px : X → Emp 𝕜} {py : Y → Emp 𝕜} {pseudo : Nat}

theorem emp_eff (H : HasEmp alg px py pseudo) {st st' : St S A 𝕜 X Y} {h : List (Event S A 𝕜)} {w : Nat} {e : Event S A 𝕜} (T : Touch st h)
    (I : EmpInv px py pseudo st h) (E : Eff env m alg st w e st') : EmpInv px py pseudo st' (e :: h) := by
  constructor
  · intro d nd' hd'
    rcases dn_chg E hd' with ⟨nd, hd, hchg⟩ | ⟨rfl, ht, s, dep, tim, rfl⟩
    · have G := I.d d nd hd
      cases hchg with
      | same he => rw [returnsD_cons d e h he]; exact G
      | selOld hl ha hf => simpa [returnsD, H.visitD] using G
      | selNew hl ha hf => simpa [returnsD, H.visitD] using G
      | ended => simpa [returnsD, H.visitD] using G
      | @backed w' args =>
        obtain ⟨h1, h2, h3⟩ := G
        obtain ⟨b1, b2⟩ := empBackup_spec (px nd.x) args.retAfter
        have hr : returnsD d (Event.backedD w' d args :: h) = args.retAfter :: returnsD d h := by simp [returnsD]
        have hx : px (alg.backupD (viewOf env m st nd) (st.ctxOf w') args) = empBackup (px nd.x) args.retAfter := H.backupD _ _ _
        rw [hr]
        show (px (alg.backupD (viewOf env m st nd) (st.ctxOf w') args)).n = _ ∧ ((px (alg.backupD (viewOf env m st nd) (st.ctxOf w') args)).n : 𝕜) *
          (px (alg.backupD (viewOf env m st nd) (st.ctxOf w') args)).avg = _ ∧ (_ → (px (alg.backupD (viewOf env m st nd) (st.ctxOf w') args)).avg = _)
        rw [hx]
        refine ⟨?_, ?_, ?_⟩
        · rw [b1, h1, List.length_cons]; omega
        · rw [b2, h2, List.sum_cons]; ring
        · intro h0
          rw [b1] at h0
          omega
    · rw [returnsD_cons _ e h ht, returnsD_nil T.freshD]
      simp [newD, H.initD]
  · intro c nc' hc'
    rcases cn_chg E hc' with ⟨nc, hc, hchg⟩ | ⟨rfl, ht, nd, a, rfl⟩
    · have G := I.c c nc hc
      cases hchg with
      | same he => rw [returnsC_cons c e h he]; exact G
      | stepped ho hk => simpa [returnsC, H.visitC] using G
      | @backed w' args =>
        obtain ⟨h1, h2, h3⟩ := G
        obtain ⟨b1, b2⟩ := empBackup_spec (py nc.y) args.retAfter
        have hr : returnsC c (Event.backedC w' c args :: h) = args.retAfter :: returnsC c h := by simp [returnsC]
        have hx : py (alg.backupC nc.state nc.action nc.y (kidsX st nc) args) = empBackup (py nc.y) args.retAfter := H.backupC _ _ _ _ _
        rw [hr]
        show (py (alg.backupC nc.state nc.action nc.y (kidsX st nc) args)).n = _ ∧
          ((py (alg.backupC nc.state nc.action nc.y (kidsX st nc) args)).n : 𝕜) *
          (py (alg.backupC nc.state nc.action nc.y (kidsX st nc) args)).avg = _ ∧
          (_ → (py (alg.backupC nc.state nc.action nc.y (kidsX st nc) args)).avg = _)
        rw [hx]
        refine ⟨?_, ?_, ?_⟩
        · rw [b1, h1, List.length_cons]
        · rw [b2, h2, List.sum_cons]; ring
        · intro h0
          rw [b1] at h0
          omega
    · rw [returnsC_cons _ e h ht, returnsC_nil T.freshC]
      simp [newC, H.initC]

theorem emp_init (H : HasEmp alg px py pseudo) (k : Nat) (s0 : S) (dp tm : Int) (tb : List ((Int × S) × Option Nat)) :
    EmpInv px py pseudo (init env m alg k s0 dp tm tb) [] := by
  constructor
  · intro d nd hd
    rcases d with _ | d
    · simp [init] at hd
      subst hd
      simp [newD, H.initD, returnsD]
    · simp [init] at hd
  · intro c nc hc
    simp [init] at hc

theorem emp_reach (H : HasEmp alg px py pseudo) {k : Nat} {s0 : S} {dp tm : Int} {tb : List ((Int × S) × Option Nat)} {st : St S A 𝕜 X Y}
    {h : List (Event S A 𝕜)} (hr : Reachable env m alg k s0 dp tm tb st h) : EmpInv px py pseudo st h := by
  obtain ⟨ls, hx⟩ := hr
  exact (exec_induct (fun s h => Touch s h ∧ EmpInv px py pseudo s h) (fun _ _ _ _ _ hp _ E => ⟨touch_eff hp.1 E, emp_eff H hp.1 hp.2 E⟩)
    ⟨⟨by simp, by simp⟩, emp_init H k s0 dp tm tb⟩ hx).2

end Verif.Backups
