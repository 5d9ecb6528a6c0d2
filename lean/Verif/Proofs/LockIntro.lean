import Verif.Proofs.LockRace

/-! # Every effect is the effect of a step -/

namespace Verif.LockLevel

open Verif.Search

set_option linter.unusedSimpArgs false
set_option linter.unusedSectionVars false

variable {S A R X Y : Type} [DecidableEq S] [DecidableEq A] [Add R] [Zero R]
variable {env : Env S A R} {m : Manager S R} {hash : Int × S → Nat} {alg : Alg S A R X Y} {code : Code S A R X Y}
  {f f' : FSt S A R X Y} {w : Nat} {e : Option (Event S A R)}

/-- An effect that does not kill the process is the effect of a step, unless a vector of rewards is empty. -/
theorem eff_fstep (hc : f.crashed = none) (hc' : f'.crashed = none)
    (hb : ∀ nodes before after ret tot, f.ws[w]? = some (.out (.back nodes before after ret tot)) → before = [] → nodes = []) (E : FEff env m hash alg code f w e f') :
    ∃ ch, fstep env m hash alg code f w ch = some (f', e) := by
  cases E with
  | crash h => simp at hc'
  | began hw => exact ⟨.go, by simp [fstep, hc, hw, FSt.setW]⟩
  | completed hw => exact ⟨.go, by simp [fstep, hc, hw, FSt.setW]⟩
  | @enter p l hw hl hv hf =>
    refine ⟨.go, ?_⟩
    cases p with
    | idle => simp [lkOf] at hl
    | sel cur path rs new => simp [lkOf] at hl; subst hl; simp [Valid] at hv; simp [fstep, hc, hw, hv, acquire, hf, tau]
    | samp cur a c path rs new => simp [lkOf] at hl; subst hl; simp [Valid] at hv; simp [fstep, hc, hw, hv, acquire, hf, tau]
    | backD d nodes before after ret tot => simp [lkOf] at hl; subst hl; simp [Valid] at hv; simp [fstep, hc, hw, hv, acquire, hf, tau]
    | back nodes before after ret tot =>
      rcases getLast?_cases nodes with rfl | ⟨nodes, ⟨d, c⟩, rfl⟩
      · simp [lkOf] at hl
      rcases getLast?_cases before with rfl | ⟨before, r, rfl⟩
      · have := hb _ _ _ _ _ hw rfl; simp at this
      · simp [lkOf] at hl; subst hl; simp [Valid] at hv; simp [fstep, hc, hw, hv, acquire, hf, tau]
  | @visit cur path rs new nd hw hd hl hm =>
    exact ⟨.go, by simp [fstep, hc, hw, hd, (shouldContinue_iff ..).2 ⟨hl, hm⟩, tau, FSt.setW]⟩
  | @ended cur path rs new nd hw hd hs =>
    refine ⟨.go, ?_⟩
    have : shouldContinue env m nd new = false := by
      cases h : shouldContinue env m nd new with
      | false => rfl
      | true => have := (shouldContinue_iff ..).1 h; rcases hs with h1 | h1 <;> simp [h1] at this
    simp [fstep, hc, hw, hd, this, FSt.setW]
  | @selOld pc cur path rs new nd ks held a c hw hd hpc hf =>
    refine ⟨.act a, ?_⟩
    rcases hpc with ⟨rfl, rfl, rfl, hb⟩ | ⟨snaps, rfl, hb⟩
    · simp [fstep, hc, hw, hd, hb, outcomeSel, hf, FSt.setW]
    · simp [fstep, hc, hw, hd, hb, outcomeSel, hf, FSt.setW]
  | @selNew pc cur path rs new nd ks held a hw hd hpc hf =>
    refine ⟨.act a, ?_⟩
    rcases hpc with ⟨rfl, rfl, rfl, hb⟩ | ⟨snaps, rfl, hb⟩
    · simp [fstep, hc, hw, hd, hb, outcomeSel, hf, FSt.setW]
    · simp [fstep, hc, hw, hd, hb, outcomeSel, hf, FSt.setW]
  | @startSel cur path rs new nd ks hw hd hk => exact ⟨.order ks, by simp [fstep, hc, hw, hd, hk, tau, FSt.setW]⟩
  | @startD pc d nodes before after ret tot nd snaps ks hw hd hpc hk =>
    refine ⟨.order ks, ?_⟩
    rcases hpc with ⟨rfl, rfl, h0⟩ | rfl
    · simp [fstep, hc, hw, hd, hk, tau, FSt.setW, h0, kidsToRead]
    · simp [fstep, hc, hw, hd, hk, tau, FSt.setW, kidsToRead]
  | lockD hw hv hf => exact ⟨.go, by simp [fstep, hc, hw, hv, acquire, hf, tau]⟩
  | readySel hw hd => exact ⟨.go, by simp [fstep, hc, hw, hd, tau, FSt.setW, kidsToRead]⟩
  | readyD hw hd => exact ⟨.go, by simp [fstep, hc, hw, hd, tau, FSt.setW, kidsToRead]⟩
  | readD hw hd => exact ⟨.go, by simp [fstep, hc, hw, hd, tau, FSt.setW]⟩
  | snapD hw hd hn => exact ⟨.go, by simp [fstep, hc, hw, hd, tau, FSt.setW, hn]⟩
  | relD hw => exact ⟨.go, by simp [fstep, hc, hw, tau]⟩
  | @backedD pc d nodes before after ret tot nd snaps held hw hd hpc =>
    refine ⟨.go, ?_⟩
    rcases hpc with ⟨rfl, rfl, rfl, h0⟩ | ⟨sn, acc, rfl, rfl, h0⟩
    · simp [fstep, hc, hw, hd, outcomeBackD, FSt.setW, h0]
    · simp [fstep, hc, hw, hd, outcomeBackD, FSt.setW, h0]
  | visitC hw hcn => exact ⟨.go, by simp [fstep, hc, hw, hcn, tau, FSt.setW]⟩
  | @stepOld cur a c path rs new nc nd o d' hw hcn hd ho hf =>
    exact ⟨.obs o, by simp [fstep, hc, hw, hcn, hd, ho, hf, outcomeSamp, FSt.setW]⟩
  | @stepNew cur a c path rs new nc nd o hw hcn hd ho hf hu =>
    exact ⟨.obs o, by simp [fstep, hc, hw, hcn, hd, ho, hf, hu, outcomeSamp, FSt.setW]⟩
  | @wantTable cur a c path rs new nc o hw hcn ho hf hu hm hl =>
    exact ⟨.obs o, by simp [fstep, hc, hw, hcn, ho, hf, hu, hm, hl, acquire, tau]⟩
  | tabHit hw hcn hd ht => exact ⟨.go, by simp [fstep, hc, hw, hcn, hd, ht, outcomeSamp, FSt.setW]⟩
  | tabMiss hw hcn hd ht => exact ⟨.go, by simp [fstep, hc, hw, hcn, hd, ht, outcomeSamp, FSt.setW]⟩
  | @startC pc nodes d c before r after ret tot nc snaps ks hw hcn hpc hk =>
    refine ⟨.order ks, ?_⟩
    rcases hpc with ⟨rfl, rfl, h0⟩ | rfl
    · simp [fstep, hc, hw, hcn, hk, tau, FSt.setW, h0]
    · simp [fstep, hc, hw, hcn, hk, tau, FSt.setW]
  | lockC hw hv hf => exact ⟨.go, by simp [fstep, hc, hw, hv, acquire, hf, tau]⟩
  | readyC hw hcn => exact ⟨.go, by simp [fstep, hc, hw, hcn, tau, FSt.setW]⟩
  | readC hw hd => exact ⟨.go, by simp [fstep, hc, hw, hd, tau, FSt.setW]⟩
  | snapC hw hcn hn => exact ⟨.go, by simp [fstep, hc, hw, hcn, tau, FSt.setW, hn]⟩
  | relC hw => exact ⟨.go, by simp [fstep, hc, hw, tau]⟩
  | @backedC pc nodes d c before r after ret tot nc snaps held hw hcn hpc =>
    refine ⟨.go, ?_⟩
    rcases hpc with ⟨rfl, rfl, rfl, h0⟩ | ⟨sn, acc, rfl, rfl, h0⟩
    · simp [fstep, hc, hw, hcn, outcomeBackC, FSt.setW, h0]
    · simp [fstep, hc, hw, hcn, outcomeBackC, FSt.setW, h0]
  | post hw => exact ⟨.go, by simp [fstep, hc, hw, tau]⟩
  | leave hw => exact ⟨.go, by simp [fstep, hc, hw, tau, FSt.setW]⟩

end Verif.LockLevel
