import Verif.Proofs.LockFinish
import Verif.Proofs.LockAlgs

/-! # Selection at the level of locks finds an action if it does in the search -/

namespace Verif.LockLevel

open Verif.Search

set_option linter.unusedSimpArgs false
set_option linter.unusedSectionVars false

variable {S A R X Y X' Y' : Type} [DecidableEq S] [DecidableEq A] [AddMonoid R]
variable {env : Env S A R} {m : Manager S R} {hash : Int × S → Nat} {code : Code S A R X Y} {alg : Alg S A R X Y} {alg' : Alg S A R X' Y'}
  {π : X → X'} {ρ : Y → Y'} {jD jC : Nat} {k : Nat} {s0 : S} {dp tm : Int} {tb : List ((Int × S) × Option Nat)}

theorem fselects_of (hS : Simulates alg code alg' π ρ jD jC) (hm : m.useTable = true → m.numMutexes ≤ 1) (hv : alg'.Valid) (htb : Leftover tb)
    (hback : ∀ v ctx a, alg'.canSelect (mapV π ρ v) ctx a = true → ∃ a', alg.canSelect v ctx a' = true) (hs : Selects env m alg' k s0 dp tm tb) :
    FSelects env m hash alg code k s0 dp tm tb := by
  intro f h w cur path rs new snaps held acc nd hr hcr hw hd
  obtain ⟨I, s, h', hr', H, -⟩ := (main_reach hS hm hv htb hr).alive hcr
  obtain ⟨nd', hd'⟩ := dn_get H hd
  have hrel := H.down cur nd nd' hd hd' w _ hw (by simp [holds, lkOf])
  have hph := H.ws w _ hw
  have hph : s.ws[w]? = some (.sel cur path rs new) := by
    rw [hph]; simp only [absPhase, nextD]; split <;> rfl
  simp only [dRel, dBlk, if_true] at hrel
  obtain ⟨nd0, rfl, rfl, hl, hmc⟩ := hrel
  have hcont : shouldContinue env m (mapD π nd0) new = true := by
    have h1 : isLeaf env m (mapD π nd0) = false := hl
    unfold shouldContinue
    rw [h1]
    cases hx : m.mctsMode
    · rfl
    · rw [hx] at hmc
      simp only [Bool.true_and] at hmc
      rw [hmc]; rfl
  obtain ⟨a, s', e, hst⟩ := hs hr' H.crashed hph hd' hcont
  obtain ⟨I1, d, nd1, done, h2, h3, h4, h5, h6⟩ := I.ok w _ hw
  simp [nodeD] at h2; subst h2
  rw [hd] at h3; simp at h3; subst h3
  simp only [kidsToRead, List.append_nil] at h4 h5
  subst h4
  have hk := kidsY_read I H hw h5 acc h6
  have hview : viewOf env m s { mapD π nd0 with visits := nd0.visits + 1, x := alg'.visitD false (π nd0.x) } =
      mapV π ρ (ownView env m { nd0 with visits := nd0.visits + 1, x := alg.visitD false nd0.x } acc) := by
    simp only [viewOf, mapV, ownView, mapD, hS.visitD, kidsY, View.mk.injEq, true_and]
    exact hk
  have hcan : ∃ a, alg'.canSelect (viewOf env m s { mapD π nd0 with visits := nd0.visits + 1, x := alg'.visitD false (π nd0.x) }) (s.ctxOf w) a = true := by
    refine ⟨a, ?_⟩
    by_contra hno
    simp only [Bool.not_eq_true] at hno
    unfold step at hst
    rw [H.crashed, hph] at hst
    simp only [Option.isSome_none, Bool.false_eq_true, if_false, hd', hcont, if_true] at hst
    simp only [blockD] at hst
    rw [if_neg (by rw [Bool.not_eq_true]; exact hno)] at hst
    simp at hst
  obtain ⟨a, ha⟩ := hcan
  rw [hview, ctx_eq H] at ha
  exact hback _ _ _ ha

theorem fselects_self (hS : Simulates alg code alg id id jD jC) (hm : m.useTable = true → m.numMutexes ≤ 1) (hv : alg.Valid) (htb : Leftover tb)
    (hs : Selects env m alg k s0 dp tm tb) : FSelects env m hash alg code k s0 dp tm tb :=
  fselects_of hS hm hv htb (fun v ctx a h => ⟨a, by rwa [mapV_id] at h⟩) hs

end Verif.LockLevel
