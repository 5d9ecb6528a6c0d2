import Verif.Proofs.SearchStep

/-! # Every effect is the effect of a step -/

namespace Verif.Search

set_option linter.unusedSimpArgs false
set_option linter.unusedSectionVars false

variable {S A R X Y : Type} [DecidableEq S] [DecidableEq A] [Add R] [Zero R]

theorem eff_step {env : Env S A R} {m : Manager S R} {alg : Alg S A R X Y} {st st' : St S A R X Y} {w : Nat} {e : Event S A R}
    (hcr : st.crashed = none) (E : Eff env m alg st w e st') (hne : ∀ x, e ≠ .crash w x)
    (hm : ∀ d a c o d' r, e = .stepped w d a c o d' r true → m.useTable = true → m.numMutexes ≠ 0) :
    ∃ ch, step env m alg st w ch = some (st', e) := by
  cases E with
  | @crash x h => exact absurd rfl (hne x)
  | began hw => exact ⟨.go, by simp [step, hcr, hw, St.setW, St.setCtx]⟩
  | @selOld cur path rs new nd a c hw hd hl hmc ha hf =>
    have hs := (shouldContinue_iff env m nd new).2 ⟨hl, hmc⟩
    have hlt : ∀ x, (st.dn.set cur x)[cur]? = some x := fun x =>
      List.getElem?_set_self (List.getElem?_eq_some_iff.1 hd).1
    exact ⟨.act a, by simp [step, hcr, hw, hd, hs, blockD, ha, createC, hf, hlt, St.setW, St.setCtx]⟩
  | @selNew cur path rs new nd a hw hd hl hmc ha hf =>
    have hs := (shouldContinue_iff env m nd new).2 ⟨hl, hmc⟩
    have hlt : ∀ x, (st.dn.set cur x)[cur]? = some x := fun x =>
      List.getElem?_set_self (List.getElem?_eq_some_iff.1 hd).1
    refine ⟨.act a, ?_⟩
    simp [step, hcr, hw, hd, hs, blockD, ha, createC, hf, hlt, St.setW, St.setCtx, find?_append, newC]
  | @ended cur path rs new nd hw hd hs =>
    have hs' : shouldContinue env m nd new = false := by
      rw [Bool.eq_false_iff, Ne, shouldContinue_iff]
      rcases hs with h | h <;> simp [h]
    exact ⟨.go, by simp [step, hcr, hw, hd, hs', blockEnd, St.setW]⟩
  | @stepOld cur a c path rs new nc nd o d' hw hc hd ho hf =>
    have hlt : ∀ x, (st.cn.set c x)[c]? = some x := fun x =>
      List.getElem?_set_self (List.getElem?_eq_some_iff.1 hc).1
    exact ⟨.obs o, by simp [step, hcr, hw, hd, hc, blockC, ho, createD, hf, hlt, St.setW]⟩
  | @stepNew cur a c path rs new nc nd o tb hw hc hd ho hf ht =>
    have hlt : ∀ x, (st.cn.set c x)[c]? = some x := fun x =>
      List.getElem?_set_self (List.getElem?_eq_some_iff.1 hc).1
    have hm' := hm _ _ _ _ _ _ rfl
    rcases ht with ⟨hu, rfl⟩ | ⟨hu, ht, rfl⟩
    · exact ⟨.obs o, by simp [step, hcr, hw, hd, hc, blockC, ho, createD, hf, hlt, hu, St.setW, find?_append]⟩
    · exact ⟨.obs o, by simp [step, hcr, hw, hd, hc, blockC, ho, createD, hf, hlt, hu, hm' hu, ht, St.setW, find?_append]⟩
  | @stepHit cur a c path rs new nc nd o d' hw hc hd ho hf hu ht =>
    have hlt : ∀ x, (st.cn.set c x)[c]? = some x := fun x =>
      List.getElem?_set_self (List.getElem?_eq_some_iff.1 hc).1
    have hm' := hm _ _ _ _ _ _ rfl
    exact ⟨.obs o, by simp [step, hcr, hw, hd, hc, blockC, ho, createD, hf, hlt, hu, hm' hu, ht, St.setW, find?_append]⟩
  | completed hw => exact ⟨.go, by simp [step, hcr, hw, blockBackC, St.setW]⟩
  | @backedC nodes d c before r after ret tot nc hw hc => exact ⟨.go, by simp [step, hcr, hw, hc, blockBackC, St.setW]⟩
  | @backedD d nodes before after ret tot nd hw hd => exact ⟨.go, by simp [step, hcr, hw, hd, blockBackD, St.setW]⟩

end Verif.Search
