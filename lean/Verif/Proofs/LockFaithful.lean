import Verif.Proofs.LockAlgs
import Verif.Spec.LockFree

/-! # The algorithms' code at the level of locks computes the algorithms' backups -/

namespace Verif.LockLevel

open Verif.Search

variable {S A : Type} [DecidableEq S] [DecidableEq A]

theorem round_all {L : Type} {snaps : List (List L)} {kids : List L} {j n : Nat} (hn : snaps.length = n) (hj : j < n)
    (h : ∀ l ∈ snaps, l = kids) : round snaps j = kids := by
  subst hn
  simp only [round, List.getElem?_eq_getElem hj, Option.getD_some]
  exact h _ (List.getElem_mem _)

theorem faithful_of {R X Y : Type} {alg : Alg S A R X Y} {code : Code S A R X Y} {jD jC : Nat} (hS : Simulates alg code alg id id jD jC) :
    Faithful alg code where
  resD v kids snaps ctx args hv hn h := by
    have := hS.resD v kids snaps ctx args hv hn (by
      intro hj
      rw [List.getElem?_eq_getElem (by omega)]
      simp only [Option.map_some, mapK_id]
      rw [h _ (List.getElem_mem _)])
    rw [kids_at hv] at this
    exact this
  resC s a y kids snaps args hn h := by
    have := hS.resC s a y kids snaps args hn (by
      intro hj
      rw [List.getElem?_eq_getElem (by omega)]
      simp only [Option.map_some, id]
      rw [h _ (List.getElem_mem _)]; simp)
    exact this

section
open Verif.Ments Verif.Tents Verif.Dents Verif.Backups

theorem dbments_faithful (eps : ℝ) (cfg : Ments.Cfg S A) (lr : S → A → ℝ) : Faithful (dbments eps cfg lr) (dbmentsCode cfg lr) where
  resD v kids snaps ctx args hv hn h := by
    simp only [dbmentsCode, filter_true] at h hn
    have h0 := round_all hn (by omega : 0 < 2) h
    have h1 := round_all hn (by omega : 1 < 2) h
    simp only [dbmentsCode, View.at, h0, h1]
    rfl
  resC s a y kids snaps args hn h := by
    have h0 := round_all hn (by simp [dbmentsCode] : 0 < _) h
    have h1 := round_all hn (by simp [dbmentsCode] : 1 < _) h
    simp only [dbmentsCode, h0, h1]
    rfl

theorem actionDistr_kids {X Y : Type} (cfg : Ments.Cfg S A) (q : A → Except Bad ℝ) (v : View S A X Y) (kids : List (A × Nat × Y)) :
    actionDistr cfg q { v with kids := kids } = actionDistr cfg q v := by
  have h1 : ∀ lam sum n l, interpolateAll cfg { v with kids := kids } lam sum n l = interpolateAll cfg v lam sum n l := by
    intro lam sum n l
    induction l with
    | nil => rfl
    | cons p l ih => simp only [interpolateAll, ih]; rfl
  unfold actionDistr fullDistr
  simp only [h1]
  rfl

theorem dents_faithful (eps : ℝ) (cfg : DCfg S A) (env : Env S A ℝ) (m : Manager S ℝ) (lr : S → A → ℝ) :
    Faithful (dents eps cfg env m lr) (dentsCode cfg lr) where
  resD v kids snaps ctx args hv hn h := by
    have h0 := round_all hn (by simp only [dentsCode]; split <;> omega : 0 < _) h
    have h1 := round_all hn (by simp only [dentsCode]; split <;> omega : 1 < _) h
    by_cases hu : cfg.useDp = true
    · have h2 := round_all hn (by simp [dentsCode, hu] : 2 < _) h
      simp only [dentsCode, filter_true] at h0 h1 h2
      simp only [dentsCode, View.at, h0, h1, h2, dents, dentsBackupD, actionDistr_kids]
    · simp only [dentsCode, filter_true] at h0 h1
      simp only [dentsCode, View.at, h0, h1]
      simp [dents, dentsBackupD, valueBackupD, hu, actionDistr_kids]
  resC s a y kids snaps args hn h := by
    have h0 := round_all hn (by simp only [dentsCode]; split <;> omega : 0 < _) h
    by_cases hu : cfg.useDp = true
    · have h1 := round_all hn (by simp [dentsCode, hu] : 1 < _) h
      simp only [dentsCode, h0, h1]
      rfl
    · simp only [dentsCode, h0]
      simp [dents, dentsBackupC, valueBackupC, hu]

end

end Verif.LockLevel
