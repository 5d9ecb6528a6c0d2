import Verif.Proofs.LockMain
import Verif.Model.LockAlgs
import Verif.Proofs.Uct
import Verif.Proofs.Tents
import Verif.Proofs.Rents
import Verif.Proofs.Dents

/-! # The algorithms' code at the level of locks looks like the algorithms -/

namespace Verif.LockLevel

open Verif.Search

variable {S A : Type} [DecidableEq S] [DecidableEq A]

theorem mapK_id {Y : Type} (l : List (A × Nat × Y)) : l.map (mapK id) = l := by
  have : (mapK id : A × Nat × Y → _) = id := by funext k; rfl
  rw [this, List.map_id]

theorem mapV_id {X Y : Type} (v : View S A X Y) : mapV id id v = v := by
  cases v; simp [mapV, mapK_id]

theorem kids_at {X Y : Type} {v : View S A X Y} {kids : List (A × Nat × Y)} (hv : v.kids = []) :
    { mapV id id v with kids := kids } = { v with kids := kids } := by
  cases v; simp [mapV]

theorem round_of {L L' : Type} {g : L → L'} {snaps : List (List L)} {kids : List L'} {j : Nat}
    (h : (snaps[j]?).map (fun l => l.map g) = some kids) : (round snaps j).map g = kids := by
  unfold round
  cases hs : snaps[j]? with
  | none => rw [hs] at h; simp at h
  | some l => rw [hs] at h; simpa using h

theorem round_id {L : Type} {snaps : List (List L)} {kids : List L} {j : Nat}
    (h : (snaps[j]?).map (fun l => l.map id) = some kids) : round snaps j = kids := by
  have := round_of h
  simpa using this

theorem find_map {V W : Type} (g : V → W) (a : A) (l : List (A × V)) : find? a (l.map fun k => (k.1, g k.2)) = (find? a l).map g := by
  induction l with
  | nil => rfl
  | cons k l ih => simp only [List.map_cons, find?]; split <;> simp_all

theorem find_mapK {Y Y' : Type} (ρ : Y → Y') (a : A) (l : List (A × Nat × Y)) :
    find? a (l.map (mapK ρ)) = (find? a l).map fun k => (k.1, ρ k.2) := find_map (fun k : Nat × Y => (k.1, ρ k.2)) a l

theorem find_none_iff {V : Type} (a : A) (l : List (A × V)) : find? a l = none ↔ a ∉ l.map fun k => k.1 := by
  induction l with
  | nil => simp [find?]
  | cons k l ih =>
    simp only [find?, List.map_cons, List.mem_cons, not_or]
    by_cases h : k.1 = a
    · simp [h]
    · rw [if_neg h, ih]; exact ⟨fun g => ⟨fun e => h e.symm, g⟩, fun g => g.2⟩

theorem filter_true {L : Type} (l : List L) : (l.filter fun _ => true) = l := by simp

/-! ## UCT -/

section Uct
open Verif.Uct Verif.Sampling
variable {𝕜 : Type} [Field 𝕜] [LinearOrder 𝕜] [IsStrictOrderedRing 𝕜]

theorem uct_simulates (cfg : Uct.Cfg S A 𝕜) (m : Manager S 𝕜) : Simulates (uct cfg m) (uctCode cfg) (uct cfg m) id id 0 0 where
  initVisits := rfl
  initD _ _ _ _ := rfl
  initC _ _ _ _ := rfl
  visitD _ _ := rfl
  visitC _ := rfl
  select v ctx a h := by rw [mapV_id]; exact ⟨h, rfl⟩
  blind v kids ctx a hv h := by
    refine ⟨?_, rfl⟩
    rw [kids_at hv]
    simp only [uctCode, Bool.and_eq_true, Bool.or_eq_true, decide_eq_true_eq, Bool.not_eq_true'] at h
    obtain ⟨ha, h⟩ := h
    simp only [uct, selectable, List.any_eq_true, Bool.and_eq_true, decide_eq_true_eq, List.mem_range]
    rcases h with h | ⟨⟨h1, hp⟩, h2⟩
    · obtain ⟨raw, g1, g2⟩ := sampleUniform_all ha
      refine ⟨0, by simp, ⟨le_refl _, zero_lt_one⟩, raw, g1, ?_⟩
      simp [selectAction, h, selectRandom, g2]
    · have hu : a ∈ untried ({ v with kids := kids } : View S A _ _) := by
        simp only [untried, List.mem_filter, Option.isNone_iff_eq_none, Uct.kid]
        exact ⟨ha, (find_none_iff a kids).2 h2⟩
      obtain ⟨raw, g1, g2⟩ := sampleUniform_all hu
      have hlen : (untried ({ v with kids := kids } : View S A (Stats 𝕜) (Stats 𝕜))).length ≤ v.actions.length := List.length_filter_le _ _
      have hpos : 0 < (untried ({ v with kids := kids } : View S A (Stats 𝕜) (Stats 𝕜))).length := List.length_pos_of_mem hu
      by_cases he : 0 < cfg.epsilon
      · refine ⟨cfg.epsilon, by simp, ⟨he.le, h1⟩, raw, by omega, ?_⟩
        simp [selectAction, selectUcb, hp, hpos, g2]
      · refine ⟨0, by simp, ⟨le_refl _, zero_lt_one⟩, raw, by omega, ?_⟩
        simp [selectAction, selectUcb, hp, hpos, g2, he]
  roundD := .inr rfl
  resD v kids snaps ctx args hv _ _ := by rw [kids_at hv]; rfl
  roundC := .inr rfl
  resC _ _ _ _ _ _ _ _ := rfl

end Uct

/-! ## MENTS, RENTS, TENTS -/

section
open Verif.Ments Verif.Tents Verif.Dents Verif.Backups

theorem at_eq {X Y : Type} {v : View S A X Y} {snaps : List (List (A × Nat × Y))} {kids : List (A × Nat × Y)} {j : Nat}
    (h : (snaps[j]?).map (fun l => l.map (mapK id)) = some kids) : View.at v snaps j = { v with kids := kids } := by
  unfold View.at
  rw [← round_of h, mapK_id]

theorem roundC_eq {X : Type} {snaps : List (List (S × X))} {kids : List (S × X)} {j : Nat}
    (h : (snaps[j]?).map (fun l => l.map fun k => (k.1, id k.2)) = some kids) : round snaps j = kids := by
  have := round_of h
  simpa using this

theorem ments_simulates (eps : ℝ) (cfg : Ments.Cfg S A) (lr : S → A → ℝ) :
    Simulates (ments eps cfg lr) (mentsCode cfg lr) (ments eps cfg lr) id id 0 0 where
  initVisits := rfl
  initD _ _ _ _ := rfl
  initC _ _ _ _ := rfl
  visitD _ _ := rfl
  visitC _ := rfl
  select v ctx a h := by rw [mapV_id]; exact ⟨h, rfl⟩
  blind _ _ _ _ _ h := by simp [mentsCode] at h
  roundD := .inl Nat.zero_lt_one
  resD v kids snaps ctx args hv _ h := by
    have h := h Nat.zero_lt_one
    simp only [mentsCode, filter_true] at h
    rw [kids_at hv]
    show softBackupD cfg (mentsQ cfg id (View.at v snaps 0)) v v.x = _
    rw [at_eq h]; rfl
  roundC := .inl Nat.zero_lt_one
  resC s a y kids snaps args _ h := by
    have h := roundC_eq (h Nat.zero_lt_one)
    show softBackupC _ ((round snaps 0).map _) _ = _
    rw [h]; rfl

theorem rents_simulates (eps : ℝ) (cfg : Ments.Cfg S A) (lr : S → A → ℝ) :
    Simulates (rents eps cfg lr) (rentsCode cfg lr) (rents eps cfg lr) id id 0 0 where
  initVisits := rfl
  initD _ _ _ _ := rfl
  initC _ _ _ _ := rfl
  visitD _ _ := rfl
  visitC _ := rfl
  select v ctx a h := by rw [mapV_id]; exact ⟨h, rfl⟩
  blind _ _ _ _ _ h := by simp [rentsCode] at h
  roundD := .inl Nat.zero_lt_one
  resD v kids snaps ctx args hv _ h := by
    have h := h Nat.zero_lt_one
    simp only [rentsCode, filter_true] at h
    rw [kids_at hv]
    show rentsBackupD cfg (View.at v snaps 0) ctx = _
    rw [at_eq h]; rfl
  roundC := .inl Nat.zero_lt_one
  resC s a y kids snaps args _ h := by
    have h := roundC_eq (h Nat.zero_lt_one)
    show softBackupC _ ((round snaps 0).map _) _ = _
    rw [h]; rfl

theorem find_filter {V : Type} (a : A) (l : List (A × V)) (p : A → Bool) (hp : p a = true) : find? a (l.filter fun k => p k.1) = find? a l := by
  induction l with
  | nil => rfl
  | cons k l ih =>
    by_cases h : k.1 = a
    · have : p k.1 = true := by rw [h]; exact hp
      rw [List.filter_cons, if_pos this]
      simp [find?, h]
    · by_cases h2 : p k.1 = true
      · simp [List.filter_cons, h2, find?, h, ih]
      · simp [List.filter_cons, h2, find?, h, ih]

theorem tents_simulates (eps : ℝ) (cfg : Ments.Cfg S A) (env : Env S A ℝ) (m : Manager S ℝ) (lr : S → A → ℝ) :
    Simulates (tents eps cfg env m lr) (tentsCode cfg lr) (tents eps cfg env m lr) id id 0 0 where
  initVisits := rfl
  initD _ _ _ _ := rfl
  initC _ _ _ _ := rfl
  visitD _ _ := rfl
  visitC _ := rfl
  select v ctx a h := by rw [mapV_id]; exact ⟨h, rfl⟩
  blind _ _ _ _ _ h := by simp [tentsCode] at h
  roundD := .inl Nat.zero_lt_one
  resD v kids snaps ctx args hv _ h := by
    have h := h Nat.zero_lt_one
    rw [kids_at hv]
    show tentsBackupD cfg (View.at v snaps 0) ctx = tentsBackupD cfg { v with kids := kids } ctx
    rw [at_eq h]
    unfold tentsBackupD
    dsimp only [tentsCode]
    generalize v.x = x
    cases x with
    | error e => rfl
    | ok t =>
      dsimp only
      generalize hf : find? v.depth ctx.acts = fa
      cases fa with
      | none => rfl
      | some a =>
        dsimp only
        have key : mentsQ cfg id ({ v with x := .ok t, kids := kids.filter fun k => decide (some a = some k.1) } : View S A (Except TErr (TX A)) Soft) a =
            mentsQ cfg id ({ v with x := .ok t, kids := kids } : View S A (Except TErr (TX A)) Soft) a := by
          unfold mentsQ
          dsimp only
          rw [find_filter a kids (fun b => decide (some a = some b)) (by simp)]
          rfl
        rw [key]; rfl
  roundC := .inl Nat.zero_lt_one
  resC s a y kids snaps args _ h := by
    have h := roundC_eq (h Nat.zero_lt_one)
    show softBackupC _ ((round snaps 0).map _) _ = _
    rw [h]; rfl

/-! ## EST -/

theorem est_simulates (eps : ℝ) (cfg : DCfg S A) (env : Env S A ℝ) (m : Manager S ℝ) (lr : S → A → ℝ) :
    Simulates (est eps cfg env m lr) (estCode cfg lr) (est eps cfg env m lr) id id 0 0 where
  initVisits := rfl
  initD _ _ _ _ := rfl
  initC _ _ _ _ := rfl
  visitD _ _ := rfl
  visitC _ := rfl
  select v ctx a h := by rw [mapV_id]; exact ⟨h, rfl⟩
  blind _ _ _ _ _ h := by simp [estCode] at h
  roundD := by simp only [estCode]; split <;> simp
  resD v kids snaps ctx args hv _ h := by
    rw [kids_at hv]
    show estBackupD cfg (View.at v snaps 0) args.retAfter = estBackupD cfg { v with kids := kids } args.retAfter
    by_cases hu : cfg.useDp = true
    · have h := h (by simp [estCode, hu])
      simp only [estCode, filter_true] at h
      rw [at_eq h]
    · simp [estBackupD, valueBackupD, hu, View.at]
  roundC := by simp only [estCode]; split <;> simp
  resC s a y kids snaps args _ h := by
    show estBackupC cfg (lr s a) (round snaps 0) y args.retAfter = estBackupC cfg (lr s a) kids y args.retAfter
    by_cases hu : cfg.useDp = true
    · rw [roundC_eq (h (by simp [estCode, hu]))]
    · simp [estBackupC, valueBackupC, hu]

/-! ## The parts of DB-MENTS -/

theorem mentsQ_map {X Y X' Y' : Type} (cfg : Ments.Cfg S A) (π : X → X') (ρ : Y → Y') (py : Y → Soft) (py' : Y' → Soft) (h : ∀ y, py' (ρ y) = py y)
    (v : View S A X Y) : mentsQ cfg py' (mapV π ρ v) = mentsQ cfg py v := by
  funext a
  unfold mentsQ
  simp only [mapV, find_mapK]
  cases hf : find? a v.kids with
  | none => rfl
  | some k => simp [h]

theorem selectable_map {X Y X' Y' : Type} (eps : ℝ) (cfg : Ments.Cfg S A) (π : X → X') (ρ : Y → Y') (q : A → Except Bad ℝ) (v : View S A X Y) (a : A) :
    selectable eps cfg q (mapV π ρ v) a = selectable eps cfg q v a := by
  have h1 : ∀ lam sum n l, interpolateAll cfg (mapV π ρ v) lam sum n l = interpolateAll cfg v lam sum n l := by
    intro lam sum n l
    induction l with
    | nil => rfl
    | cons p l ih => simp only [interpolateAll, ih]; rfl
  have h2 : actionDistr cfg q (mapV π ρ v) = actionDistr cfg q v := by
    unfold actionDistr fullDistr
    simp only [h1]
    rfl
  unfold selectable selectAction
  rw [h2]

/-- The soft values of DB-MENTS are those of MENTS: round 0. -/
theorem dbments_soft (eps : ℝ) (cfg : Ments.Cfg S A) (lr : S → A → ℝ) :
    Simulates (dbments eps cfg lr) (dbmentsCode cfg lr) (ments eps cfg lr) DB.soft DB.soft 0 0 where
  initVisits := rfl
  initD _ _ _ _ := rfl
  initC _ _ _ _ := rfl
  visitD _ _ := rfl
  visitC _ := rfl
  select v ctx a h := by
    refine ⟨?_, rfl⟩
    show selectable eps cfg (mentsQ cfg id (mapV DB.soft DB.soft v)) (mapV DB.soft DB.soft v) a = true
    rw [mentsQ_map cfg DB.soft DB.soft DB.soft id (fun _ => rfl), selectable_map]
    exact h
  blind _ _ _ _ _ h := by simp [dbmentsCode] at h
  roundD := .inl (by simp [dbmentsCode])
  resD v kids snaps ctx args hv _ h := by
    have h := h (by simp [dbmentsCode])
    simp only [dbmentsCode, filter_true] at h
    have h := round_of h
    show softBackupD cfg (mentsQ cfg DB.soft (View.at v snaps 0)) v v.x.soft = softBackupD cfg (mentsQ cfg id { mapV DB.soft DB.soft v with kids := kids }) _ v.x.soft
    have : ({ mapV DB.soft DB.soft v with kids := kids } : View S A Soft Soft) = mapV DB.soft DB.soft (View.at v snaps 0) := by
      simp [mapV, View.at, ← h]
    rw [this, mentsQ_map cfg DB.soft DB.soft DB.soft id (fun _ => rfl)]
    rfl
  roundC := .inl (by simp [dbmentsCode])
  resC s a y kids snaps args _ h := by
    have h := round_of (h (by simp [dbmentsCode]))
    show softBackupC (lr s a) ((round snaps 0).map fun k => k.2.soft) y.soft = softBackupC (lr s a) (kids.map fun k => k.2) y.soft
    rw [← h, List.map_map]; rfl

theorem dpPart_valid (lr : S → A → ℝ) : (dpPart lr).Valid := by intro v ctx a h; simpa [dpPart] using h

theorem empPart_valid : (empPart (S := S) (A := A) (𝕜 := ℝ)).Valid := by intro v ctx a h; simpa [empPart] using h

/-- The DP values of DB-MENTS: round 1. -/
theorem dbments_dp (eps : ℝ) (cfg : Ments.Cfg S A) (lr : S → A → ℝ) :
    Simulates (dbments eps cfg lr) (dbmentsCode cfg lr) (dpPart lr) DB.dp DB.dp 1 1 where
  initVisits := rfl
  initD _ _ _ _ := rfl
  initC _ _ _ _ := rfl
  visitD _ _ := rfl
  visitC _ := rfl
  select v ctx a h := by
    refine ⟨?_, rfl⟩
    have := dbments_valid eps cfg lr v ctx a h
    simpa [dpPart, mapV] using this
  blind _ _ _ _ _ h := by simp [dbmentsCode] at h
  roundD := .inl (by simp [dbmentsCode])
  resD v kids snaps ctx args hv _ h := by
    have h := h (by simp [dbmentsCode])
    simp only [dbmentsCode, filter_true] at h
    have h := round_of h
    show dpBackupD v.opp ((round snaps 1).map fun k => k.2.2.dp) v.x.dp = dpBackupD v.opp (kids.map fun k => k.2.2) v.x.dp
    rw [← h, List.map_map]; rfl
  roundC := .inl (by simp [dbmentsCode])
  resC s a y kids snaps args _ h := by
    have h := round_of (h (by simp [dbmentsCode]))
    show dpBackupC (lr s a) ((round snaps 1).map fun k => k.2.dp) y.dp = dpBackupC (lr s a) (kids.map fun k => k.2) y.dp
    rw [← h, List.map_map]; rfl

/-! ## The parts of DENTS -/

/-- The DP values of DENTS: the last round. -/
theorem dents_dp (eps : ℝ) (cfg : DCfg S A) (env : Env S A ℝ) (m : Manager S ℝ) (lr : S → A → ℝ) (hu : cfg.useDp = true) :
    Simulates (dents eps cfg env m lr) (dentsCode cfg lr) (dpPart lr) DX.dp DY.dp 2 1 where
  initVisits := rfl
  initD _ _ _ _ := rfl
  initC _ _ _ _ := rfl
  visitD _ _ := rfl
  visitC _ := rfl
  select v ctx a h := by
    refine ⟨?_, rfl⟩
    have := dents_valid eps cfg env m lr v ctx a h
    simpa [dpPart, mapV] using this
  blind _ _ _ _ _ h := by simp [dentsCode] at h
  roundD := .inl (by simp [dentsCode, hu])
  resD v kids snaps ctx args hv _ h := by
    have h := h (by simp [dentsCode, hu])
    simp only [dentsCode, filter_true] at h
    have h := round_of h
    have e : ((dentsCode cfg lr).resD v snaps ctx args).dp = dpBackupD v.opp ((round snaps 2).map fun k => k.2.2.dp) v.x.dp := by
      simp [dentsCode, valueBackupD, hu, View.at]
    show ((dentsCode cfg lr).resD v snaps ctx args).dp = dpBackupD v.opp (kids.map fun k => k.2.2) v.x.dp
    rw [e, ← h, List.map_map]; rfl
  roundC := .inl (by simp [dentsCode, hu])
  resC s a y kids snaps args _ h := by
    have h := round_of (h (by simp [dentsCode, hu]))
    have e : ((dentsCode cfg lr).resC s a y snaps args).dp = dpBackupC (lr s a) ((round snaps 1).map fun k => k.2.dp) y.dp := by
      simp [dentsCode, valueBackupC, hu]
    show ((dentsCode cfg lr).resC s a y snaps args).dp = dpBackupC (lr s a) (kids.map fun k => k.2) y.dp
    rw [e, ← h, List.map_map]; rfl

/-- The empirical averages of DENTS read no child. -/
theorem dents_emp (eps : ℝ) (cfg : DCfg S A) (env : Env S A ℝ) (m : Manager S ℝ) (lr : S → A → ℝ) (hu : cfg.useDp = false) :
    Simulates (dents eps cfg env m lr) (dentsCode cfg lr) empPart DX.emp DY.emp 1 0 where
  initVisits := rfl
  initD _ _ _ _ := rfl
  initC _ _ _ _ := rfl
  visitD _ _ := rfl
  visitC _ := rfl
  select v ctx a h := by
    refine ⟨?_, rfl⟩
    have := dents_valid eps cfg env m lr v ctx a h
    simpa [empPart, mapV] using this
  blind _ _ _ _ _ h := by simp [dentsCode] at h
  roundD := .inl (by simp [dentsCode, hu])
  resD v kids snaps ctx args hv _ h := by
    simp [dentsCode, valueBackupD, hu, View.at, empPart, mapV]
  roundC := .inl (by simp [dentsCode, hu])
  resC s a y kids snaps args _ h := by
    simp [dentsCode, valueBackupC, hu, empPart]

end

end Verif.LockLevel
