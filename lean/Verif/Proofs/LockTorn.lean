import Verif.Proofs.LockChain
import Verif.Proofs.Dp

/-! # DB-MENTS on the chain: with backups that read once the two values of a node agree -/

namespace Verif.LockLevel

open Verif.Search Verif.Ments Verif.Dents Verif.Backups Verif.Sampling

namespace Chain

/-- Default configuration, with some exploration. -/
noncomputable def cfg : Ments.Cfg Nat Nat :=
  { temp := 1, priorWeight := 0, epsilon := 1 / 2, rootEpsilon := -1, maxExplore := 1, decay := none, minTemp := 1 / 10 ^ 6,
    scale := 1, rootScale := -1, defaultQ := 0, shift := false, offset := 0, threshold := 0, mostVisited := false, prior := none,
    low := -10 ^ 308 }

noncomputable def lr (_ _ : Nat) : ℝ := 1

theorem soft_single {X Y : Type} (q : Nat → Except Bad ℝ) (v : View Nat Nat X Y) (ho : v.opp = false) (ha : v.actions = [0]) {x : ℝ}
    (hq : q 0 = .ok x) : softValue cfg q v = .ok x := by
  unfold softValue
  rw [ha]
  simp only [qList, hq, weights, normTerm, List.map_cons, List.map_nil, List.foldl_cons, List.foldl_nil, zero_add, getTemp, cfg, ho, div_one]
  rw [Real.log_exp]
  simp [oppCoeff]

theorem can_select {X : Type} (eps : ℝ) (he : 0 ≤ eps) (v : View Nat Nat X DB) (ha : v.actions = [0])
    (hk : (v.kids.all fun k => k.2.2.soft.val.isSome) = true) : selectable eps cfg (mentsQ cfg DB.soft v) v 0 = true := by
  have hq : ∃ x, mentsQ cfg DB.soft v 0 = .ok x := by
    unfold mentsQ
    cases hf : find? 0 v.kids with
    | none => exact ⟨_, rfl⟩
    | some k =>
      have hm : ∀ l : List (Nat × Nat × DB), (l.all fun k => k.2.2.soft.val.isSome) = true → find? 0 l = some k → k.2.soft.val.isSome = true := by
        intro l
        induction l with
        | nil => intro _ h; simp [find?] at h
        | cons p l ih =>
          intro h1 h2
          simp only [List.all_cons, Bool.and_eq_true] at h1
          simp only [find?] at h2
          split at h2
          · cases h2; exact h1.1
          · exact ih h1.2 h2
      obtain ⟨x, hx⟩ := Option.isSome_iff_exists.1 (hm _ hk hf)
      simp [hx]
  obtain ⟨x, hq⟩ := hq
  have hl : ∃ lam, lambda cfg v = .ok lam := by
    have h1 : ¬ (isRoot v = true ∧ cfg.rootEpsilon > 0) := by simp [cfg]
    have h2 : 0 < cfg.epsilon := by simp [cfg]
    unfold lambda
    rw [if_neg h1]
    dsimp only
    rw [if_pos h2]
    split <;> exact ⟨_, rfl⟩
  obtain ⟨lam, hl⟩ := hl
  unfold selectable
  rw [@decide_eq_true_eq _ (Classical.propDecidable _)]
  refine ⟨0, id, le_rfl, one_pos, fun l => List.Perm.refl l, ?_⟩
  have hd : actionDistr cfg (mentsQ cfg DB.soft v) v = .ok [(0, 1)] := by
    have hE : ¬ (1 : ℝ) < EPS := by simp only [EPS]; norm_num
    have hf : fullDistr cfg (mentsQ cfg DB.soft v) v = .ok [(0, 1)] := by
      unfold fullDistr
      rw [ha, hl]
      simp only [qList, hq, weights, List.map_cons, List.map_nil, List.foldl_cons, List.foldl_nil, zero_add, interpolateAll, interpolate]
      have hne := Real.exp_ne_zero (x / getTemp cfg v - normTerm (getTemp cfg v) [(0, x)] cfg.low)
      have : ¬ cfg.priorWeight > 0 := by simp [cfg]
      simp only [this, if_false]
      congr 3
      field_simp
      simp
    unfold actionDistr
    rw [hf]
    simp only [List.filter_cons, hE, not_false_eq_true, decide_true, if_true, List.filter_nil]
  unfold selectAction
  rw [hd]
  simp [sampleFrom, sampleLoop, he]

theorem mean_single {n : Nat} {x : ℝ} (h : n = 0 → x = 0) : meanLoop [(n, x)] 0 0 = x := by
  unfold meanLoop
  split
  · rename_i hn; rw [h hn]; rfl
  · rename_i hn
    have : (n : ℝ) ≠ 0 := by exact_mod_cast hn
    simp [meanLoop]
    field_simp

/-- The two values of each node agree. -/
structure Agree (st : St Nat Nat ℝ DB DB) : Prop where
  d : ∀ (d : Nat) nd, st.dn[d]? = some nd →
    (∃ v, nd.x.soft.val = some v ∧ nd.x.dp.val = some v ∧ (nd.x.soft.n = 0 → v = 0) ∧ nd.x.dp.n ≠ 0) ∧
    (nd.kids = [] ∨ nd.state ≠ 2 ∧ ∃ c, nd.kids = [(0, c)])
  c : ∀ (c : Nat) nc, st.cn[c]? = some nc →
    (nc.y.dp.n ≠ 0 → ∃ v, nc.y.soft.val = some v ∧ nc.y.dp.val = some v) ∧
    (nc.kids = [] ∨ ∃ d, nc.kids = [(nc.state + 1, d)])

variable {eps : ℝ} {k : Nat} {tb : List ((Int × Nat) × Option Nat)}

theorem agree_init : Agree (init (env 1) mgr (dbments eps cfg lr) k 0 0 0 tb) := by
  constructor
  · intro d nd hd
    rcases d with _ | d
    · simp [init] at hd
      subst hd
      refine ⟨⟨0, ?_⟩, .inl rfl⟩
      simp [newD, dbments, softInitD, dpInitD, heurOf, mgr]
    · simp [init] at hd
  · intro c nc hc
    simp [init] at hc

theorem agree_eff {st st' : St Nat Nat ℝ DB DB} {h : List (Event Nat Nat ℝ)} {w : Nat} {e : Event Nat Nat ℝ}
    (I : Inv (env (1 : ℝ)) mgr 0 0 0 st h) (D : DpInv (env (1 : ℝ)) mgr DB.dp DB.dp st h) (H : Agree st)
    (E : Eff (env 1) mgr (dbments eps cfg lr) st w e st') : Agree st' := by
  have hact : ∀ {v : View Nat Nat DB DB} {ctx : Ctx Nat ℝ} {a : Nat} {s : Nat}, v.actions = (env (1 : ℝ)).actions s →
      (dbments eps cfg lr).canSelect v ctx a = true → s ≠ 2 ∧ a = 0 := by
    intro v ctx a s hv ha
    have := dbments_valid eps cfg lr _ _ _ ha
    rw [hv] at this
    simp only [env] at this
    split at this
    · simp at this
    · exact ⟨‹_›, by simpa using this⟩
  constructor
  · intro d nd' hd'
    rcases dn_chg E hd' with ⟨nd, hd, hchg⟩ | ⟨rfl, _, s, dep, tim, rfl⟩
    · obtain ⟨⟨v, h1, h2, h3, h4⟩, h5⟩ := H.d d nd hd
      cases hchg with
      | same he => exact ⟨⟨v, h1, h2, h3, h4⟩, h5⟩
      | selOld hl ha hf => exact ⟨⟨v, by simpa [dbments, softVisit, dpVisit] using ⟨h1, h2, h3, h4⟩⟩, h5⟩
      | selNew hl ha hf =>
        refine ⟨⟨v, by simpa [dbments, softVisit, dpVisit] using ⟨h1, h2, h3, h4⟩⟩, .inr ?_⟩
        obtain ⟨hs, rfl⟩ := hact (s := nd.state) rfl ha
        refine ⟨hs, ?_⟩
        rcases h5 with h5 | ⟨_, c, h5⟩
        · exact ⟨st.cn.length, by simp [h5]⟩
        · rw [h5] at hf; simp [find?] at hf
      | ended =>
        refine ⟨⟨v, ?_⟩, h5⟩
        simp only [dbments, softVisit, dpVisit]
        split
        · refine ⟨h1, h2, ?_, by simp⟩
          intro h; simp at h
        · exact ⟨h1, h2, h3, h4⟩
      | @backed w' args =>
        obtain ⟨_, nodes, nd0, hw, _⟩ := eff_backedD E
        obtain ⟨nd1, a, c, nc, k1, k2, k3, k4⟩ := backD_kid I hw
        rw [hd] at k1
        obtain rfl := Option.some.inj k1
        rcases h5 with h5 | ⟨hs, c', h5⟩
        · rw [h5] at k2; simp at k2
        · rw [h5] at k2
          simp only [List.mem_singleton, Prod.mk.injEq] at k2
          obtain ⟨rfl, rfl⟩ := k2
          have hn : nc.y.dp.n ≠ 0 := by rw [(D.c c nc k3).1]; exact fun h => k4 (List.length_eq_zero_iff.1 h)
          obtain ⟨u, u1, u2⟩ := (H.c c nc k3).1 hn
          have hk : kidsY st nd = [(0, nc.visits, nc.y)] := by simp [kidsY, h5, k3]
          have hkv : (viewOf (env (1 : ℝ)) mgr st nd).kids = [(0, nc.visits, nc.y)] := hk
          refine ⟨⟨u, ?_, ?_, ?_, ?_⟩, .inr ⟨hs, c, h5⟩⟩
          · simp only [dbments, softBackupD]
            rw [soft_single (x := u)]
            · simp [viewOf, isOpponent, mgr]
            · simp [viewOf, env, hs]
            · simp only [mentsQ]
              rw [hkv]
              simp [find?, u1, viewOf, isOpponent, mgr, oppCoeff]
          · simp only [dbments, dpBackupD]
            rw [hkv]
            simp [finiteKids, u2, maxLoop, hn]
          · intro h; simp [dbments, softBackupD] at h
          · simp [dbments, dpBackupD]
    · refine ⟨⟨0, ?_⟩, .inl rfl⟩
      simp [newD, dbments, softInitD, dpInitD, heurOf, mgr]
  · intro c nc' hc'
    rcases cn_chg E hc' with ⟨nc, hc, hchg⟩ | ⟨rfl, _, nd, a, rfl⟩
    · obtain ⟨h1, h2⟩ := H.c c nc hc
      cases hchg with
      | same he => exact ⟨h1, h2⟩
      | stepped ho hk =>
        refine ⟨h1, ?_⟩
        simp only [env, List.mem_singleton] at ho
        subst ho
        rcases hk with ⟨_, _, rfl⟩ | ⟨_, hf, rfl⟩
        · exact h2
        · rcases h2 with h2 | ⟨d, h2⟩
          · exact .inr ⟨_, by rw [h2]; rfl⟩
          · rw [h2] at hf; simp [find?] at hf
      | @backed w' args =>
        refine ⟨fun _ => ?_, h2⟩
        rcases h2 with h2 | ⟨d, h2⟩
        · exact ⟨1, by simp [dbments, softBackupC, kidsX, h2, finiteSoft, meanLoop, lr], by simp [dbments, dpBackupC, kidsX, h2, finiteKids, meanLoop, lr]⟩
        · cases hd : st.dn[d]? with
          | none =>
            exact ⟨1, by simp [dbments, softBackupC, kidsX, h2, hd, finiteSoft, meanLoop, lr],
              by simp [dbments, dpBackupC, kidsX, h2, hd, finiteKids, meanLoop, lr]⟩
          | some nd =>
            obtain ⟨⟨v, g1, g2, g3, g4⟩, _⟩ := H.d d nd hd
            refine ⟨v + 1, ?_, ?_⟩
            · simp only [dbments, softBackupC, kidsX, h2, List.filterMap_cons, hd, Option.map_some, List.filterMap_nil, List.map_cons, List.map_nil,
                finiteSoft, g1, lr]
              rw [mean_single g3]
            · simp only [dbments, dpBackupC, kidsX, h2, List.filterMap_cons, hd, Option.map_some, List.filterMap_nil, List.map_cons, List.map_nil,
                finiteKids, g2, lr]
              rw [mean_single (fun h => absurd h g4)]
    · refine ⟨?_, .inl rfl⟩
      intro h; simp [newC, dbments, dpInitC] at h

theorem agree_reach (htb : Leftover tb) {st : St Nat Nat ℝ DB DB} {h : List (Event Nat Nat ℝ)}
    (hr : Reachable (env 1) mgr (dbments eps cfg lr) k 0 0 0 tb st h) : Agree st := by
  obtain ⟨ls, hx⟩ := hr
  have := exec_induct (fun s h => (Inv (env (1 : ℝ)) mgr 0 0 0 s h ∧ Touch s h ∧ DpInv (env (1 : ℝ)) mgr DB.dp DB.dp s h) ∧ Agree s)
    (fun _ _ _ _ _ hp _ E => ⟨⟨inv_eff (dbments_valid eps cfg lr) hp.1.1 E, touch_eff hp.1.2.1 E, dp_eff (dbments_hasDp eps cfg lr) hp.1.1 hp.1.2.1 hp.1.2.2 E⟩,
      agree_eff hp.1.1 hp.1.2.2 hp.2 E⟩)
    ⟨⟨inv_init (env (1 : ℝ)) mgr (dbments eps cfg lr) k 0 0 0 tb htb, ⟨by simp, by simp⟩, dp_init (dbments_hasDp eps cfg lr) k 0 0 0 tb⟩, agree_init⟩ hx
  exact this.2

/-- The run with the overlapping backups, for DB-MENTS. -/
theorem torn (he : 0 ≤ eps) : ∃ f h nc, FReachable (env 1) mgr hash (dbments eps cfg lr) (dbmentsCode cfg lr) 2 0 0 0 [] f h ∧ Quiet f ∧
    f.crashed = none ∧ f.cn[0]? = some nc ∧ nc.y.soft.val = some 1 ∧ nc.y.dp.val = some 2 ∧ nc.y.dp.n ≠ 0 := by
  have key := run_free (1 : ℝ) cfg.defaultQ dpInitC (dbments eps cfg lr) (dbmentsCode cfg lr).resD (dbmentsCode cfg lr).resC (dbmentsCode cfg lr).selBlind
  obtain ⟨⟨f, h⟩, hx, key⟩ := Option.map_eq_some_iff.1 key
  simp only [Prod.mk.injEq] at key
  obtain ⟨k1, k2, k3⟩ := key
  obtain ⟨nc, k3, k4⟩ := Option.map_eq_some_iff.1 k3
  refine ⟨f, h, nc, ⟨sched, fexec_sel (sel := (freely (dbments eps cfg lr) cfg.defaultQ dpInitC).canSelect) ?_ hx⟩, ?_, k2, k3, ?_, ?_, ?_⟩
  · intro v ctx a hv hc
    simp only [freely, Bool.and_eq_true, decide_eq_true_eq] at hc
    have ha : v.actions = [0] ∧ a = 0 := by
      have := hc.1
      rw [hv] at this ⊢
      simp only [env] at this ⊢
      split at this
      · simp at this
      · rename_i h; simp [h]; simpa using this
    rw [ha.2]
    exact can_select eps he v ha.1 hc.2
  · intro w p hp
    rw [k1] at hp
    rcases w with _ | _ | w <;> simp [ends] at hp
    · exact ⟨_, hp.symm⟩
    · exact ⟨_, hp.symm⟩
  · rw [k4]
    simp [dbmentsCode, round, softBackupC, before, dbments, softVisit, softInitD, finiteSoft, meanLoop, lr]
  · rw [k4]
    simp [dbmentsCode, round, dpBackupC, before, after, lower, freely, dbments, dpVisit, dpInitD, dpInitC, dpBackupD, finiteKids, meanLoop, maxLoop, lr]
    norm_num
  · rw [k4]
    simp [dbmentsCode, dpBackupC]

/-- No run of the search whose backups read the children once gets to that state. -/
theorem torn_new (htb : Leftover tb) {f : FSt Nat Nat ℝ DB DB} {nc : CNode Nat Nat ℝ DB} (hc : f.cn[0]? = some nc) (h1 : nc.y.soft.val = some 1)
    (h2 : nc.y.dp.val = some 2) (h3 : nc.y.dp.n ≠ 0) :
    ¬ ∃ h', Reachable (env 1) mgr (dbments eps cfg lr) k 0 0 0 tb (quietState id id f) h' := by
  rintro ⟨h', hr⟩
  have A := agree_reach htb hr
  have hc' : (quietState id id f).cn[0]? = some nc := by
    simp [quietState, hc, mapC]
  obtain ⟨v, g1, g2⟩ := (A.c 0 nc hc').1 h3
  rw [h1] at g1
  rw [h2] at g2
  have e1 := Option.some.inj g1
  have e2 := Option.some.inj g2
  linarith

end Chain

end Verif.LockLevel
