import Verif.Spec.LockDiamond
import Verif.Proofs.LockReach
import Verif.Proofs.Erase
import Mathlib.Tactic.ByContra
import Mathlib.Data.List.Basic

/-! # With the transposition table two backups can wait for each other, whatever the algorithm -/

namespace Verif.Search

variable {S A R X Y : Type} [DecidableEq S] [DecidableEq A] [Add R] [Zero R] {env : Env S A R} {m : Manager S R} {alg : Alg S A R X Y}

/-- The algorithm with the same data that may select any valid action. -/
def Alg.freed (alg : Alg S A R X Y) : Alg S A R X Y := { alg with canSelect := fun v _ a => decide (a ∈ v.actions) }

/-- If every state has at most one action then an algorithm that finds an action finds it. -/
theorem step_single {k : Nat} {s0 : S} {dp tm : Int} {tb : List ((Int × S) × Option Nat)} (h1 : ∀ s, (env.actions s).length ≤ 1)
    (hv : alg.Valid) (hs : Selects env m alg k s0 dp tm tb) {st : St S A R X Y} {h : List (Event S A R)}
    (hr : Reachable env m alg k s0 dp tm tb st h) {w : Nat} {ch : Choice S A} {r : St S A R X Y × Event S A R}
    (hst : step env m alg.freed st w ch = some r) : step env m alg st w ch = some r := by
  have hcr : st.crashed = none := by
    by_contra hc
    have : st.crashed.isSome = true := by cases h : st.crashed <;> simp_all
    unfold step at hst; rw [if_pos this] at hst; cases hst
  cases hw : st.ws[w]? with
  | none => unfold step at hst; simp [hcr, hw] at hst
  | some p =>
    cases p with
    | sel cur path rs new =>
      cases hd : st.dn[cur]? with
      | none => unfold step at hst ⊢; simpa [hcr, hw, hd] using hst
      | some nd =>
        by_cases hcont : shouldContinue env m nd new = true
        · cases ch with
          | act a =>
            obtain ⟨a', s', e, h2⟩ := hs hr hcr hw hd hcont
            have hx : a ∈ env.actions nd.state := by
              by_contra hn
              unfold step blockD at hst
              simp [hcr, hw, hd, hcont, Alg.freed, viewOf, hn] at hst
            have hy : alg.canSelect (viewOf env m st { nd with visits := nd.visits + 1, x := alg.visitD false nd.x }) (st.ctxOf w) a' = true := by
              by_contra hn
              unfold step blockD at h2
              simp only [hcr, hw, hd, hcont, if_true, Option.isSome_none, Bool.false_eq_true, if_false] at h2
              rw [if_neg hn] at h2
              cases h2
            have hz : a' ∈ env.actions nd.state := hv _ _ _ hy
            have : a' = a := by
              have := h1 nd.state
              match hl : env.actions nd.state, hx, hz, this with
              | [b], hx, hz, _ => simp at hx hz; rw [hx, hz]
            subst this
            unfold step blockD at hst ⊢
            simp only [hcr, hw, hd, hcont, if_true, Option.isSome_none, Bool.false_eq_true, if_false] at hst ⊢
            rw [if_pos hy]
            rw [if_pos (by simpa [Alg.freed, viewOf] using hx)] at hst
            exact hst
          | _ => unfold step at hst; simp [hcr, hw, hd, hcont] at hst
        · unfold step at hst ⊢
          simpa [hcr, hw, hd, hcont, Alg.freed, blockEnd] using hst
    | _ =>
      unfold step at hst ⊢
      simp only [hcr, hw, Option.isSome_none, Bool.false_eq_true, if_false] at hst ⊢
      exact hst

theorem exec_single {k : Nat} {s0 : S} {dp tm : Int} {tb : List ((Int × S) × Option Nat)} (h1 : ∀ s, (env.actions s).length ≤ 1)
    (hv : alg.Valid) (hs : Selects env m alg k s0 dp tm tb) {ls : List (Nat × Choice S A)} {st : St S A R X Y} {h : List (Event S A R)}
    (hr : Reachable env m alg k s0 dp tm tb st h) {r : St S A R X Y × List (Event S A R)}
    (hst : execFrom env m alg.freed st h ls = some r) : Reachable env m alg k s0 dp tm tb r.1 r.2 := by
  induction ls generalizing st h with
  | nil => simp [execFrom] at hst; subst hst; exact hr
  | cons l ls ih =>
    obtain ⟨w, ch⟩ := l
    simp only [execFrom] at hst
    cases hx : step env m alg.freed st w ch with
    | none => rw [hx] at hst; cases hst
    | some p =>
      rw [hx] at hst
      refine ih (reach_append (ls := [(w, ch)]) hr ?_) hst
      simp [execFrom, step_single h1 hv hs hr hx]

/-- Runs of the algorithm without data are, up to the data, runs of any algorithm that always finds an action. -/
theorem run_single {k : Nat} {s0 : S} {dp tm : Int} (h1 : ∀ s, (env.actions s).length ≤ 1)
    (hv : alg.Valid) (hs : Selects env m alg k s0 dp tm []) (ls : List (Nat × Choice S A)) (P : St S A R Unit Unit → Prop)
    (h : ∃ p, execFrom env m (free S A R alg.initVisits) (init env m (free S A R alg.initVisits) k s0 dp tm []) [] ls = some p ∧ P p.1) :
    ∃ st h, Reachable env m alg k s0 dp tm [] st h ∧ P st.erase := by
  obtain ⟨p, h2, h3⟩ := h
  have h4 : init env m (free S A R alg.initVisits) k s0 dp tm [] = (init env m alg.freed k s0 dp tm []).erase := (init_erase ..).symm
  rw [h4] at h2
  have h5 := exec_erase (env := env) (m := m) (alg := alg.freed) (fun _ _ _ => rfl) ls (init env m alg.freed k s0 dp tm []) []
  have h6 : execFrom env m (free S A R alg.initVisits) (init env m alg.freed k s0 dp tm []).erase [] ls = _ := h5
  rw [h2] at h6
  obtain ⟨q, h7, h8⟩ := Option.map_eq_some_iff.1 h6.symm
  refine ⟨q.1, q.2, exec_single h1 hv hs ⟨[], rfl⟩ (ls := ls) (h := []) ?_, by rw [← h8] at h3; exact h3⟩
  exact h7

end Verif.Search

namespace Verif.LockLevel

open Verif.Search

namespace Diamond

variable {R X Y : Type} [AddMonoid R] {alg : Alg Nat Nat R X Y} {code : Code Nat Nat R X Y} {r : R}

theorem single : ∀ s, ((env r).actions s).length ≤ 1 := by
  intro s; simp only [env]; split <;> simp

theorem live : (env r).Live where
  acts s h := by simp [env] at h ⊢; exact h
  succs s h a _ := by simp only [env]; split <;> simp

/-- What matters of the state in which the workers are about to back up their second trials. -/
structure Before (s : St Nat Nat R Unit Unit) : Prop where
  ws : ∃ b1 r1 a1 t1 u1 b2 r2 a2 t2 u2, s.ws = [.back [(0, 0), (1, 1)] (b1 ++ [r1]) a1 t1 u1, .back [(0, 0), (3, 2)] (b2 ++ [r2]) a2 t2 u2]
  crashed : s.crashed = none
  dn : s.dn.length = 5
  cn : s.cn.map (fun c => c.kids) = [[(1, 1), (2, 3)], [(3, 2), (4, 4)], [(4, 4), (3, 2)]]

theorem before_run (iv : Nat) : ∃ p, execFrom (env r) mgr (free Nat Nat R iv) (init (env r) mgr (free Nat Nat R iv) 2 0 0 0 []) [] blocks =
    some p ∧ Before p.1 := by
  refine ⟨_, by cbv, ?_⟩
  exact ⟨⟨[r], r, _, _, _, [r], r, _, _, _, rfl⟩, rfl, rfl, rfl⟩

theorem meets (hn : code.nC ≠ 0) {s : St Nat Nat R X Y} {h : List (Event Nat Nat R)} (B : Before s.erase) (hash : Int × Nat → Nat) :
    ∃ f', fexec (env r) mgr hash alg code (ofSt s) h meet = some (f', h) ∧ AllStuck (env r) mgr hash alg code f' := by
  obtain ⟨⟨b1, r1, a1, t1, u1, b2, r2, a2, t2, u2, hws⟩, hcr, hdn, hcn⟩ := B
  obtain ⟨root, dn, cn, table, ws, ctxs, crashed⟩ := s
  simp only [St.erase, List.length_map, List.map_map] at hws hcr hdn hcn
  subst hws hcr
  obtain ⟨c0, c1, c2, rfl⟩ := List.length_eq_three.1 (by simpa using congrArg List.length hcn)
  simp only [List.map_cons, List.map_nil, List.cons.injEq, and_true, Function.comp, CNode.erase] at hcn
  obtain ⟨-, h1, h2⟩ := hcn
  have e1 : ([2, 4] : List Nat).Perm (c1.kids.map fun k => k.2) := by rw [h1]; exact List.Perm.refl _
  have e2 : ([4, 2] : List Nat).Perm (c2.kids.map fun k => k.2) := by rw [h2]; exact List.Perm.refl _
  refine ⟨_, by
    simp [meet, fexec, fstep, ofSt, acquire, tau, hn, e1, e2, hdn, FSt.setW, FSt.setLock]
    rfl, ⟨rfl, ⟨0, _, rfl, by simp⟩, ?_⟩, ?_⟩
  swap
  · intro w p hp
    match w, hp with
    | 0, hp => simp at hp; subst hp; simp
    | 1, hp => simp at hp; subst hp; simp
    | w + 2, hp => simp at hp
  intro w p hp _ ch
  match w, hp with
  | 0, hp =>
    simp at hp; subst hp
    cases ch <;> simp [fstep, acquire, hdn]
  | 1, hp =>
    simp at hp; subst hp
    cases ch <;> simp [fstep, acquire, hdn]
  | w + 2, hp => simp at hp

/-- On the diamond every algorithm whose backups of chance nodes lock the children can deadlock. -/
theorem deadlocks (hF : Faithful alg code) (hv : alg.Valid) (hn : code.nC ≠ 0) (hs : Selects (env r) mgr alg 2 0 0 0 [])
    (hash : Int × Nat → Nat) :
    ∃ f h, FReachable (env r) mgr hash alg code 2 0 0 0 [] f h ∧ AllStuck (env r) mgr hash alg code f := by
  obtain ⟨s, h, ⟨ls, hx⟩, hB⟩ := run_single single hv hs blocks Before (before_run _)
  have h1 := complete (hash := hash) hF hv (by simp [Leftover]) ls hx hB.crashed
  obtain ⟨f', h2, h3⟩ := meets (alg := alg) (r := r) hn (h := h) hB hash
  exact ⟨f', h, freach_append h1 h2, h3⟩

end Diamond

end Verif.LockLevel
