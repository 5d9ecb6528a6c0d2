import Verif.Props.FpSoftTree
import Verif.Proofs.Visits
import Verif.Proofs.LocalInv

/-! # The values of a MENTS search with doubles are bounded in every reachable state (C98) -/

set_option linter.unusedSectionVars false
set_option linter.unusedSimpArgs false

namespace Verif.Fp

open Verif.Search Verif.Backups Verif.Props
open Verif.Ments (sgn softmax softWeight)

variable {S A X Y : Type} [DecidableEq S] [DecidableEq A]
  {env : Env S A ℚ} {m : Manager S ℚ} {alg : Alg S A ℚ X Y} {px : X → SoftF} {py : Y → SoftF} {ex lg : ℚ → ℚ} {cfg : MentsCfg} {lr : S → A → ℚ}
  {k : Nat} {s0 : S} {dp tm : Int} {tb : List ((Int × S) × Option Nat)} {st st' : St S A ℚ X Y} {h : List (Event S A ℚ)}
  {ρ M : ℚ} {K n D N : Nat} {α β : ℝ}

theorem begun_mono (e : Event S A ℚ) (h : List (Event S A ℚ)) : trialsBegun h ≤ trialsBegun (e :: h) := by
  unfold trialsBegun
  rw [List.countP_cons]
  omega

/-- A node is backed up at most once per trial. -/
theorem softN_le (H : HasFpSoft alg px py ex lg cfg lr) (hv : alg.Valid) (htb : Leftover tb) (hr : Reachable env m alg k s0 dp tm tb st h) {d : Nat}
    {nd : DNode S A ℚ X} (hd : st.dn[d]? = some nd) : (px nd.x).n ≤ trialsBegun h := by
  rw [(softF_reach H hr d nd hd).1]
  obtain ⟨j, hj⟩ := depth_ge hv htb hr hd
  have e1 : h.countP Event.isBegan = trialsBegun h := countP_congr' h (fun e => by cases e <;> rfl)
  have V := reach_vinv hv htb hr d nd j hd hj
  have := (reach_bk hr).1.d d
  split <;> omega

/-- Bound on the values of a decision node at depth `dep`. -/
noncomputable def boundD (m : Manager S ℚ) (cfg : MentsCfg) (ρ M : ℚ) (K n : Nat) (α β : ℝ) (dep : Int) : ℝ :=
  (remaining m dep + 1) * ρ + remaining m dep * (cfg.temp * Real.log n + softError K n cfg.temp M α β)

/-- Bound on the values of a chance node at depth `dep`. -/
noncomputable def boundC (m : Manager S ℚ) (cfg : MentsCfg) (ρ M : ℚ) (K n : Nat) (α β : ℝ) (dep : Int) : ℝ :=
  ρ + boundD m cfg ρ M K n α β (dep + 1) + (8 * K + 3) * (unit * M)

/-- All values are within the bounds. -/
structure BoundedF (m : Manager S ℚ) (px : X → SoftF) (py : Y → SoftF) (cfg : MentsCfg) (ρ M : ℚ) (K n : Nat) (α β : ℝ) (st : St S A ℚ X Y) : Prop where
  d : ∀ (d : Nat) nd, st.dn[d]? = some nd → |((px nd.x).val : ℝ)| ≤ boundD m cfg ρ M K n α β nd.depth
  c : ∀ (c : Nat) nc, st.cn[c]? = some nc → |((py nc.y).val : ℝ)| ≤ boundC m cfg ρ M K n α β nc.depth

section
variable (G : GoodMath ex lg α β) (F : SoftFits env m cfg lr ρ M K n D α β dp h)
include G F

theorem rho_nonneg : (0 : ℝ) ≤ ρ := by exact_mod_cast le_trans (abs_nonneg _) F.default

theorem parts_nonneg : (0 : ℝ) ≤ cfg.temp * Real.log n ∧ 0 ≤ softError K n cfg.temp M α β ∧ (0 : ℝ) ≤ (8 * K + 3) * (unit * M) ∧
    (8 * K + 3 : ℝ) * (unit * M) ≤ softError K n cfg.temp M α β := by
  have hM : 0 ≤ M := by have := F.one; linarith
  have ht : (0 : ℝ) < cfg.temp := by exact_mod_cast F.temp.2
  have hu0 : (0 : ℝ) < unit := by exact_mod_cast unit_pos
  have hM' : (0 : ℝ) ≤ M := by exact_mod_cast hM
  have hti : (0 : ℝ) < tiny := by exact_mod_cast tiny_pos
  have hα := G.α.1
  have hβ := G.β.1
  have e1 : (0 : ℝ) ≤ cfg.temp * (16 * n * unit + 4 * α + 2 * n * β) := by positivity
  have e2 : (0 : ℝ) ≤ unit * M := by positivity
  refine ⟨mul_nonneg ht.le (Real.log_natCast_nonneg _), softError_nonneg F.temp.2 hM hα hβ, by positivity, ?_⟩
  unfold softError
  linarith

theorem rho_le_boundD (dep : Int) : (ρ : ℝ) ≤ boundD m cfg ρ M K n α β dep := by
  obtain ⟨h1, h2, _⟩ := parts_nonneg G F
  have h3 := rho_nonneg G F
  unfold boundD
  have h4 : (0 : ℝ) ≤ remaining m dep * ρ := by positivity
  have h5 : (0 : ℝ) ≤ remaining m dep * (cfg.temp * Real.log n + softError K n cfg.temp M α β) := by positivity
  linarith

theorem rho_le_boundC (dep : Int) : (ρ : ℝ) ≤ boundC m cfg ρ M K n α β dep := by
  obtain ⟨h1, h2, h3, _⟩ := parts_nonneg G F
  have h4 := rho_nonneg G F
  have h5 := rho_le_boundD G F (dep + 1)
  unfold boundC
  linarith

theorem boundD_le {dep : Int} (hdep : remaining m dep ≤ D) : boundD m cfg ρ M K n α β dep ≤ M := by
  have h1 : (remaining m dep : ℝ) ≤ D := by exact_mod_cast hdep
  have := range_le G F (i := remaining m dep + 1) (j := remaining m dep) (l := remaining m dep) (by linarith) (by linarith) (by linarith)
  unfold boundD
  linarith

theorem boundC_le {dep : Int} (hdep : remaining m (dep + 1) + 1 ≤ D) : boundC m cfg ρ M K n α β dep ≤ M := by
  have h1 : (remaining m (dep + 1) : ℝ) + 1 ≤ D := by exact_mod_cast hdep
  obtain ⟨_, _, _, h4⟩ := parts_nonneg G F
  have := range_le G F (i := remaining m (dep + 1) + 2) (j := remaining m (dep + 1)) (l := remaining m (dep + 1) + 1) (by linarith) (by linarith) (by linarith)
  unfold boundC boundD
  linarith

end

theorem bounded_eff (G : GoodMath ex lg α β) (F : SoftFits env m cfg lr ρ M K n D α β dp h) (hKN : K * trialsBegun h ≤ 2 ^ 50) (hv : alg.Valid)
    (H : HasFpSoft alg px py ex lg cfg lr) (htb : Leftover tb) (hr : Reachable env m alg k s0 dp tm tb st h)
    (B : BoundedF m px py cfg ρ M K n α β st) {w : Nat} {e : Event S A ℚ} (E : Eff env m alg st w e st') : BoundedF m px py cfg ρ M K n α β st' := by
  have I := reach_inv hv htb hr
  have hρ := rho_nonneg G F
  obtain ⟨hT, hE, he1, he2⟩ := parts_nonneg G F
  have ht : (0 : ℝ) < cfg.temp := by exact_mod_cast F.temp.2
  have heur : ∀ s, |((heurOf env m s : ℚ) : ℝ)| ≤ ρ := by
    intro s
    have := (Rat.cast_le (K := ℝ)).2 (F.heur s)
    push_cast at this
    exact this
  have hdef : |(cfg.defaultQ : ℝ)| ≤ ρ := by
    have := (Rat.cast_le (K := ℝ)).2 F.default
    push_cast at this
    exact this
  have hρM : ρ ≤ M := by
    have h1 := range_le G F (i := 1) (j := 0) (l := 0) (by linarith [(Nat.cast_nonneg D : (0 : ℝ) ≤ D)]) (by linarith [(Nat.cast_nonneg D : (0 : ℝ) ≤ D)])
      (by linarith [(Nat.cast_nonneg D : (0 : ℝ) ≤ D)])
    have h2 : (ρ : ℝ) ≤ M := by linarith
    exact_mod_cast h2
  constructor
  · intro d nd' hd'
    rcases dn_chg E hd' with ⟨nd, hd, hchg⟩ | ⟨rfl, _, s, dep, tim, rfl⟩
    · have h1 := B.d d nd hd
      have hvis : ∀ b, (px (alg.visitD b nd.x)).val = (px nd.x).val := by
        intro b
        rw [H.visitD]
        unfold softFVisit
        split <;> rfl
      cases hchg with
      | same he => exact h1
      | selOld hl ha hf => simp only [hvis]; exact h1
      | selNew hl ha hf => simp only [hvis]; exact h1
      | ended => simp only [hvis]; exact h1
      | @backed w' args =>
        obtain ⟨hww, nodes, nd0, hw, _⟩ := eff_backedD E
        subst hww
        obtain ⟨nd1, a0, c0, nc0, k1, k2, k3, k4⟩ := backD_kid I hw
        rw [hd] at k1
        obtain rfl := Option.some.inj k1
        have hcc := childC_of_mem I.tree hd k2
        have hrem := inner_node hv htb hr hd hcc
        have hD : remaining m nd.depth ≤ D := le_trans (depth_le hv htb hr hd) F.depth
        have hane : env.actions nd.state ≠ [] := by
          obtain ⟨nd2, _, g1, _, _, _, _, _, _, g8⟩ := childC_facts I.tree hcc
          rw [hd] at g1
          obtain rfl := Option.some.inj g1
          exact List.ne_nil_of_mem g8
        set v := viewOf env m st nd with hv0
        have hQ : ∀ a, |(softQ cfg py v a : ℝ)| ≤ boundC m cfg ρ M K n α β nd.depth := by
          intro a
          have hs : ∀ x : ℚ, |((x * oppSign v.opp : ℚ) : ℝ)| = |(x : ℝ)| := by
            intro x
            unfold oppSign
            cases v.opp <;> simp
          unfold softQ
          cases hf : find? a v.kids with
          | none =>
            dsimp only
            rw [hs]
            exact le_trans hdef (rho_le_boundC G F _)
          | some p =>
            dsimp only
            rw [hs]
            have hp : (a, p) ∈ kidsY st nd := find?_mem hf
            obtain ⟨c', nc', g1, g2, g3⟩ := mem_kidsY.1 hp
            obtain ⟨nd2, nc2, f1, f2, _, f4, f5, f6, _⟩ := childC_facts I.tree (childC_of_mem I.tree hd g1)
            rw [hd] at f1
            obtain rfl := Option.some.inj f1
            rw [g2] at f2
            obtain rfl := Option.some.inj f2
            have := B.c c' nc' g2
            rw [f6] at this
            simp only at g3
            rw [g3]
            exact this
        have hQM : ∀ a, |softQ cfg py v a| ≤ M := by
          intro a
          have h2 := le_trans (hQ a) (boundC_le G F (by omega))
          have h3 : ((|softQ cfg py v a| : ℚ) : ℝ) ≤ M := by push_cast; exact h2
          exact_mod_cast h3
        have e1 := decision_err G F.temp.1 F.temp.2 F.low F.small F.above F.below v.opp hane (F.acts nd.state) (Q := softQ cfg py v) (fun a _ => hQM a)
        have e3 := softmax_abs ht hane (Q := fun a => (softQ cfg py v a : ℝ)) (fun a _ => hQ a)
        have hsq : ∀ x : ℝ, |sgn v.opp * x| = |x| := by
          intro x
          unfold sgn
          cases v.opp <;> simp
        have hlen : (cfg.temp : ℝ) * Real.log (env.actions nd.state).length ≤ cfg.temp * Real.log n := by
          refine mul_le_mul_of_nonneg_left (Real.log_le_log ?_ ?_) ht.le
          · exact_mod_cast List.length_pos_of_ne_nil hane
          · exact_mod_cast F.acts nd.state
        simp only [H.backupD, softFBackupD]
        have e4 := abs_sub_abs_le_abs_sub (softValue ex lg (oppSign v.opp) cfg.temp cfg.low ((env.actions nd.state).map fun a => (a, softQ cfg py v a)) : ℝ)
          (sgn v.opp * softmax cfg.temp (fun a => (softQ cfg py v a : ℝ)) (env.actions nd.state))
        rw [hsq] at e4
        have e6 : softError K n cfg.temp M α β = (8 * K + 3) * (unit * M) + (29 * (unit * M) + cfg.temp * (16 * n * unit + 4 * α + 2 * n * β) + tiny) := by
          unfold softError
          ring
        have e7 : boundD m cfg ρ M K n α β nd.depth = boundC m cfg ρ M K n α β nd.depth + cfg.temp * Real.log n +
            (softError K n cfg.temp M α β - (8 * K + 3) * (unit * M)) := by
          unfold boundC boundD
          rw [hrem]
          push_cast
          ring
        rw [e7]
        have e8 : softQs cfg py v = (env.actions nd.state).map fun a => (a, softQ cfg py v a) := rfl
        rw [e8]
        linarith
    · have : (px (newD env m alg s dep tim).x).val = heurOf env m s := by simp [newD, H.initD, softFInitD]
      rw [this]
      exact le_trans (heur s) (rho_le_boundD G F _)
  · intro c nc' hc'
    rcases cn_chg E hc' with ⟨nc, hc, hchg⟩ | ⟨rfl, _, nd, a, rfl⟩
    · have h1 := B.c c nc hc
      cases hchg with
      | same he => exact h1
      | stepped ho hk => simp only [H.visitC]; exact h1
      | @backed w' args =>
        have hact : nc.action ∈ env.actions nc.state := by
          have h1 : (st.cn.map CNode.skel)[c]? = some nc.skel := by simp [hc]
          obtain ⟨i, d, g1, g2⟩ := I.tree.heap.cPar _ _ h1
          obtain ⟨n', g3, g4, _⟩ := I.tree.heap.dKid i d _ _ g1 g2
          rw [h1] at g3
          obtain rfl := Option.some.inj g3
          have := I.tree.heap.dAct i d _ _ g1 g2
          rw [← g4] at this
          exact this
        have hkid : ∀ x ∈ (kidsX st nc).map (fun k => px k.2), |(x.val : ℝ)| ≤ boundD m cfg ρ M K n α β (nc.depth + 1) ∧ |x.val| ≤ M ∧ x.n ≤ trialsBegun h := by
          intro x hx
          obtain ⟨k', hk', rfl⟩ := List.mem_map.1 hx
          obtain ⟨d', nd', g1, g2, g3⟩ := mem_kidsX.1 hk'
          obtain ⟨nc2, nd2, f1, f2, _, f4, f5, f6, f7⟩ := childD_facts I.tree (childD_of_mem I.tree hc g1)
          rw [hc] at f1
          obtain rfl := Option.some.inj f1
          rw [g2] at f2
          obtain rfl := Option.some.inj f2
          have h2 := B.d d' nd' g2
          have hD : remaining m nd'.depth ≤ D := le_trans (depth_le hv htb hr g2) F.depth
          have h3 := le_trans h2 (boundD_le G F hD)
          rw [f5] at h2
          rw [g3]
          refine ⟨h2, ?_, softN_le H hv htb hr g2⟩
          have h4 : ((|(px nd'.x).val| : ℚ) : ℝ) ≤ M := by push_cast; exact h3
          exact_mod_cast h4
        have hlen : (kidsX st nc).length ≤ K := by
          refine le_trans ?_ (F.succs nc.state nc.action hact)
          have h2 : (kidsX st nc).length ≤ nc.kids.length := List.length_filterMap_le _ _
          have hsub : ∀ o ∈ nc.kids.map Prod.fst, o ∈ env.succ nc.state nc.action := by
            intro o ho
            obtain ⟨q, hq', rfl⟩ := List.mem_map.1 ho
            obtain ⟨nc2, _, f1, _, _, _, _, _, f7⟩ := childD_facts I.tree (childD_of_mem I.tree hc (show (q.1, q.2) ∈ nc.kids from hq'))
            rw [hc] at f1
            obtain rfl := Option.some.inj f1
            exact f7
          have hnd : (nc.kids.map Prod.fst).Nodup := I.tree.heap.cNodup c nc.skel (by simp [hc])
          have := (List.subperm_of_subset hnd hsub).length_le
          rw [List.length_map] at this
          omega
        simp only [H.backupC, softFBackupC]
        generalize hL : ((kidsX st nc).map fun k => px k.2) = L at hkid ⊢
        have hLlen : L.length ≤ K := by rw [← hL, List.length_map]; exact hlen
        have hsum : ((L.map fun k => (k.n, k.val)).map Prod.fst).sum ≤ 2 ^ 50 := by
          have h2 : ∀ x ∈ (L.map fun k => (k.n, k.val)).map Prod.fst, x ≤ trialsBegun h := by
            intro x hx
            simp only [List.map_map, List.mem_map] at hx
            obtain ⟨y, hy, rfl⟩ := hx
            exact (hkid y hy).2.2
          have h3 := List.sum_le_card_nsmul _ _ h2
          simp only [List.length_map, smul_eq_mul] at h3
          exact le_trans h3 (le_trans (Nat.mul_le_mul_right _ hLlen) hKN)
        have hmean := chance_errM (M := M) (R := lr nc.state nc.action) (K := K) F.one (F.local_ _ _ hact).1 (le_trans (F.local_ _ _ hact).2 hρM)
          (l := L.map fun k => (k.n, k.val)) F.few (by simpa using hLlen) (by
            intro p hp
            obtain ⟨x, hx, rfl⟩ := List.mem_map.1 hp
            exact (hkid x hx).2.1) hsum
        have hmean' := (Rat.cast_le (K := ℝ)).2 hmean
        push_cast at hmean'
        rw [wmean_cast, List.map_map] at hmean'
        have h2 : |wmean (L.map ((fun p : Nat × ℚ => (p.1, (p.2 : ℝ))) ∘ fun k => (k.n, k.val)))| ≤ boundD m cfg ρ M K n α β (nc.depth + 1) := by
          refine wmean_abs (le_trans hρ (rho_le_boundD G F _)) ?_
          intro p hp
          obtain ⟨x, hx, rfl⟩ := List.mem_map.1 hp
          exact (hkid x hx).1
        have hr1 : |((lr nc.state nc.action : ℚ) : ℝ)| ≤ ρ := by
          have := (Rat.cast_le (K := ℝ)).2 (F.local_ _ _ hact).2
          push_cast at this
          exact this
        generalize (chanceValue (lr nc.state nc.action) (L.map fun k => (k.n, k.val)) : ℝ) = cv at hmean' ⊢
        generalize wmean (L.map ((fun p : Nat × ℚ => (p.1, (p.2 : ℝ))) ∘ fun k => (k.n, k.val))) = wm at hmean' h2
        unfold boundC
        obtain ⟨a1, a2⟩ := abs_le.1 hmean'
        obtain ⟨b1, b2⟩ := abs_le.1 hr1
        obtain ⟨c1, c2⟩ := abs_le.1 h2
        rw [abs_le]
        constructor <;> linarith
    · have : (py (newC alg nd a).y).val = cfg.defaultQ := by simp [newC, H.initC, softFInitC]
      rw [this]
      exact le_trans hdef (rho_le_boundC G F _)

/-- In every state of a search with at most `N` trials. -/
theorem bounded_reach (G : GoodMath ex lg α β) (F : ∀ h, trialsBegun h ≤ N → SoftFits env m cfg lr ρ M K n D α β dp h) (hKN : K * N ≤ 2 ^ 50) (hv : alg.Valid)
    (H : HasFpSoft alg px py ex lg cfg lr) (htb : Leftover tb) (hr : Reachable env m alg k s0 dp tm tb st h) (hN : trialsBegun h ≤ N) :
    BoundedF m px py cfg ρ M K n α β st := by
  refine reach_induct (fun st h => trialsBegun h ≤ N → BoundedF m px py cfg ρ M K n α β st) ?_ ?_ hr hN
  · intro h0
    have F0 := F _ h0
    constructor
    · intro d nd hd
      rcases d with _ | d
      · simp [init] at hd
        subst hd
        have : (px (newD env m alg s0 dp tm).x).val = heurOf env m s0 := by simp [newD, H.initD, softFInitD]
        rw [this]
        refine le_trans ?_ (rho_le_boundD G F0 _)
        have := (Rat.cast_le (K := ℝ)).2 (F0.heur s0)
        push_cast at this
        exact this
      · simp [init] at hd
    · intro c nc hc
      simp [init] at hc
  · intro st h w e st' hr' ih _ E hN'
    have hN := le_trans (begun_mono e h) hN'
    exact bounded_eff G (F h hN) (le_trans (Nat.mul_le_mul_left _ hN) hKN) hv H htb hr' (ih hN) E

/-- So the soft values of the actions are bounded whenever an action is selected. -/
theorem softQs_bounded (G : GoodMath ex lg α β) (F : ∀ h, trialsBegun h ≤ N → SoftFits env m cfg lr ρ M K n D α β dp h) (hKN : K * N ≤ 2 ^ 50) (hv : alg.Valid)
    (H : HasFpSoft alg px py ex lg cfg lr) (htb : Leftover tb) (hr : Reachable env m alg k s0 dp tm tb st h) (hN : trialsBegun h ≤ N)
    {d : Nat} {nd : DNode S A ℚ X} (hd : st.dn[d]? = some nd) {v0 : Nat} {x0 : X} :
    ∀ p ∈ softQs cfg py (viewOf env m st { nd with visits := v0, x := x0 }), |p.2| ≤ M := by
  have F0 := F h hN
  have B := bounded_reach G F hKN hv H htb hr hN
  have I := reach_inv hv htb hr
  intro p hp
  obtain ⟨a, _, rfl⟩ := List.mem_map.1 hp
  have hs : ∀ (o : Bool) (x : ℚ), |x * oppSign o| = |x| := by
    intro o x
    unfold oppSign
    cases o <;> simp
  dsimp only
  unfold softQ
  cases hf : find? a (viewOf env m st { nd with visits := v0, x := x0 }).kids with
  | none =>
    dsimp only
    rw [hs]
    have h1 := le_trans (rho_le_boundD G F0 (m.maxDepth)) (boundD_le G F0 (dep := m.maxDepth) (by simp [remaining]))
    have h2 : ρ ≤ M := by exact_mod_cast h1
    exact le_trans F0.default h2
  | some p =>
    dsimp only
    rw [hs]
    have hp : (a, p) ∈ kidsY st nd := find?_mem hf
    obtain ⟨c', nc', g1, g2, g3⟩ := mem_kidsY.1 hp
    have hcc := childC_of_mem I.tree hd g1
    obtain ⟨nd2, nc2, f1, f2, _, f4, f5, f6, _⟩ := childC_facts I.tree hcc
    rw [hd] at f1
    obtain rfl := Option.some.inj f1
    rw [g2] at f2
    obtain rfl := Option.some.inj f2
    have hrem := inner_node hv htb hr hd hcc
    have hD : remaining m nd.depth ≤ D := le_trans (depth_le hv htb hr hd) F0.depth
    have h1 := B.c c' nc' g2
    rw [f6] at h1
    have h2 := le_trans h1 (boundC_le G F0 (by omega))
    simp only at g3
    rw [g3]
    have h3 : ((|(py nc'.y).val| : ℚ) : ℝ) ≤ M := by push_cast; exact h2
    exact_mod_cast h3

end Verif.Fp
