import Verif.Proofs.Rents

/-!
# C45: RENTS
-/

set_option linter.unusedSectionVars false
set_option linter.unusedSimpArgs false

namespace Verif.Tents

open Verif.Search Verif.Sampling Verif.Spec Verif.Backups Verif.Ments Verif.Dents

variable {S A X Y : Type} [DecidableEq S] [DecidableEq A] {cfg : Cfg S A}
variable {env : Env S A ℝ} {m : Manager S ℝ} {eps : ℝ} {lr : S → A → ℝ} {k : Nat} {s0 : S} {dp tm : Int}
  {tb : List ((Int × S) × Option Nat)} {st : St S A ℝ Soft Soft} {h : List (Event S A ℝ)}

/-- The view a worker has of a node when it selects there. -/
def selView (env : Env S A ℝ) (m : Manager S ℝ) (st : St S A ℝ Soft Soft) (nd : DNode S A ℝ Soft) : View S A Soft Soft :=
  viewOf env m st { nd with visits := nd.visits + 1, x := softVisit false nd.x }

/-- The worker is about to select at the node or about to back it up. -/
def AtNode (st : St S A ℝ Soft Soft) (w d : Nat) : Prop :=
  (∃ path rs new, st.ws[w]? = some (.sel d path rs new)) ∨
    (∃ nodes before after ret tot, st.ws[w]? = some (.backD d nodes before after ret tot))

/-- `P` are the probabilities of the policy that worker `w` sampled from at the parent of node `d` in its current trial: the policy
at the moment of that selection. -/
def ParentPolicy (env : Env S A ℝ) (m : Manager S ℝ) (eps : ℝ) (cfg : Cfg S A) (lr : S → A → ℝ) (k : Nat) (s0 : S) (dp tm : Int)
    (tb : List ((Int × S) × Option Nat)) (h : List (Event S A ℝ)) (w d : Nat) (P : A → ℝ) : Prop :=
  ∃ s ∈ stepsOf w h, s.d' = d ∧ ∃ h1 h0, h = h1 ++ .selected w s.d s.a s.c :: h0 ∧ .began w ∉ h1 ∧
    ∃ st0 ndp l, Reachable env m (rents eps cfg lr) k s0 dp tm tb st0 h0 ∧ st0.dn[s.d]? = some ndp ∧
      actionDistrW cfg (selView env m st0 ndp) (rentsWS cfg (mentsQ cfg id (selView env m st0 ndp)) (selView env m st0 ndp) (st0.ctxOf w)) = .ok l ∧
      Listed l P

/-- C45.  Whenever a node is selected at or backed up, below the root it finds in the context the policy its parent was sampled from in the
same trial; actions that policy does not list count as probability zero. -/
theorem c45_finds_parent_policy (hnd : ∀ s, (env.actions s).Nodup) (htb : Leftover tb)
    (hr : Reachable env m (rents eps cfg lr) k s0 0 tm tb st h) {w d : Nat} (hw : AtNode st w d) {nd : DNode S A ℝ Soft} (hd : st.dn[d]? = some nd) :
    ∃ parent, parentDistr (viewOf env m st nd) (st.ctxOf w) = .ok parent ∧ (∀ a, 0 ≤ parentProb parent a) ∧
      (nd.depth ≤ 0 → ∀ a, parentProb parent a = 1) ∧
      (0 < nd.depth → ParentPolicy env m eps cfg lr k s0 0 tm tb h w d (parentProb parent)) := by
  by_cases hdep : nd.depth < 1
  · refine ⟨none, ?_, fun a => by simp [parentProb], fun _ a => rfl, fun h => by omega⟩
    unfold parentDistr
    rw [if_pos]
    exact hdep
  · rcases rents_parent (le_refl 0) htb hr hw hd with h1 | ⟨s, l, h1, h2, h3, e1, e0, h4, h5, st0, ndp, h6, h7, h8⟩
    · omega
    · have h8' : actionDistrW cfg (selView env m st0 ndp) (rentsWS cfg (mentsQ cfg id (selView env m st0 ndp)) (selView env m st0 ndp) (st0.ctxOf w)) = .ok l :=
        h8.symm
      have hn : (l.map Prod.fst).Nodup := by
        obtain ⟨ws, sm, g1, g2⟩ := actionDistrW_keys h8'
        unfold rentsWS at g1
        cases hW : rentsWeights cfg (mentsQ cfg id (selView env m st0 ndp)) (selView env m st0 ndp) (st0.ctxOf w) with
        | error e => rw [hW] at g1; simp at g1
        | ok r =>
          rw [hW] at g1
          obtain ⟨ws', sm', nm⟩ := r
          simp only [Except.ok.injEq, Prod.mk.injEq] at g1
          have g3 := rentsWeights_keys hW
          rw [g1.1] at g3
          simp only at g3
          rw [g3] at g2
          exact g2.nodup (hnd _)
      refine ⟨some l, ?_, parentProb_nonneg (actionDistrW_pos h8'), fun h => by omega, fun _ =>
        ⟨s, h1, h2, e1, e0, h4, h5, st0, ndp, l, h6, h7, h8', parentProb_listed hn⟩⟩
      unfold parentDistr
      rw [if_neg (by exact hdep)]
      have h3 : find? ((viewOf env m st nd).depth - 1) (st.ctxOf w).distrs = some l := h3
      rw [h3]

theorem rents_q_defined (hp : PriorTotal cfg env) (htb : Leftover tb) (hr : Reachable env m (rents eps cfg lr) k s0 0 tm tb st h)
    (nd : DNode S A ℝ Soft) : ∃ Q, QIs (mentsQ cfg id (viewOf env m st nd)) (viewOf env m st nd) Q := by
  refine mentsQ_total hp rfl id ?_
  intro k hk
  obtain ⟨c, nc, _, h2, h3⟩ := mem_kidsY.1 hk
  rw [h3]
  exact (rents_reach hp (le_refl 0) htb hr).2 c nc h2

/-- C45 for a whole search, any number of workers and any schedule: whenever a worker is about to select at a node with at least one
action, there are values `Q`, and relative weights `P` (one at the root, the probabilities of the policy the trial sampled from at the
parent node below it), such that an action `a` is selected with the probability of the mixture of the policy proportional to
`P exp(Q/temp)` (uniform if all those weights vanish), the prior and the uniform policy; draws below `1 - |A|·1e-16` always select an action. -/
theorem c45_selection (G : GoodCfg cfg env) (hnd : ∀ s, (env.actions s).Nodup) (htb : Leftover tb) (heps : 0 ≤ eps)
    (hr : Reachable env m (rents eps cfg lr) k s0 0 tm tb st h) {w cur : Nat} {path : List (Nat × Nat)} {rs : List ℝ} {new : Bool}
    (hw : st.ws[w]? = some (.sel cur path rs new)) {nd : DNode S A ℝ Soft} (hd : st.dn[cur]? = some nd)
    (hne : env.actions nd.state ≠ []) {iter : List (A × ℝ) → List (A × ℝ)} (hi : ∀ l, List.Perm (iter l) l) :
    let v := selView env m st nd
    ∃ P Q M, (nd.depth ≤ 0 → ∀ a, P a = 1) ∧ (0 < nd.depth → ParentPolicy env m eps cfg lr k s0 0 tm tb h w cur P) ∧
      QIs (mentsQ cfg id v) v Q ∧ (cfg.low ≤ M ∧ (∀ a ∈ v.actions, Q a / getTemp cfg v ≤ M) ∧ (M = cfg.low ∨ ∃ a ∈ v.actions, M = Q a / getTemp cfg v)) ∧
      (∀ a ∈ env.actions nd.state, prob (fun u => selectActionW eps cfg v (rentsWS cfg (mentsQ cfg id v) v (st.ctxOf w)) u iter) (· = .ok (.key a)) =
        if mixture cfg v (relPolicy (getTemp cfg v) P Q M v.actions) a < 1 / 10 ^ 16 then 0
        else mixture cfg v (relPolicy (getTemp cfg v) P Q M v.actions) a) ∧
      ∀ u : ℝ, 0 ≤ u → u < 1 - (env.actions nd.state).length * (1 / 10 ^ 16) →
        ∃ a ∈ env.actions nd.state, selectActionW eps cfg v (rentsWS cfg (mentsQ cfg id v) v (st.ctxOf w)) u iter = .ok (.key a) := by
  intro v
  obtain ⟨parent, h1, h2, h3, h4⟩ := c45_finds_parent_policy hnd htb hr (.inl ⟨path, rs, new, hw⟩) hd
  obtain ⟨Q, hQ⟩ := rents_q_defined G.total htb hr { nd with visits := nd.visits + 1, x := softVisit false nd.x }
  have hQ : QIs (mentsQ cfg id v) v Q := hQ
  have h1' : parentDistr v (st.ctxOf w) = .ok parent := h1
  obtain ⟨M, hM, wt, s, hW, hb, hpol, _⟩ := rents_policy (cfg := cfg) (v := v) hQ h1' h2 hne
  have hWS : rentsWS cfg (mentsQ cfg id v) v (st.ctxOf w) = .ok (v.actions.map (fun a => (a, wt a)), s) := by
    unfold rentsWS
    rw [hW]
  have hpol' : (fun a => wt a / s) = relPolicy (getTemp cfg v) (parentProb parent) Q M v.actions := funext hpol
  refine ⟨parentProb parent, Q, M, h3, h4, hQ, hM, ?_, ?_⟩
  · intro a ha
    rw [hWS, selectW_probability (v := v) (Nat.succ_pos _) (hnd _) (goodCfg_wellFormed G rfl) hb heps hi ha, hpol']
  · intro u h0 hu
    rw [hWS]
    rcases selectW_valid (v := v) (Nat.succ_pos _) (goodCfg_wellFormed G rfl) hb heps hi h0 with h2 | ⟨_, h2⟩
    · exact h2
    · exact absurd hu (not_lt.2 h2)

/-- C45.  Apart from the prior and the uniform policy, an action the parent's policy does not list is never selected, unless the
weights of all actions vanish; in that case the policy is uniform. -/
theorem c45_unlisted (temp : ℝ) (P Q : A → ℝ) (M : ℝ) (acts : List A) (a : A) (ha : P a = 0) :
    relPolicy temp P Q M acts a = 0 ∨ ∀ b, relPolicy temp P Q M acts b = 1 / acts.length := by
  unfold relPolicy
  by_cases h : relPartition temp P Q acts < 1 / 10 ^ 16 * Real.exp M
  · right
    intro b
    rw [if_pos h]
  · left
    rw [if_neg h, ha]
    simp

/-- C45.  If the parent's policy lists none of the valid actions, the policy is uniform. -/
theorem c45_all_unlisted (temp : ℝ) (P Q : A → ℝ) (M : ℝ) (acts : List A) (hP : ∀ a ∈ acts, P a = 0) (a : A) :
    relPolicy temp P Q M acts a = 1 / acts.length := by
  unfold relPolicy
  have : relPartition temp P Q acts = 0 := by
    unfold relPartition
    rw [sum_congr (g := fun _ => 0)]
    · simp
    · intro b hb
      rw [hP b hb]
      simp
  rw [if_pos]
  rw [this]
  have := Real.exp_pos M
  positivity

/-- C45.  The value a RENTS node gets in a backup: `temp log ∑ P exp(Q/temp)` with the policy of the parent in the same trial, and
the largest Q-value if all weights vanish; always a number. -/
theorem c45_backup_value (hp : PriorTotal cfg env) (hnd : ∀ s, (env.actions s).Nodup) (htb : Leftover tb)
    (hr : Reachable env m (rents eps cfg lr) k s0 0 tm tb st h) {w d : Nat}
    {nodes : List (Nat × Nat)} {before after : List ℝ} {ret tot : ℝ} (hw : st.ws[w]? = some (.backD d nodes before after ret tot))
    {nd : DNode S A ℝ Soft} (hd : st.dn[d]? = some nd) (hne : env.actions nd.state ≠ []) :
    let v := viewOf env m st nd
    ∃ P Q M, (nd.depth ≤ 0 → ∀ a, P a = 1) ∧ (0 < nd.depth → ParentPolicy env m eps cfg lr k s0 0 tm tb h w d P) ∧
      QIs (mentsQ cfg id v) v Q ∧ (cfg.low ≤ M ∧ (∀ a ∈ v.actions, Q a / getTemp cfg v ≤ M) ∧ (M = cfg.low ∨ ∃ a ∈ v.actions, M = Q a / getTemp cfg v)) ∧
      rentsBackupD cfg v (st.ctxOf w) =
        { n := nd.x.n + 1, val := some (oppCoeff (isOpponent m nd.time) * relValue (getTemp cfg v) P Q M v.actions) } := by
  intro v
  obtain ⟨parent, h1, h2, h3, h4⟩ := c45_finds_parent_policy hnd htb hr (.inr ⟨_, _, _, _, _, hw⟩) hd
  obtain ⟨Q, hQ⟩ := rents_q_defined hp htb hr nd
  have h1' : parentDistr v (st.ctxOf w) = .ok parent := h1
  obtain ⟨M, hM, wt, s, hW, hb, _, hval⟩ := rents_policy (cfg := cfg) (v := v) hQ h1' h2 hne
  refine ⟨parentProb parent, Q, M, h3, h4, hQ, hM, ?_⟩
  unfold rentsBackupD
  rw [hW]
  simp only
  rw [← hval, ← mul_assoc]
  rfl

/-- C45.  All values in the tree are numbers at all times. -/
theorem c45_values_finite (hp : PriorTotal cfg env) (htb : Leftover tb) (hr : Reachable env m (rents eps cfg lr) k s0 0 tm tb st h) :
    (∀ (d : Nat) nd, st.dn[d]? = some nd → ∃ r, nd.x.val = some r) ∧ (∀ (c : Nat) nc, st.cn[c]? = some nc → ∃ r, nc.y.val = some r) :=
  rents_reach hp (le_refl 0) htb hr

/-- C45.  A RENTS search never gets stuck at a selection. -/
theorem c45_can_continue (G : GoodCfg cfg env) (hnd : ∀ s, (env.actions s).Nodup) (htb : Leftover tb) (heps : 0 ≤ eps)
    (hr : Reachable env m (rents eps cfg lr) k s0 0 tm tb st h) (hc : st.crashed = none) {w cur : Nat} {path : List (Nat × Nat)}
    {rs : List ℝ} {new : Bool} (hw : st.ws[w]? = some (.sel cur path rs new)) {nd : DNode S A ℝ Soft}
    (hd : st.dn[cur]? = some nd) (hs : shouldContinue env m nd new = true) (hne : env.actions nd.state ≠ [])
    (hlen : (env.actions nd.state).length < 10 ^ 16) :
    ∃ a ∈ env.actions nd.state, ∃ st' e, step env m (rents eps cfg lr) st w (.act a) = some (st', e) := by
  obtain ⟨_, _, _, _, _, _, _, _, hall⟩ := c45_selection G hnd htb heps hr hw hd hne (iter := id) (fun l => List.Perm.refl l)
  obtain ⟨a, h1, h2⟩ := hall 0 le_rfl (by
    have : ((env.actions nd.state).length : ℝ) < 10 ^ 16 := by exact_mod_cast hlen
    rw [mul_one_div, sub_pos, div_lt_one (by positivity)]
    exact this)
  refine ⟨a, h1, ?_⟩
  have hsel : (rents eps cfg lr).canSelect (viewOf env m st { nd with visits := nd.visits + 1, x := (rents eps cfg lr).visitD false nd.x })
      (st.ctxOf w) a = true := by
    show selectableW _ _ _ _ _ = true
    unfold selectableW
    rw [@decide_eq_true_eq _ (Classical.propDecidable _)]
    exact ⟨0, id, le_rfl, one_pos, fun l => List.Perm.refl l, h2⟩
  unfold step
  rw [hc, hw]
  simp only [Option.isSome_none, Bool.false_eq_true, if_false, hd, hs, if_true, blockD]
  rw [if_pos hsel]
  split
  · exact ⟨_, _, rfl⟩
  · exact ⟨_, _, rfl⟩

/-- C45 needs a root of depth zero: with a root at a positive depth the first selection of every trial throws (there is no parent policy
in the context). -/
theorem c45_positive_root_depth_throws (hp : PriorTotal cfg env) (hdp : 0 < dp) (w : Nat) (hw : w < k) (u : ℝ) (iter : List (A × ℝ) → List (A × ℝ)) :
    ∃ st h path rs new nd, Reachable env m (rents eps cfg lr) k s0 dp tm tb st h ∧ st.ws[w]? = some (.sel 0 path rs new) ∧ st.dn[0]? = some nd ∧
      selectActionW eps cfg (selView env m st nd) (rentsWS cfg (mentsQ cfg id (selView env m st nd)) (selView env m st nd) (st.ctxOf w)) u iter =
        .error .noEntry := by
  have hw0 : (init env m (rents eps cfg lr) k s0 dp tm tb).ws[w]? = some .idle := by simp [init, hw]
  have hstep : ∃ st', step env m (rents eps cfg lr) (init env m (rents eps cfg lr) k s0 dp tm tb) w .go = some (st', .began w) ∧
      (∃ path rs new, st'.ws[w]? = some (.sel 0 path rs new)) ∧ st'.dn = (init env m (rents eps cfg lr) k s0 dp tm tb).dn ∧
      st'.cn = (init env m (rents eps cfg lr) k s0 dp tm tb).cn ∧ st'.ctxOf w = {} := by
    unfold step
    have hi : (init env m (rents eps cfg lr) k s0 dp tm tb).crashed = none := rfl
    have hi2 := hw0
    rw [hi, hi2]
    simp only [Option.isSome_none, Bool.false_eq_true, if_false]
    refine ⟨_, rfl, ⟨[], [], false, ?_⟩, rfl, rfl, ?_⟩
    · simp [St.setW, St.setCtx, init, hw]
    · simp [St.ctxOf, St.setCtx, St.setW, init, hw]
  obtain ⟨st', h1, ⟨path, rs, new, h2⟩, h3, h3c, h4⟩ := hstep
  have hr : Reachable env m (rents eps cfg lr) k s0 dp tm tb st' [.began w] := ⟨[(w, .go)], by simp [execFrom, h1]⟩
  have hd : st'.dn[0]? = some (newD env m (rents eps cfg lr) s0 dp tm) := by rw [h3]; rfl
  refine ⟨st', _, path, rs, new, _, hr, h2, hd, ?_⟩
  set v := selView env m st' (newD env m (rents eps cfg lr) s0 dp tm) with hv
  obtain ⟨Q, hQ⟩ := mentsQ_total hp (v := v) rfl id (by
    intro k hk
    obtain ⟨c, nc, _, g2, _⟩ := mem_kidsY.1 hk
    rw [h3c] at g2
    simp [init] at g2)
  have hpd : parentDistr v (st'.ctxOf w) = .error .noEntry := by
    unfold parentDistr
    have : v.depth = dp := rfl
    rw [this, if_neg (by omega), h4]
    rfl
  unfold selectActionW actionDistrW fullDistrW rentsWS rentsWeights
  rw [qList_eq hQ, hpd]

theorem exNodup' : ∀ s, (exEnv.actions s).Nodup := by intro s; simp [exEnv]

/-- A RENTS worker has begun a trial and can select an action. -/
example : ∃ st h a st' e, Reachable exEnv exMgr (rents 0 exCfg fun _ _ => 1) 2 () 0 0 [] st h ∧
    step exEnv exMgr (rents 0 exCfg fun _ _ => 1) st 1 (.act a) = some (st', e) := by
  have hr : Reachable exEnv exMgr (rents 0 exCfg fun _ _ => 1) 2 () 0 0 [] _ _ := ⟨[(1, .go)], rfl⟩
  obtain ⟨a, _, st', e, h⟩ := c45_can_continue exGood exNodup' (by intro p hp; simp at hp) le_rfl hr rfl (w := 1) rfl rfl (by rfl)
    (by simp [exEnv]) (by simp [exEnv])
  exact ⟨_, _, a, st', e, hr, h⟩

example : ∃ st h, Reachable exEnv exMgr (rents 0 exCfg fun _ _ => 1) 1 () 1 0 [] st h ∧ ∃ (v : View Unit Bool Soft Soft) (ctx : Ctx Bool ℝ),
    selectActionW 0 exCfg v (rentsWS exCfg (mentsQ exCfg id v) v ctx) 0 id = .error .noEntry := by
  obtain ⟨st, h, _, _, _, nd, hr, _, _, he⟩ := c45_positive_root_depth_throws (cfg := exCfg) (env := exEnv) (m := exMgr) (eps := 0)
    (lr := fun _ _ => 1) (k := 1) (s0 := ()) (dp := 1) (tm := 0) (tb := []) exGood.total one_pos 0 one_pos 0 id
  exact ⟨st, h, hr, _, _, he⟩

end Verif.Tents
