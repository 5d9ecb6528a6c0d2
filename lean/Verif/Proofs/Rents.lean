import Verif.Proofs.Tents

/-! # RENTS -/

set_option linter.unusedSectionVars false
set_option linter.unusedSimpArgs false

namespace Verif.Tents

open Verif.Search Verif.Sampling Verif.Spec Verif.Backups Verif.Ments Verif.Dents

variable {S A X Y : Type} [DecidableEq S] [DecidableEq A] {cfg : Cfg S A} {v : View S A X Y} {q : A → Except Bad ℝ} {Q : A → ℝ}
  {ctx : Ctx A ℝ} {parent : Option (List (A × ℝ))}

/-- The unnormalised weight. -/
noncomputable def rawWeight (temp norm : ℝ) (Q P : A → ℝ) (a : A) : ℝ := Real.exp (Q a / temp - norm) * P a

theorem rentsWeights_eq (hq : QIs q v Q) (hp : parentDistr v ctx = .ok parent) :
    ∃ norm, (cfg.low ≤ norm ∧ (∀ a ∈ v.actions, Q a / getTemp cfg v ≤ norm) ∧ (norm = cfg.low ∨ ∃ a ∈ v.actions, norm = Q a / getTemp cfg v)) ∧
      rentsWeights cfg q v ctx =
        if (v.actions.map (rawWeight (getTemp cfg v) norm Q (parentProb parent))).sum < EPS then
          .ok (v.actions.map (fun a => (a, 1 / (v.actions.length : ℝ))), 1, norm)
        else .ok (v.actions.map (fun a => (a, rawWeight (getTemp cfg v) norm Q (parentProb parent) a)),
          (v.actions.map (rawWeight (getTemp cfg v) norm Q (parentProb parent))).sum, norm) := by
  obtain ⟨h1, h2⟩ := normTerm_ge (getTemp cfg v) (v.actions.map fun a => (a, Q a)) cfg.low
  have h3 := normTerm_mem (getTemp cfg v) (v.actions.map fun a => (a, Q a)) cfg.low
  refine ⟨normTerm (getTemp cfg v) (v.actions.map fun a => (a, Q a)) cfg.low, ⟨h1, ?_, ?_⟩, ?_⟩
  · intro a ha
    exact h2 (a, Q a) (List.mem_map.2 ⟨a, ha, rfl⟩)
  · rcases h3 with h3 | ⟨p, hp, h3⟩
    · exact .inl h3
    · obtain ⟨a, ha, rfl⟩ := List.mem_map.1 hp
      exact .inr ⟨a, ha, h3⟩
  · unfold rentsWeights
    rw [qList_eq hq, hp]
    dsimp only
    have e1 : (List.map (fun a => (a, Q a)) v.actions).map (fun p => (p.1, Real.exp (p.2 / getTemp cfg v -
        normTerm (getTemp cfg v) (List.map (fun a => (a, Q a)) v.actions) cfg.low) * parentProb parent p.1)) =
        v.actions.map fun a => (a, rawWeight (getTemp cfg v) (normTerm (getTemp cfg v) (List.map (fun a => (a, Q a)) v.actions) cfg.low) Q
          (parentProb parent) a) := by
      rw [List.map_map]
      rfl
    rw [e1]
    generalize normTerm (getTemp cfg v) (v.actions.map fun a => (a, Q a)) cfg.low = n
    have e2 : (v.actions.map fun a => (a, rawWeight (getTemp cfg v) n Q (parentProb parent) a)).foldl (fun s p => s + p.2) 0 =
        (v.actions.map (rawWeight (getTemp cfg v) n Q (parentProb parent))).sum := by
      have := sumWeights_eq (v.actions.map fun a => (a, rawWeight (getTemp cfg v) n Q (parentProb parent) a))
      unfold sumWeights at this
      rw [this]
      simp [mass, Function.comp_def]
    rw [e2]
    unfold orUniform
    split <;> rfl

theorem rentsWeights_keys {r : List (A × ℝ) × ℝ × ℝ} (h : rentsWeights cfg q v ctx = .ok r) : r.1.map Prod.fst = v.actions := by
  unfold rentsWeights at h
  split at h
  · next qs parent h1 h2 =>
    simp only [Except.ok.injEq] at h
    subst h
    have := qList_keys h1
    dsimp only
    unfold orUniform
    split
    · simp [Function.comp_def]
    · rw [List.map_map]
      exact this
  · simp at h
  · simp at h

theorem rents_valid (eps : ℝ) (cfg : Cfg S A) (lr : S → A → ℝ) : (rents eps cfg lr).Valid := by
  intro v ctx a h
  have h : selectableW eps cfg v (rentsWS cfg (mentsQ cfg id v) v ctx) a = true := h
  unfold selectableW at h
  rw [@decide_eq_true_eq _ (Classical.propDecidable _)] at h
  obtain ⟨u, iter, _, _, hi, h⟩ := h
  obtain ⟨w, s, h1, h2⟩ := selectActionW_mem hi h
  unfold rentsWS at h1
  cases hw : rentsWeights cfg (mentsQ cfg id v) v ctx with
  | error e => rw [hw] at h1; simp at h1
  | ok r =>
    rw [hw] at h1
    obtain ⟨w', s', n⟩ := r
    simp only [Except.ok.injEq, Prod.mk.injEq] at h1
    have := rentsWeights_keys hw
    rw [h1.1] at this
    simp only at this
    rw [this] at h2
    exact h2

/-- What a selection leaves in the context. -/
noncomputable def distrOf (cfg : Cfg S A) (v : View S A Soft Soft) (ctx : Ctx A ℝ) : List (A × ℝ) :=
  match actionDistrW cfg v (rentsWS cfg (mentsQ cfg id v) v ctx) with
  | .ok l => l
  | .error _ => []

theorem selectable_distr {eps : ℝ} {v : View S A Soft Soft} {a : A} (h : selectableW eps cfg v (rentsWS cfg (mentsQ cfg id v) v ctx) a = true) :
    ∃ l, actionDistrW cfg v (rentsWS cfg (mentsQ cfg id v) v ctx) = .ok l := by
  unfold selectableW at h
  rw [@decide_eq_true_eq _ (Classical.propDecidable _)] at h
  obtain ⟨u, iter, _, _, _, h⟩ := h
  unfold selectActionW at h
  cases hl : actionDistrW cfg v (rentsWS cfg (mentsQ cfg id v) v ctx) with
  | ok l => exact ⟨l, rfl⟩
  | error e => rw [hl] at h; simp at h

/-- The distribution stored and whether there was one. -/
theorem rents_keeps (eps : ℝ) (cfg : Cfg S A) (lr : S → A → ℝ) :
    CtxKeeps (rents eps cfg lr) (fun ctx k => (find? k ctx.distrs).map Except.ok)
      (fun v ctx _ => actionDistrW cfg v (rentsWS cfg (mentsQ cfg id v) v ctx)) where
  hit v ctx a h := by
    obtain ⟨l, hl⟩ := selectable_distr (ctx := ctx) h
    show (find? v.depth (rentsSelCtx cfg v ctx).distrs).map Except.ok = _
    unfold rentsSelCtx
    rw [hl]
    simp only
    rw [find?_put_self]
    rfl
  miss v ctx a k h hk := by
    obtain ⟨l, hl⟩ := selectable_distr (ctx := ctx) h
    show (find? k (rentsSelCtx cfg v ctx).distrs).map Except.ok = _
    unfold rentsSelCtx
    rw [hl]
    simp only
    rw [find?_put_ne hk]

/-- The context a RENTS node needs. -/
def HasParent (v : View S A Soft Soft) (ctx : Ctx A ℝ) : Prop := ∃ parent, parentDistr v ctx = .ok parent

theorem rents_local {env : Env S A ℝ} (m : Manager S ℝ) (eps : ℝ) (hp : PriorTotal cfg env) (lr : S → A → ℝ) :
    LocalInvG env m (rents eps cfg lr) (fun _ => True) (fun _ => True) HasParent
      (fun _ _ _ x => ∃ r, x.val = some r) (fun _ _ _ _ y => ∃ r, y.val = some r) where
  initD s d t := ⟨_, rfl⟩
  initC s a d t _ := ⟨_, rfl⟩
  visitD b s d t x h := by
    obtain ⟨r, h⟩ := h
    refine ⟨r, ?_⟩
    show (softVisit b x).val = _
    unfold softVisit
    split <;> exact h
  visitC s a d t y h := h
  backupD v ctx args h1 h2 h3 h4 h5 _ _ hX h6 h7 := by
    obtain ⟨parent, hpar⟩ := hX
    obtain ⟨Q, hQ⟩ := mentsQ_total hp h1 id h7
    obtain ⟨n, _, hw⟩ := rentsWeights_eq (cfg := cfg) hQ hpar
    show ∃ r, (rentsBackupD cfg v ctx).val = some r
    unfold rentsBackupD
    rw [hw]
    by_cases hlt : (v.actions.map (rawWeight (getTemp cfg v) n Q (parentProb parent))).sum < EPS
    · rw [if_pos hlt]; exact ⟨_, rfl⟩
    · rw [if_neg hlt]; exact ⟨_, rfl⟩
  backupC s a d t y kids args _ _ h1 h2 := by
    obtain ⟨l, hl⟩ := finiteSoft_spec (kids.map fun k => k.2) (by
      intro y hy
      obtain ⟨k, hk, rfl⟩ := List.mem_map.1 hy
      exact (h2 k hk).2)
    refine ⟨meanLoop l 0 0 + lr s a, ?_⟩
    show (softBackupC (lr s a) (kids.map fun k => k.2) y).val = _
    simp [softBackupC, hl]

section
variable {env : Env S A ℝ} {m : Manager S ℝ} {eps : ℝ} {lr : S → A → ℝ} {k : Nat} {s0 : S} {dp tm : Int}
  {tb : List ((Int × S) × Option Nat)} {st : St S A ℝ Soft Soft} {h : List (Event S A ℝ)}

/-- The parent's policy is there. -/
theorem rents_parent (hdp : dp ≤ 0) (htb : Leftover tb) (hr : Reachable env m (rents eps cfg lr) k s0 dp tm tb st h) {w d : Nat}
    (hw : (∃ path rs new, st.ws[w]? = some (.sel d path rs new)) ∨
      (∃ nodes before after ret tot, st.ws[w]? = some (.backD d nodes before after ret tot))) {nd : DNode S A ℝ Soft}
    (hd : st.dn[d]? = some nd) : nd.depth ≤ 0 ∨ ∃ s l, s ∈ stepsOf w h ∧ s.d' = d ∧ find? (nd.depth - 1) (st.ctxOf w).distrs = some l ∧
      Stored env m (rents eps cfg lr) k s0 dp tm tb (fun v ctx _ => actionDistrW cfg v (rentsWS cfg (mentsQ cfg id v) v ctx)) h w s.d s.a s.c (.ok l) := by
  obtain ⟨I, H⟩ := reach_ctx (rents_valid eps cfg lr) (rents_keeps eps cfg lr) htb hr
  rcases ctx_parent I H hw hd with h1 | ⟨s, x, h1, h2, h3, h4⟩
  · left; omega
  · right
    cases hf : find? (nd.depth - 1) (st.ctxOf w).distrs with
    | none => simp [hf] at h3
    | some l =>
      simp only [hf, Option.map_some, Option.some.injEq] at h3
      subst h3
      exact ⟨s, l, h1, h2, rfl, h4⟩

/-- All values are finite. -/
theorem rents_reach (hp : PriorTotal cfg env) (hdp : dp ≤ 0) (htb : Leftover tb)
    (hr : Reachable env m (rents eps cfg lr) k s0 dp tm tb st h) :
    (∀ (d : Nat) nd, st.dn[d]? = some nd → ∃ r, nd.x.val = some r) ∧
    (∀ (c : Nat) nc, st.cn[c]? = some nc → ∃ r, nc.y.val = some r) := by
  obtain ⟨_, L⟩ := local_reach_given (rents_local m eps hp lr) (rents_valid eps cfg lr) htb
    (fun st h hr => ⟨fun _ _ _ => trivial, fun _ _ _ => trivial, fun w d nodes before after ret tot nd hw hd => by
      show ∃ parent, parentDistr (viewOf env m st nd) (st.ctxOf w) = .ok parent
      unfold parentDistr
      split
      · exact ⟨_, rfl⟩
      · next hdep =>
        rcases rents_parent hdp htb hr (.inr ⟨_, _, _, _, _, hw⟩) hd with h1 | ⟨s, l, _, _, h3, _⟩
        · have hdep : ¬ nd.depth < 1 := hdep
          omega
        · have h3 : find? ((viewOf env m st nd).depth - 1) (st.ctxOf w).distrs = some l := h3
          rw [h3]
          exact ⟨_, rfl⟩⟩) hr
  exact ⟨L.d, L.c⟩

end

theorem actionDistrW_pos {ws : Except Bad (List (A × ℝ) × ℝ)} {l : List (A × ℝ)} (h : actionDistrW cfg v ws = .ok l) : ∀ p ∈ l, 0 < p.2 := by
  unfold actionDistrW at h
  split at h
  · simp only [Except.ok.injEq] at h
    subst h
    intro p hp
    have := (List.mem_filter.1 hp).2
    simp only [decide_not, Bool.not_eq_true', decide_eq_false_iff_not, not_lt] at this
    have he : (0 : ℝ) < EPS := by unfold EPS; positivity
    exact lt_of_lt_of_le he (of_decide_eq_true this)
  · simp at h

theorem actionDistrW_keys {ws : Except Bad (List (A × ℝ) × ℝ)} {l : List (A × ℝ)} (h : actionDistrW cfg v ws = .ok l) :
    ∃ w s, ws = .ok (w, s) ∧ (l.map Prod.fst).Sublist (w.map Prod.fst) := by
  unfold actionDistrW at h
  split at h
  · next l' h1 =>
    simp only [Except.ok.injEq] at h
    subst h
    obtain ⟨w, s, h2, h3⟩ := fullDistrW_keys h1
    refine ⟨w, s, h2, ?_⟩
    rw [← h3]
    exact (List.filter_sublist).map _
  · simp at h

theorem parentProb_listed {l : List (A × ℝ)} (hn : (l.map Prod.fst).Nodup) : Listed l (parentProb (some l)) := by
  intro a
  constructor
  · intro p hp
    simp [parentProb, find?_of_mem hn hp]
  · intro h
    have : find? a l = none := by
      rw [find?_eq_none]
      intro ha
      obtain ⟨p, hp, rfl⟩ := List.mem_map.1 ha
      exact h p.2 hp
    simp [parentProb, this]

theorem parentProb_nonneg {l : List (A × ℝ)} (h0 : ∀ p ∈ l, 0 < p.2) (a : A) : 0 ≤ parentProb (some l) a := by
  unfold parentProb
  simp only
  cases hf : find? a l with
  | none => simp
  | some p => exact (h0 _ (find?_mem hf)).le

/-- The computed weights in terms of the specification. -/
theorem rents_policy (hq : QIs q v Q) (hp : parentDistr v ctx = .ok parent) (h0 : ∀ a, 0 ≤ parentProb parent a) (hne : v.actions ≠ []) :
    ∃ M, (cfg.low ≤ M ∧ (∀ a ∈ v.actions, Q a / getTemp cfg v ≤ M) ∧ (M = cfg.low ∨ ∃ a ∈ v.actions, M = Q a / getTemp cfg v)) ∧
      ∃ (w : A → ℝ) (s : ℝ), rentsWeights cfg q v ctx = .ok (v.actions.map (fun a => (a, w a)), s, M) ∧
        IsDistr v.actions (fun a => w a / s) ∧ (∀ a, w a / s = relPolicy (getTemp cfg v) (parentProb parent) Q M v.actions a) ∧
        getTemp cfg v * (Real.log s + M) = relValue (getTemp cfg v) (parentProb parent) Q M v.actions := by
  obtain ⟨M, hM, hw⟩ := rentsWeights_eq (cfg := cfg) hq hp
  have hraw : ∀ a, rawWeight (getTemp cfg v) M Q (parentProb parent) a = Real.exp (-M) * (parentProb parent a * Real.exp (Q a / getTemp cfg v)) := by
    intro a
    unfold rawWeight
    rw [sub_eq_add_neg, Real.exp_add]
    ring
  have hsum : (v.actions.map (rawWeight (getTemp cfg v) M Q (parentProb parent))).sum =
      Real.exp (-M) * relPartition (getTemp cfg v) (parentProb parent) Q v.actions := by
    unfold relPartition
    rw [← sum_map_mul]
    exact sum_congr fun a _ => hraw a
  have hiff : (v.actions.map (rawWeight (getTemp cfg v) M Q (parentProb parent))).sum < EPS ↔
      relPartition (getTemp cfg v) (parentProb parent) Q v.actions < 1 / 10 ^ 16 * Real.exp M := by
    rw [hsum, Real.exp_neg, inv_mul_lt_iff₀ (Real.exp_pos M), mul_comm]
    rfl
  have hlen : (0 : ℝ) < v.actions.length := by exact_mod_cast List.length_pos_of_ne_nil hne
  refine ⟨M, hM, ?_⟩
  by_cases hlt : (v.actions.map (rawWeight (getTemp cfg v) M Q (parentProb parent))).sum < EPS
  · rw [if_pos hlt] at hw
    refine ⟨_, _, hw, ?_, ?_, ?_⟩
    · refine isDistr_div (fun a _ => by positivity) ?_ one_pos
      simp [hlen.ne']
    · intro a
      unfold relPolicy
      rw [if_pos (hiff.1 hlt)]
      simp
    · unfold relValue
      rw [if_pos (hiff.1 hlt)]
      simp
  · rw [if_neg hlt] at hw
    have hspos : 0 < (v.actions.map (rawWeight (getTemp cfg v) M Q (parentProb parent))).sum :=
      lt_of_lt_of_le (by unfold EPS; positivity) (not_lt.1 hlt)
    have hppos : 0 < relPartition (getTemp cfg v) (parentProb parent) Q v.actions := by
      rw [hsum] at hspos
      exact (mul_pos_iff_of_pos_left (Real.exp_pos _)).1 hspos
    refine ⟨_, _, hw, isDistr_div (fun a _ => ?_) rfl hspos, ?_, ?_⟩
    · unfold rawWeight
      exact mul_nonneg (Real.exp_pos _).le (h0 a)
    · intro a
      unfold relPolicy
      rw [if_neg (fun h => hlt (hiff.2 h)), hsum, hraw, mul_div_mul_left _ _ (Real.exp_pos _).ne']
    · unfold relValue
      rw [if_neg (fun h => hlt (hiff.2 h)), hsum, Real.log_mul (Real.exp_pos _).ne' hppos.ne', Real.log_exp]
      ring

end Verif.Tents
