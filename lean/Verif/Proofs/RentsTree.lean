import Verif.Spec.RentsTree
import Verif.Proofs.TentsRandom

/-! # The values of RENTS when no trial is running -/

set_option linter.unusedSectionVars false
set_option linter.unusedSimpArgs false

namespace Verif.Tents

open Verif.Search Verif.Backups Verif.Ments Verif.Random Verif.Spec

section
variable {A : Type} [DecidableEq A]

/-- All policies in the context have non-negative entries with sum at most one, the actions in `acts` have at least the probability `p`, and the policy of
depth 0 lists only actions in `root`. -/
def CtxOk (acts root : A → Prop) (p : ℝ) (ctx : Ctx A ℝ) : Prop :=
  ∀ k l, find? k ctx.distrs = some l → (∀ q ∈ l, 0 ≤ q.2) ∧ mass l ≤ 1 ∧ (∀ a, acts a → p ≤ (find? a l).getD 0) ∧ (k = 0 → ∀ q ∈ l, root q.1)

theorem sum_ite_le {acts : List A} (hn : acts.Nodup) (b : A) {x : ℝ} (hx : 0 ≤ x) : (acts.map fun a => if b = a then x else 0).sum ≤ x := by
  induction acts with
  | nil => simpa using hx
  | cons a acts ih =>
    obtain ⟨h1, h2⟩ := List.nodup_cons.1 hn
    rw [List.map_cons, List.sum_cons]
    by_cases hb : b = a
    · subst hb
      have : (acts.map fun a => if b = a then x else 0) = acts.map fun _ => 0 :=
        List.map_congr_left fun a ha => if_neg (fun e : b = a => h1 (e.symm ▸ ha))
      rw [this]
      simp
    · rw [if_neg hb, zero_add]
      exact ih h2

theorem sum_map_add' {acts : List A} (f g : A → ℝ) : (acts.map fun a => f a + g a).sum = (acts.map f).sum + (acts.map g).sum := by
  induction acts with
  | nil => simp
  | cons a acts ih => simp only [List.map_cons, List.sum_cons, ih]; ring

theorem sum_map_le {acts : List A} {f g : A → ℝ} (h : ∀ a ∈ acts, f a ≤ g a) : (acts.map f).sum ≤ (acts.map g).sum := by
  induction acts with
  | nil => simp
  | cons a acts ih =>
    simp only [List.map_cons, List.sum_cons]
    have := h a (by simp)
    have := ih fun b hb => h b (by simp [hb])
    linarith

theorem sum_parentProb_le {acts : List A} (hn : acts.Nodup) {l : List (A × ℝ)} (h0 : ∀ p ∈ l, 0 ≤ p.2) :
    (acts.map (parentProb (some l))).sum ≤ mass l := by
  induction l with
  | nil =>
    have : acts.map (parentProb (some ([] : List (A × ℝ)))) = acts.map fun _ => 0 := List.map_congr_left fun a _ => by simp [parentProb, find?]
    rw [this]
    simp [mass]
  | cons p l ih =>
    obtain ⟨b, x⟩ := p
    have hx : 0 ≤ x := h0 (b, x) (by simp)
    have hl : ∀ p ∈ l, 0 ≤ p.2 := fun p hp => h0 p (by simp [hp])
    have hnn : ∀ a, 0 ≤ parentProb (some l) a := by
      intro a
      cases hf : find? a l with
      | none => simp [parentProb, hf]
      | some y => simpa [parentProb, hf] using hl _ (find?_mem hf)
    have h1 : (acts.map (parentProb (some ((b, x) :: l)))).sum ≤ (acts.map fun a => (if b = a then x else 0) + parentProb (some l) a).sum := by
      refine sum_map_le fun a _ => ?_
      simp only [parentProb, find?]
      by_cases hb : b = a
      · simp only [hb, if_true, Option.getD_some]
        have := hnn a
        simp only [parentProb] at this
        linarith
      · simp [hb]
    rw [sum_map_add'] at h1
    have h2 := sum_ite_le hn b hx
    have h3 := ih hl
    have h4 : mass ((b, x) :: l) = x + mass l := by simp [mass]
    linarith

/-- The value of a RENTS node is within `16 log 10` temperatures of the largest value, whatever the parent's policy. -/
theorem relValue_lower {T : ℝ} (ht : 0 < T) {P Q : A → ℝ} {M : ℝ} {acts : List A} :
    T * M - T * (16 * Real.log 10) ≤ relValue T P Q M acts := by
  have hl : 0 ≤ Real.log 10 := Real.log_nonneg (by norm_num)
  unfold relValue
  split
  · have := mul_nonneg ht.le (mul_nonneg (by norm_num : (0 : ℝ) ≤ 16) hl)
    linarith
  · next h =>
    have h' := not_lt.1 h
    have hpos : (0 : ℝ) < 1 / 10 ^ 16 * Real.exp M := by positivity
    have h2 := Real.log_le_log hpos h'
    rw [Real.log_mul (by positivity) (Real.exp_pos M).ne', Real.log_exp, one_div, Real.log_inv, Real.log_pow] at h2
    push_cast at h2
    have := mul_le_mul_of_nonneg_left h2 ht.le
    linarith

theorem relValue_floor {T : ℝ} (ht : 0 < T) {P Q : A → ℝ} {M p : ℝ} {acts : List A} (hp : 0 < p) (hp1 : p ≤ 1) (h0 : ∀ a ∈ acts, p ≤ P a)
    (hM : ∃ a ∈ acts, M = Q a / T) : T * M - T * Real.log (1 / p) ≤ relValue T P Q M acts := by
  have hl : Real.log (1 / p) = - Real.log p := by rw [one_div, Real.log_inv]
  have hlp : Real.log p ≤ 0 := Real.log_nonpos hp.le hp1
  unfold relValue
  split
  · have := mul_nonpos_of_nonneg_of_nonpos ht.le hlp
    rw [hl]
    linarith
  · obtain ⟨a, ha, hMa⟩ := hM
    have h1 : p * Real.exp M ≤ relPartition T P Q acts := by
      unfold relPartition
      refine le_trans ?_ (List.single_le_sum ?_ _ (List.mem_map_of_mem ha))
      · rw [hMa]
        exact mul_le_mul_of_nonneg_right (h0 a ha) (Real.exp_pos _).le
      · intro x hx
        obtain ⟨b, hb, rfl⟩ := List.mem_map.1 hx
        exact mul_nonneg (le_trans hp.le (h0 b hb)) (Real.exp_pos _).le
    have h2 := Real.log_le_log (mul_pos hp (Real.exp_pos M)) h1
    rw [Real.log_mul hp.ne' (Real.exp_pos M).ne', Real.log_exp] at h2
    have := mul_le_mul_of_nonneg_left h2 ht.le
    rw [hl]
    linarith

theorem loss_nonneg {p : ℝ} (h0 : 0 ≤ p) (h1 : p ≤ 1) : 0 ≤ loss p := by
  unfold loss
  split
  · exact mul_nonneg (by norm_num) (Real.log_nonneg (by norm_num))
  · next h =>
    have hp : 0 < p := lt_of_le_of_ne h0 (Ne.symm h)
    exact Real.log_nonneg (by rw [le_div_iff₀ hp]; linarith)

theorem relValue_loss {T : ℝ} (ht : 0 < T) {P Q : A → ℝ} {M p : ℝ} {acts : List A} (hp : 0 ≤ p) (hp1 : p ≤ 1) (h0 : ∀ a ∈ acts, p ≤ P a)
    (hM : ∃ a ∈ acts, M = Q a / T) : T * M - T * loss p ≤ relValue T P Q M acts := by
  unfold loss
  split
  · exact relValue_lower ht
  · next h => exact relValue_floor ht (lt_of_le_of_ne hp (Ne.symm h)) hp1 h0 hM

theorem relValue_upper {T : ℝ} (ht : 0 < T) {P Q : A → ℝ} {M c : ℝ} {acts : List A} (h0 : ∀ a ∈ acts, 0 ≤ P a) (hM : ∀ a ∈ acts, Q a / T ≤ M)
    (hc : 1 ≤ c) (hP : (acts.map P).sum ≤ c) : relValue T P Q M acts ≤ T * M + T * Real.log c := by
  have hlc : 0 ≤ T * Real.log c := mul_nonneg ht.le (Real.log_nonneg hc)
  unfold relValue
  split
  · linarith
  · next h =>
    have h' := not_lt.1 h
    have hpos : (0 : ℝ) < relPartition T P Q acts := lt_of_lt_of_le (by positivity) h'
    have h1 : relPartition T P Q acts ≤ c * Real.exp M := by
      have e1 : relPartition T P Q acts ≤ (acts.map fun a => Real.exp M * P a).sum := by
        unfold relPartition
        refine sum_map_le fun a ha => ?_
        rw [mul_comm]
        exact mul_le_mul_of_nonneg_right (Real.exp_le_exp.2 (hM a ha)) (h0 a ha)
      rw [sum_map_mul] at e1
      have := mul_le_mul_of_nonneg_left hP (Real.exp_pos M).le
      linarith
    have h2 := Real.log_le_log hpos h1
    rw [Real.log_mul (by linarith) (Real.exp_pos M).ne', Real.log_exp] at h2
    have := mul_le_mul_of_nonneg_left h2 ht.le
    linarith

theorem best_greatest (opp : Bool) (q : A → ℝ) {l : List A} (hl : l ≠ []) :
    IsGreatest {y | ∃ a ∈ l, y = sgn opp * q a} (sgn opp * bestOf opp (l.map q)) := by
  have hf : l.map q ≠ [] := by simpa using hl
  unfold bestOf sgn
  cases opp
  · simp only [Bool.false_eq_true, if_false, one_mul]
    obtain ⟨x, hx⟩ := Option.ne_none_iff_exists'.1 (mt List.max?_eq_none_iff.1 hf)
    rw [hx]
    obtain ⟨h1, h2⟩ := List.max?_eq_some_iff.1 hx
    obtain ⟨a, ha, hxa⟩ := List.mem_map.1 h1
    refine ⟨⟨a, ha, by simp [hxa]⟩, ?_⟩
    rintro _ ⟨b, hb, rfl⟩
    exact h2 _ (List.mem_map_of_mem hb)
  · simp only [if_true]
    obtain ⟨x, hx⟩ := Option.ne_none_iff_exists'.1 (mt List.min?_eq_none_iff.1 hf)
    rw [hx]
    obtain ⟨h1, h2⟩ := List.min?_eq_some_iff.1 hx
    obtain ⟨a, ha, hxa⟩ := List.mem_map.1 h1
    refine ⟨⟨a, ha, by simp [hxa]⟩, ?_⟩
    rintro _ ⟨b, hb, rfl⟩
    have := h2 _ (List.mem_map_of_mem (f := q) hb)
    simp only [Option.getD_some]
    linarith

end

section
variable {S A : Type} [DecidableEq S] [DecidableEq A] {cfg : Cfg S A} {env : Env S A ℝ} {m : Manager S ℝ} {eps : ℝ} {lr : S → A → ℝ} {k : Nat} {s0 : S}
  {dp tm : Int} {tb : List ((Int × S) × Option Nat)} {st st' : St S A ℝ Soft Soft} {h : List (Event S A ℝ)} {next : S → A → S}

/-- Actions that can be selected somewhere. -/
def Selectable (env : Env S A ℝ) (a : A) : Prop := ∃ s, env.isSink s = false ∧ a ∈ env.actions s

/-- `p` is zero, or the actions in `acts` are available everywhere and explored with probability `p` in the first `N` trials. -/
def FloorOn (acts : A → Prop) (cfg : Cfg S A) (env : Env S A ℝ) (B N : Nat) (p : ℝ) : Prop :=
  p = 0 ∨ ((∀ s, env.isSink s = false → ∀ a, acts a → a ∈ env.actions s) ∧ p = softExplore cfg B N ∧ 1 / 10 ^ 16 ≤ p ∧
    ∀ s, (env.actions s).length ≤ B)

variable {B N : Nat} {p : ℝ} {acts : A → Prop}

theorem floorOn (F : FloorOk cfg env B N p) : FloorOn (Selectable env) cfg env B N p := by
  rcases F with h | ⟨h1, h2⟩
  · exact .inl h
  · exact .inr ⟨fun s hs a ⟨s', hs', ha⟩ => h1 s s' hs hs' a ha, h2⟩

theorem floor_nonneg (F : FloorOn acts cfg env B N p) : 0 ≤ p := by
  rcases F with rfl | ⟨_, _, h, _⟩
  · exact le_rfl
  · exact le_trans (by positivity) h

theorem floor_le_one (G : GoodCfg cfg env) (F : FloorOn acts cfg env B N p) : p ≤ 1 := by
  rcases F with rfl | ⟨_, h1, h, _⟩
  · exact zero_le_one
  · rw [h1] at h ⊢
    exact (c77_explore_range G.max1 h).2

/-- The only node at the depth of the root is the root. -/
theorem depth_root (htb : Leftover tb) (hr : Reachable env m (rents eps cfg lr) k s0 dp tm tb st h) {d : Nat} {nd : DNode S A ℝ Soft}
    (hd : st.dn[d]? = some nd) (hdep : nd.depth = dp) : nd.state = s0 := by
  have H := (reach_inv (rents_valid eps cfg lr) htb hr).tree.heap
  have hds : (st.dn.map DNode.skel)[d]? = some nd.skel := by simp [hd]
  by_cases h0 : d = 0
  · subst h0
    obtain ⟨r, h1, h2, _⟩ := H.root
    rw [hds] at h1
    obtain rfl := Option.some.inj h1
    exact h2
  · exfalso
    obtain ⟨c, n, o, h1, h2⟩ := H.dPar d _ hds h0
    obtain ⟨d', g1, _, g3, _⟩ := H.cKid c n o d h1 h2
    rw [hds] at g1
    obtain rfl := Option.some.inj g1
    obtain ⟨i, e, e1, e2⟩ := H.cPar c n h1
    obtain ⟨n', k1, _, _, k4, _⟩ := H.dKid i e _ c e1 e2
    rw [h1] at k1
    obtain rfl := Option.some.inj k1
    have := (H.dTime i e e1).2
    simp only [DNode.skel] at g3
    omega

theorem rents_selCtx_ok (G : GoodCfg cfg env) (F : FloorOn acts cfg env B N p) (hnd : ∀ s, (env.actions s).Nodup) (htb : Leftover tb)
    (hr : Reachable env m (rents eps cfg lr) k s0 0 tm tb st h) (hN : trialsBegun h ≤ N) {w cur : Nat} {path : List (Nat × Nat)} {rs : List ℝ}
    {new : Bool} {nd : DNode S A ℝ Soft} {a : A} (hw : st.ws[w]? = some (.sel cur path rs new)) (hd : st.dn[cur]? = some nd)
    (hl : isLeaf env m nd = false)
    (ha : (rents eps cfg lr).canSelect (viewOf env m st { nd with visits := nd.visits + 1, x := softVisit false nd.x }) (st.ctxOf w) a = true)
    (hc : CtxOk acts (· ∈ env.actions s0) p (st.ctxOf w)) :
    CtxOk acts (· ∈ env.actions s0) p (rentsSelCtx cfg (viewOf env m st { nd with visits := nd.visits + 1, x := softVisit false nd.x }) (st.ctxOf w)) := by
  have hne : env.actions nd.state ≠ [] := List.ne_nil_of_mem (rents_valid eps cfg lr _ _ _ ha)
  have hvis : nd.visits + 1 ≤ N := by
    have := visits_lt_of_sel (rents_valid eps cfg lr) htb hr hw hd
    simp only [rents] at this
    omega
  have hsink : env.isSink nd.state = false := by
    simp [isLeaf] at hl
    exact hl.1
  obtain ⟨wt, s, h1, h2⟩ := rents_weights_distr G hnd htb hr hw hd hne
  have hF : WellFormed cfg (viewOf env m st { nd with visits := nd.visits + 1, x := softVisit false nd.x }) := goodCfg_wellFormed G rfl
  obtain ⟨l, g1, g2, g3, g4, _, g6⟩ := actionDistrW_spec (v := viewOf env m st { nd with visits := nd.visits + 1, x := softVisit false nd.x })
    (Nat.succ_pos _) hF (wt := wt) (s := s) h2
  have g1' : actionDistrW cfg (viewOf env m st { nd with visits := nd.visits + 1, x := softVisit false nd.x })
      (rentsWS cfg (mentsQ cfg id (viewOf env m st { nd with visits := nd.visits + 1, x := softVisit false nd.x }))
        (viewOf env m st { nd with visits := nd.visits + 1, x := softVisit false nd.x }) (st.ctxOf w)) = .ok l := by
    rw [h1]; exact g1
  unfold rentsSelCtx
  rw [g1']
  intro j l' hj
  by_cases hjd : j = (viewOf env m st { nd with visits := nd.visits + 1, x := softVisit false nd.x }).depth
  · subst hjd
    simp only [find?_put_self, Option.some.injEq] at hj
    subst hj
    refine ⟨fun p hp => (g3 p hp).le, g4, ?_, ?_⟩
    rotate_left
    · intro h0 q hq
      have hd0 : nd.depth = 0 := h0
      rw [← depth_root htb hr hd hd0]
      exact ((g2 q.1 q.2).1 hq).1
    intro b hb
    rcases F with rfl | ⟨f1, f2, f3, f4⟩
    · cases hf : find? b l with
      | none => simp
      | some y => exact (g3 _ (find?_mem hf)).le
    · have hb' : b ∈ env.actions nd.state := f1 nd.state hsink b hb
      have e1 : p ≤ mixture cfg (viewOf env m st { nd with visits := nd.visits + 1, x := softVisit false nd.x }) (fun a => wt a / s) b := by
        rw [f2]
        exact le_trans (softExplore_le (Nat.succ_pos _) hF hvis (f4 _) hne) ((mixture_is_distribution (Nat.succ_pos _) h2 hF).1 b hb').1
      rw [find?_of_mem (g6 (hnd _)) ((g2 b _).2 ⟨hb', rfl, le_trans f3 e1⟩)]
      exact e1
  · simp only at hj
    rw [find?_put_ne hjd] at hj
    exact hc j l' hj

/-- In every state all contexts are in order. -/
theorem rents_ctx_ok (G : GoodCfg cfg env) (F : FloorOn acts cfg env B N p) (hnd : ∀ s, (env.actions s).Nodup) (htb : Leftover tb)
    (hr : Reachable env m (rents eps cfg lr) k s0 0 tm tb st h) (hN : trialsBegun h ≤ N) : ∀ w, CtxOk acts (· ∈ env.actions s0) p (st.ctxOf w) := by
  have empty : CtxOk acts (· ∈ env.actions s0) p ({} : Ctx A ℝ) := fun k l hk => by simp [find?] at hk
  revert hN
  refine reach_induct (P := fun st h => trialsBegun h ≤ N → ∀ w, CtxOk acts (· ∈ env.actions s0) p (st.ctxOf w)) ?_ ?_ hr
  · intro _ w
    unfold St.ctxOf
    cases hx : (init env m (rents eps cfg lr) k s0 0 tm tb).ctxs[w]? with
    | none => exact empty
    | some c =>
      have := List.mem_of_getElem? hx
      simp only [init, List.mem_replicate] at this
      rw [this.2]
      exact empty
  · intro st h w e st' hr ih _ E hN w'
    have hN' : trialsBegun h ≤ N := le_trans (by unfold trialsBegun; rw [List.countP_cons]; omega) hN
    replace ih := ih hN'
    have hset : ∀ (x : Ctx A ℝ), CtxOk acts (· ∈ env.actions s0) p x → CtxOk acts (· ∈ env.actions s0) p (((st.ctxs.set w x)[w']?).getD {}) := by
      intro x hx
      rw [List.getElem?_set]
      split
      · split
        · exact hx
        · exact empty
      · exact ih w'
    cases E with
    | began hw => exact hset _ empty
    | selOld hw hd hl hm ha hf => exact hset _ (rents_selCtx_ok G F hnd htb hr hN' hw hd hl ha (ih w))
    | selNew hw hd hl hm ha hf => exact hset _ (rents_selCtx_ok G F hnd htb hr hN' hw hd hl ha (ih w))
    | _ => exact ih w'

/-- The counters and the values of nodes without backups. -/
structure RentsInv (env : Env S A ℝ) (m : Manager S ℝ) (st : St S A ℝ Soft Soft) (h : List (Event S A ℝ)) : Prop where
  d : ∀ (d : Nat) (nd : DNode S A ℝ Soft), st.dn[d]? = some nd →
    nd.x.n = (returnsD d h).length + (if isLeaf env m nd then h.countP (Event.endAt d) else 0) ∧ (returnsD d h = [] → nd.x.val = some nd.heur)

theorem rentsInv_eff {w : Nat} {e : Event S A ℝ} (T : Touch st h) (D : RentsInv env m st h) (E : Eff env m (rents eps cfg lr) st w e st') :
    RentsInv env m st' (e :: h) := by
  constructor
  intro d nd' hd'
  rcases dn_chg E hd' with ⟨nd, hd, hchg⟩ | ⟨rfl, ht, s, dep, tim, rfl⟩
  · obtain ⟨h1, h3⟩ := D.d d nd hd
    cases hchg with
    | same he => rw [returnsD_cons d e h he, endAt_cons he]; exact ⟨h1, h3⟩
    | selOld hl ha hf =>
      have hl' := hl
      simp only [isLeaf] at hl' h1 ⊢
      simp only [returnsD, List.filterMap_cons, rents, softVisit, hl', if_false, Bool.false_eq_true] at h1 h3 ⊢
      exact ⟨h1, h3⟩
    | selNew hl ha hf =>
      have hl' := hl
      simp only [isLeaf] at hl' h1 ⊢
      simp only [returnsD, List.filterMap_cons, rents, softVisit, hl', if_false, Bool.false_eq_true] at h1 h3 ⊢
      exact ⟨h1, h3⟩
    | ended =>
      have hi : isLeaf env m { nd with visits := nd.visits + 1, x := (rents eps cfg lr).visitD (isLeaf env m nd) nd.x } = isLeaf env m nd := rfl
      rw [returnsD_other (by simp), hi]
      simp only [rents, softVisit, List.countP_cons, Event.endAt, beq_self_eq_true, if_true]
      cases hl : isLeaf env m nd <;> simp only [hl, if_true, if_false, Bool.false_eq_true] at h1 ⊢
      · exact ⟨h1, h3⟩
      · exact ⟨by omega, h3⟩
    | @backed w' args =>
      have hi : isLeaf env m { nd with x := (rents eps cfg lr).backupD (viewOf env m st nd) (st.ctxOf w') args } = isLeaf env m nd := rfl
      rw [hi]
      have hret : returnsD d (Event.backedD w' d args :: h) = args.retAfter :: returnsD d h := by simp [returnsD]
      refine ⟨?_, ?_⟩
      · rw [hret, List.countP_cons]
        simp only [rents, rentsBackupD, viewOf, List.length_cons, Event.endAt, Bool.false_eq_true, if_false, Nat.add_zero]
        rw [h1]
        omega
      · rw [hret]; simp
  · rw [returnsD_cons _ e h ht, returnsD_nil T.freshD, endAt_cons ht, endAt_zero T.freshD]
    simp only [List.length_nil, ite_self]
    simp [newD, rents, softInitD]

theorem rentsInv_reach (hr : Reachable env m (rents eps cfg lr) k s0 dp tm tb st h) : RentsInv env m st h := by
  obtain ⟨ls, hx⟩ := hr
  refine (exec_induct (fun s h => Touch s h ∧ RentsInv env m s h)
    (fun _ _ _ _ _ hi _ E => ⟨touch_eff hi.1 E, rentsInv_eff hi.1 hi.2 E⟩) ⟨⟨by simp, by simp⟩, ⟨?_⟩⟩ hx).2
  intro d nd hd
  rcases d with _ | d
  · simp [init] at hd
    subst hd
    simp only [returnsD, List.filterMap_nil, List.length_nil, List.countP_nil, ite_self]
    simp [newD, rents, softInitD]
  · simp [init] at hd

theorem rents_weight (hr : Reachable env m (rents eps cfg lr) k s0 dp tm tb st h) (hq : Quiescent st)
    {d : Nat} {nd : DNode S A ℝ Soft} (hd : st.dn[d]? = some nd) : nd.x.n = softWeight env m st h d := by
  unfold softWeight
  rw [((rentsInv_reach hr).d d nd hd).1, returns_through hr hq, hd]
  have : trialsEndedAt d h = h.countP (Event.endAt d) := by
    unfold trialsEndedAt
    congr 1
  rw [this]

theorem rents_visit_false (x : Soft) : (rents eps cfg lr).visitD false x = x := by
  show softVisit false x = x
  simp [softVisit]

theorem rents_leafKids (htb : Leftover tb) (hr : Reachable env m (rents eps cfg lr) k s0 dp tm tb st h)
    {d : Nat} {nd : DNode S A ℝ Soft} (hd : st.dn[d]? = some nd) (hl : isLeaf env m nd = true) : nd.kids = [] := by
  rw [isLeaf_skel] at hl
  exact (reach_inv (rents_valid eps cfg lr) htb hr).tree.heap.dLeaf d nd.skel (by simp [hd]) hl

/-- The value of a decision node, as a number. -/
noncomputable def valueD (st : St S A ℝ Soft Soft) (d : Nat) : ℝ := (softD id st d).getD 0

theorem valueD_some (G : GoodCfg cfg env) (htb : Leftover tb) (hr : Reachable env m (rents eps cfg lr) k s0 0 tm tb st h)
    {d : Nat} {nd : DNode S A ℝ Soft} (hd : st.dn[d]? = some nd) : nd.x.val = some (valueD st d) ∧ softD id st d = some (valueD st d) := by
  obtain ⟨r, hr'⟩ := (rents_reach G.total (le_refl 0) htb hr).1 d nd hd
  have : softD id st d = some r := by simp [softD, hd, hr']
  simp [valueD, this, hr']

theorem rents_nokids (G : GoodCfg cfg env) (htb : Leftover tb) (hr : Reachable env m (rents eps cfg lr) k s0 0 tm tb st h)
    {d : Nat} {nd : DNode S A ℝ Soft} (hd : st.dn[d]? = some nd) (hk : nd.kids = []) : valueD st d = nd.heur := by
  have hv := rents_valid eps cfg lr
  have I := reach_inv hv htb hr
  have h0 : returnsD d h = [] := by
    by_contra hne
    have hpos : 0 < h.countP (Event.selAt d) := by
      have := (reach_bk hr).1.d d
      have := List.length_pos_iff.2 hne
      omega
    obtain ⟨e, he, hs⟩ := List.countP_pos_iff.1 hpos
    cases e with
    | selected w d1 a c =>
      have hdd : d1 = d := by simpa [Event.selAt] using hs
      subst hdd
      obtain ⟨nd', _, k1, _, k2, _⟩ := childC_facts I.tree ((reach_both hv htb hr).2.evSel w d1 a c he)
      rw [hd] at k1
      obtain rfl := Option.some.inj k1
      rw [hk] at k2
      simp at k2
    | _ => simp [Event.selAt] at hs
  have h1 := ((rentsInv_reach hr).d d nd hd).2 h0
  rw [(valueD_some G htb hr hd).1] at h1
  exact Option.some.inj h1

/-- The value of a chance node is the mean of those below. -/
theorem rents_chance (G : GoodCfg cfg env) (hu : m.useTable = false) (htb : Leftover tb)
    (hr : Reachable env m (rents eps cfg lr) k s0 0 tm tb st h) (hq : Quiescent st) {d c : Nat} {a : A} (hcc : childC st d a = some c) :
    ∃ nc, st.cn[c]? = some nc ∧ nc.y.val = some (chanceSoft env m lr st h (valueD st) nc) := by
  have hv := rents_valid eps cfg lr
  have U := reach_uptodate hv rents_visit_false hu htb hr
  obtain ⟨fd, fc⟩ := quiescent_free hq
  have I := reach_inv hv htb hr
  obtain ⟨nd2, nc, k1, k2, k3, k4⟩ := childC_facts I.tree hcc
  have hrc := (c39_children_backed hv htb hr hq hcc).2
  obtain ⟨y0, args, hy⟩ := U.c c nc k2 (fc c) hrc
  refine ⟨nc, k2, ?_⟩
  rw [hy]
  show (softBackupC (lr nc.state nc.action) ((kidsX st nc).map fun k => k.2) y0).val = _
  have hkids : (kidsX st nc).map (fun k => k.2) =
      (nc.kids.map fun q => (softWeight env m st h q.2, valueD st q.2)).map fun p => ({ n := p.1, val := some p.2 } : Soft) := by
    have hall : ∀ q ∈ nc.kids, ∃ nd', st.dn[q.2]? = some nd' ∧
        nd'.x = { n := softWeight env m st h q.2, val := some (valueD st q.2) } := by
      intro q hq'
      obtain ⟨nc', nd', g1, g2, g3, g4, g5, g6⟩ := childD_facts I.tree (childD_of_mem I.tree k2 (show (q.1, q.2) ∈ nc.kids from hq'))
      refine ⟨nd', g2, ?_⟩
      rw [← (valueD_some G htb hr g2).1, ← rents_weight hr hq g2]
    unfold kidsX
    generalize nc.kids = ks at hall
    induction ks with
    | nil => rfl
    | cons q ks ihk =>
      obtain ⟨nd', g1, g2⟩ := hall q (by simp)
      simp only [List.filterMap_cons, g1, Option.map_some, List.map_cons, g2]
      rw [ihk (fun q hq => hall q (by simp [hq]))]
  rw [hkids, softBackupC_val]
  rfl

/-- The values of the actions of a node, from the point of view of the player to move: the current value of a tried action, the default (or prior)
value of an untried one. -/
noncomputable def actionVal (cfg : Cfg S A) (m : Manager S ℝ) (st : St S A ℝ Soft Soft) (nd : DNode S A ℝ Soft) (a : A) : ℝ :=
  (find? a nd.kids).elim (untriedValue cfg (isOpponent m nd.time) nd.state a) fun c =>
    sgn (isOpponent m nd.time) * (softC id st c).getD 0

/-- The value of a node in terms of the current values of its actions. -/
theorem rents_value (G : GoodCfg cfg env) (F : FloorOn acts cfg env B N p) (hnd : ∀ s, (env.actions s).Nodup) (hdec : cfg.decay = none) (hu : m.useTable = false) (htb : Leftover tb)
    (hr : Reachable env m (rents eps cfg lr) k s0 0 tm tb st h) (hq : Quiescent st) (hN : trialsBegun h ≤ N) {d : Nat} {nd : DNode S A ℝ Soft}
    (hd : st.dn[d]? = some nd) (hk : nd.kids ≠ []) :
    ∃ P M, (∀ a ∈ env.actions nd.state, 0 ≤ P a) ∧ (∀ a, acts a → p ≤ P a) ∧ (nd.depth = 1 → ∀ a, a ∉ env.actions s0 → P a = 0) ∧
      (0 < nd.depth → ((env.actions nd.state).map P).sum ≤ 1) ∧
      (∀ a ∈ env.actions nd.state, P a ≤ 1) ∧
      (cfg.low ≤ M ∧ (∀ a ∈ env.actions nd.state, actionVal cfg m st nd a / cfg.temp ≤ M) ∧
        (M = cfg.low ∨ ∃ a ∈ env.actions nd.state, M = actionVal cfg m st nd a / cfg.temp)) ∧
      valueD st d = sgn (isOpponent m nd.time) * relValue cfg.temp P (actionVal cfg m st nd) M (env.actions nd.state) := by
  have hv := rents_valid eps cfg lr
  have U := reach_uptodateK (K := CtxOk acts (· ∈ env.actions s0) p) hv rents_visit_false hu htb (fun _ _ hr hs w =>
    rents_ctx_ok G F hnd htb hr (le_trans (hs.sublist.countP_le) hN) w) hr
  obtain ⟨fd, fc⟩ := quiescent_free hq
  have I := reach_inv hv htb hr
  obtain ⟨p0, hp0⟩ := List.exists_mem_of_ne_nil _ hk
  have hc0 := childC_of_mem I.tree hd (show (p0.1, p0.2) ∈ nd.kids from hp0)
  have hret := (c39_children_backed hv htb hr hq hc0).1
  obtain ⟨x0, v0, ctx, args, hctx, hx⟩ := U.d d nd hd (fd d) hret
  have hane : env.actions nd.state ≠ [] := by
    obtain ⟨nd2, _, k1, _, _, _, _, _, _, k8⟩ := childC_facts I.tree hc0
    rw [hd] at k1
    obtain rfl := Option.some.inj k1
    exact List.ne_nil_of_mem k8
  have hval : ∀ (c : Nat) a, (a, c) ∈ nd.kids → ∃ nc, st.cn[c]? = some nc ∧ nc.y.val = some ((softC id st c).getD 0) := by
    intro c a hac
    obtain ⟨nc, h1, h2⟩ := rents_chance G hu htb hr hq (childC_of_mem I.tree hd hac)
    exact ⟨nc, h1, by simp [softC, h1, h2]⟩
  set v := viewOf env m st { nd with x := x0, visits := v0 } with hvdef
  have hkv : v.kids = kidsY st nd := rfl
  have hov : v.opp = isOpponent m nd.time := rfl
  have hsv : v.state = nd.state := rfl
  have hav : v.actions = env.actions nd.state := rfl
  have hfk : ∀ a, find? a (kidsY st nd) = (find? a nd.kids).bind fun c => (st.cn[c]?).map fun nc => (nc.visits, nc.y) := by
    intro a
    refine find?_kidsY a ?_
    intro p hp
    obtain ⟨nc, h1, _⟩ := hval p.2 p.1 hp
    exact ⟨nc, h1⟩
  have hQ : QIs (mentsQ cfg id v) v (actionVal cfg m st nd) := by
    intro a ha
    have ha' : a ∈ env.actions nd.state := ha
    unfold mentsQ actionVal
    rw [hkv, hfk a]
    cases hf : find? a nd.kids with
    | none =>
      simp only [Option.bind_none, Option.elim_none, untriedQ, hov, hsv, untriedValue]
      cases hpr : cfg.prior with
      | none =>
        simp only [oppCoeff, sgn]
        rw [mul_comm]
      | some f =>
        obtain ⟨wt, hwt⟩ := Option.isSome_iff_exists.1 (G.total f hpr nd.state a ha')
        simp [hwt]
    | some c =>
      obtain ⟨nc, g1, g2⟩ := hval c a (find?_mem hf)
      simp only [Option.bind_some, g1, Option.map_some, id, g2, Option.elim_some, hov, oppCoeff, sgn]
      rw [mul_comm]
  have hxv := (valueD_some G htb hr hd).1
  rw [hx] at hxv
  have hxv : (rentsBackupD cfg v ctx).val = some (valueD st d) := hxv
  have ht : getTemp cfg v = cfg.temp := by simp [getTemp, hdec]
  cases hpd : parentDistr v ctx with
  | error e =>
    exfalso
    unfold rentsBackupD rentsWeights at hxv
    rw [hpd] at hxv
    cases hql : qList (mentsQ cfg id v) v.actions <;> simp [hql] at hxv
  | ok parent =>
    have hpar : (∀ a ∈ env.actions nd.state, 0 ≤ parentProb parent a) ∧ (∀ a, acts a → p ≤ parentProb parent a) ∧
        (nd.depth = 1 → ∀ a, a ∉ env.actions s0 → parentProb parent a = 0) ∧
        (0 < nd.depth → ((env.actions nd.state).map (parentProb parent)).sum ≤ 1) ∧ (∀ a ∈ env.actions nd.state, parentProb parent a ≤ 1) ∧
        (∀ a, 0 ≤ parentProb parent a) := by
      unfold parentDistr at hpd
      by_cases hdep : v.depth < 1
      · rw [if_pos hdep] at hpd
        obtain rfl := Except.ok.inj hpd
        have hdep' : nd.depth < 1 := hdep
        exact ⟨fun a _ => by simp [parentProb], fun a _ => by simpa [parentProb] using floor_le_one G F, fun h => by omega, fun h => by omega, fun a _ => by simp [parentProb], fun a => by simp [parentProb]⟩
      · rw [if_neg hdep] at hpd
        cases hf : find? (v.depth - 1) ctx.distrs with
        | none => rw [hf] at hpd; simp at hpd
        | some l =>
          rw [hf] at hpd
          obtain rfl := Except.ok.inj hpd
          obtain ⟨g1, g2, g3, g4⟩ := hctx _ _ hf
          have hnn : ∀ a, 0 ≤ parentProb (some l) a := by
            intro a
            cases hf : find? a l with
            | none => simp [parentProb, hf]
            | some y => simpa [parentProb, hf] using g1 _ (find?_mem hf)
          have hsum : ((env.actions nd.state).map (parentProb (some l))).sum ≤ 1 := le_trans (sum_parentProb_le (hnd _) g1) g2
          refine ⟨fun a _ => hnn a, g3, ?_, fun _ => hsum, fun a ha => le_trans (List.single_le_sum ?_ _ (List.mem_map_of_mem ha)) hsum, hnn⟩
          · intro h1 a ha
            cases hfa : find? a l with
            | none => simp [parentProb, hfa]
            | some y =>
              have hd1 : v.depth - 1 = 0 := by
                show nd.depth - 1 = 0
                omega
              exact absurd (g4 hd1 _ (find?_mem hfa)) ha
          intro x hx
          obtain ⟨b, _, rfl⟩ := List.mem_map.1 hx
          exact hnn b
    obtain ⟨M, hM, wt, s, g1, _, _, g4⟩ := rents_policy (cfg := cfg) (v := v) hQ hpd hpar.2.2.2.2.2 hane
    rw [ht] at hM g4
    refine ⟨parentProb parent, M, hpar.1, hpar.2.1, hpar.2.2.1, hpar.2.2.2.1, hpar.2.2.2.2.1, hM, ?_⟩
    unfold rentsBackupD at hxv
    rw [g1] at hxv
    simp only [Option.some.injEq] at hxv
    rw [← hxv, ht, mul_assoc, g4, hov]
    rfl

/-- A node's value is within `loss p` temperatures of the best of values that are within `ε` of those of its actions. -/
theorem rents_node (G : GoodCfg cfg env) (F : FloorOk cfg env B N p) (hnd : ∀ s, (env.actions s).Nodup) (hdec : cfg.decay = none) (hu : m.useTable = false) (htb : Leftover tb)
    (hr : Reachable env m (rents eps cfg lr) k s0 0 tm tb st h) (hq : Quiescent st) (hN : trialsBegun h ≤ N) {d : Nat} {nd : DNode S A ℝ Soft}
    (hd : st.dn[d]? = some nd) (hne : env.actions nd.state ≠ []) (hlen : Real.log (env.actions nd.state).length ≤ loss p) {g : A → ℝ} {ε : ℝ}
    (hk : ∀ a ∈ env.actions nd.state, ∃ c nc, find? a nd.kids = some c ∧ st.cn[c]? = some nc ∧ |chanceSoft env m lr st h (valueD st) nc - g a| ≤ ε)
    (hlow : cfg.low * cfg.temp + ε ≤ sgn (isOpponent m nd.time) * bestOf (isOpponent m nd.time) ((env.actions nd.state).map g)) :
    |valueD st d - bestOf (isOpponent m nd.time) ((env.actions nd.state).map g)| ≤ ε + cfg.temp * loss p := by
  have hT : 0 < cfg.temp := by simpa [hdec] using G.temp
  have I := reach_inv (rents_valid eps cfg lr) htb hr
  obtain ⟨a0, ha0⟩ := List.exists_mem_of_ne_nil _ hne
  obtain ⟨c0, _, hf0, _⟩ := hk a0 ha0
  have hsink : env.isSink nd.state = false := by
    by_contra hs
    exact List.ne_nil_of_mem (find?_mem hf0) (rents_leafKids htb hr hd (by simp [isLeaf, hs]))
  obtain ⟨P, M, h1, hfl, _, h2, h3, ⟨m1, m2, m3⟩, h5⟩ := rents_value G (floorOn F) hnd hdec hu htb hr hq hN hd (List.ne_nil_of_mem (find?_mem hf0))
  let q : A → ℝ := fun a => (find? a nd.kids).elim 0 fun c => (softC id st c).getD 0
  have hqa : ∀ a ∈ env.actions nd.state, actionVal cfg m st nd a = sgn (isOpponent m nd.time) * q a ∧ |q a - g a| ≤ ε := by
    intro a ha
    obtain ⟨c, nc, f1, f2, f3⟩ := hk a ha
    obtain ⟨nc', g1, g2⟩ := rents_chance G hu htb hr hq (childC_of_mem I.tree hd (find?_mem f1))
    rw [f2] at g1
    obtain rfl := Option.some.inj g1
    have : (softC id st c).getD 0 = chanceSoft env m lr st h (valueD st) nc := by simp [softC, f2, g2]
    refine ⟨by simp [actionVal, q, f1], ?_⟩
    simp only [q, f1, Option.elim_some, this]
    exact f3
  have hclose := bestOf_close (opp := isOpponent m nd.time) (f := q) (g := g) (ε := ε) hne (fun a ha => (hqa a ha).2)
  obtain ⟨⟨b, hb, hbe⟩, hub⟩ := best_greatest (isOpponent m nd.time) q hne
  set B := bestOf (isOpponent m nd.time) ((env.actions nd.state).map q) with hB
  set B' := bestOf (isOpponent m nd.time) ((env.actions nd.state).map g) with hB'
  have hs1 : |sgn (isOpponent m nd.time)| = 1 := by unfold sgn; split <;> simp
  have hs2 : sgn (isOpponent m nd.time) * sgn (isOpponent m nd.time) = 1 := by unfold sgn; split <;> norm_num
  have hsc : |sgn (isOpponent m nd.time) * B - sgn (isOpponent m nd.time) * B'| ≤ ε := by
    rw [← mul_sub, abs_mul, hs1, one_mul]
    exact hclose
  have hTM : cfg.temp * M = sgn (isOpponent m nd.time) * B := by
    have hge : sgn (isOpponent m nd.time) * B ≤ cfg.temp * M := by
      rw [hbe, ← (hqa b hb).1]
      have := m2 b hb
      rw [div_le_iff₀ hT] at this
      linarith
    refine le_antisymm ?_ hge
    rcases m3 with m3 | ⟨a, ha, m3⟩
    · rw [m3]
      have := (abs_sub_le_iff.1 hsc).2
      linarith
    · rw [m3, (hqa a ha).1, mul_div_cancel₀ _ hT.ne']
      exact hub ⟨a, ha, rfl⟩
  have hlenpos : (1 : ℝ) ≤ (env.actions nd.state).length := by exact_mod_cast List.length_pos_of_ne_nil hne
  have hMa : ∃ a ∈ env.actions nd.state, M = actionVal cfg m st nd a / cfg.temp := by
    refine ⟨b, hb, ?_⟩
    rw [(hqa b hb).1, ← hbe, ← hTM, mul_div_cancel_left₀ _ hT.ne']
  have lo := relValue_loss (P := P) (Q := actionVal cfg m st nd) (M := M) (acts := env.actions nd.state) hT (floor_nonneg (floorOn F)) (floor_le_one G (floorOn F))
    (fun a ha => hfl a ⟨_, hsink, ha⟩) hMa
  have hi := relValue_upper (c := (env.actions nd.state).length) hT h1 m2 hlenpos (by
    have := List.sum_le_card_nsmul ((env.actions nd.state).map P) 1 (by
      intro x hx
      obtain ⟨b, hb, rfl⟩ := List.mem_map.1 hx
      exact h3 b hb)
    simpa using this)
  have hll := mul_le_mul_of_nonneg_left hlen hT.le
  set R := relValue cfg.temp P (actionVal cfg m st nd) M (env.actions nd.state) with hR
  have hmain : |R - sgn (isOpponent m nd.time) * B| ≤ cfg.temp * loss p := by
    rw [← hTM, abs_sub_le_iff]
    constructor <;> linarith
  have e1 : |valueD st d - B| ≤ cfg.temp * loss p := by
    have : valueD st d - B = sgn (isOpponent m nd.time) * (R - sgn (isOpponent m nd.time) * B) := by
      rw [h5, mul_sub, ← mul_assoc, hs2, one_mul]
    rw [this, abs_mul, hs1, one_mul]
    exact hmain
  have e2 := abs_sub_le (valueD st d) B B'
  linarith

/-- The value of a chance node of a deterministic environment. -/
theorem rents_below (hdet : ∀ s a, a ∈ env.actions s → env.succ s a = [next s a])
    (hlr : ∀ s a, a ∈ env.actions s → lr s a = env.reward s a (next s a)) (hne : ∀ s, env.isSink s = false → env.actions s ≠ [])
    (htb : Leftover tb) (hr : Reachable env m (rents eps cfg lr) k s0 dp tm tb st h) (hq : Quiescent st) (hx : Exhausted env m st)
    {n : Nat} {ε : ℝ} {below : Nat → ℝ} {tgt : Int → S → ℝ} (ih : ∀ (d : Nat) nd, st.dn[d]? = some nd → (m.maxDepth - nd.depth).toNat = n →
      |below d - tgt nd.time nd.state| ≤ ε)
    {d c : Nat} {a : A} {nd : DNode S A ℝ Soft} {nc : CNode S A ℝ Soft} (hd : st.dn[d]? = some nd) (hc : childC st d a = some c)
    (hnc : st.cn[c]? = some nc) (hn : (m.maxDepth - nd.depth).toNat = n + 1) :
    |chanceSoft env m lr st h below nc -
      (env.reward nd.state a (next nd.state a) + tgt (nd.time + 1) (next nd.state a))| ≤ ε := by
  have hv := rents_valid eps cfg lr
  obtain ⟨nd2, nc2, d', nd', k1, k2, k3, k4, k5, k6, k7, k8, k9, k10⟩ := det_kid hdet hv htb hr hq hc
  rw [hd] at k1
  obtain rfl := Option.some.inj k1
  rw [hnc] at k2
  obtain rfl := Option.some.inj k2
  rw [chanceSoft, k6, k3, k4, hlr _ _ k5]
  simp only [List.map_cons, List.map_nil]
  rw [wmean_single _ _ (softWeight_pos hne hv htb hr hq hx hc hnc k6), add_sub_add_left_eq_sub]
  have := ih d' nd' k7 (by omega)
  rw [k8, k10] at this
  exact this

theorem sgn_ge {b : Bool} {x V : ℝ} (h : |x| ≤ V) : -V ≤ sgn b * x := by
  obtain ⟨h1, h2⟩ := abs_le.1 h
  unfold sgn
  split <;> linarith

/-- The values of an exhausted RENTS tree are close to the value of the game. -/
theorem rents_game (hdet : ∀ s a, a ∈ env.actions s → env.succ s a = [next s a])
    (hlr : ∀ s a, a ∈ env.actions s → lr s a = env.reward s a (next s a)) (hne : ∀ s, env.isSink s = false → env.actions s ≠ [])
    (G : GoodCfg cfg env) (F : FloorOk cfg env B N p) (hnd : ∀ s, (env.actions s).Nodup) (hlen : ∀ s, Real.log (env.actions s).length ≤ loss p)
    (hdec : cfg.decay = none) (hu : m.useTable = false) (htb : Leftover tb)
    {V : ℝ} (hV : ∀ n t s, n ≤ remaining m 0 → |gameValue env m next n t s| ≤ V) (hlow : cfg.low * cfg.temp + remaining m 0 * (cfg.temp * loss p) ≤ -V)
    (hr : Reachable env m (rents eps cfg lr) k s0 0 tm tb st h) (hq : Quiescent st) (hN : trialsBegun h ≤ N) (hx : Exhausted env m st) :
    ∀ (n d : Nat) nd, st.dn[d]? = some nd → (m.maxDepth - nd.depth).toNat = n →
      |valueD st d - gameValue env m next n nd.time nd.state| ≤ n * (cfg.temp * loss p) := by
  have I := reach_inv (rents_valid eps cfg lr) htb hr
  have hT : 0 < cfg.temp := by simpa [hdec] using G.temp
  have hE : 0 ≤ cfg.temp * loss p := mul_nonneg hT.le (loss_nonneg (floor_nonneg (floorOn F)) (floor_le_one G (floorOn F)))
  have hheur : ∀ (d : Nat) nd, st.dn[d]? = some nd → nd.heur = heurOf env m nd.state := by
    intro d nd hd
    exact I.tree.heap.dHeur d nd.skel (by simp [hd])
  have hdepth : ∀ (d : Nat) nd, st.dn[d]? = some nd → 0 ≤ nd.depth := by
    intro d nd hd
    have := (I.tree.heap.dTime d nd.skel (by simp [hd])).2
    simp only [DNode.skel] at this
    omega
  intro n
  induction n with
  | zero =>
    intro d nd hd hn
    have hl : isLeaf env m nd = true := by
      simp [isLeaf]
      right
      omega
    rw [rents_nokids G htb hr hd (rents_leafKids htb hr hd hl), hheur d nd hd]
    simp [gameValue]
  | succ n ih =>
    intro d nd hd hn
    by_cases hs : env.isSink nd.state = true
    · rw [rents_nokids G htb hr hd (rents_leafKids htb hr hd (by simp [isLeaf, hs])), hheur d nd hd, heurOf_sink hs]
      simp only [gameValue, hs, if_true, sub_zero, abs_zero]
      positivity
    · have hs' : env.isSink nd.state = false := by simpa using hs
      have hl : isLeaf env m nd = false := by
        simp [isLeaf, hs']
        omega
      have hg : gameValue env m next (n + 1) nd.time nd.state = bestOf (isOpponent m nd.time) ((env.actions nd.state).map fun a =>
          env.reward nd.state a (next nd.state a) + gameValue env m next n (nd.time + 1) (next nd.state a)) := by
        simp only [gameValue, hs', Bool.false_eq_true, if_false]
      have hrem : n + 1 ≤ remaining m 0 := by
        have := hdepth d nd hd
        unfold remaining
        omega
      have hlow' : cfg.low * cfg.temp + n * (cfg.temp * loss p) ≤
          sgn (isOpponent m nd.time) * gameValue env m next (n + 1) nd.time nd.state := by
        have h1 := sgn_ge (b := isOpponent m nd.time) (hV (n + 1) nd.time nd.state hrem)
        have h2 : (n : ℝ) * (cfg.temp * loss p) ≤ remaining m 0 * (cfg.temp * loss p) :=
          mul_le_mul_of_nonneg_right (by exact_mod_cast (by omega : n ≤ remaining m 0)) hE
        linarith
      rw [hg] at hlow' ⊢
      have := rents_node G F hnd hdec hu htb hr hq hN hd (hne _ hs') (hlen _)
        (g := fun a => env.reward nd.state a (next nd.state a) + gameValue env m next n (nd.time + 1) (next nd.state a))
        (ε := n * (cfg.temp * loss p)) (by
          intro a ha
          obtain ⟨c, hc⟩ := hx d nd hd hl a ha
          obtain ⟨_, nc, _, g2, _⟩ := childC_facts I.tree hc
          exact ⟨c, nc, by simpa [childC, hd] using hc, g2, rents_below (tgt := gameValue env m next n) hdet hlr hne htb hr hq hx ih hd hc g2 hn⟩) hlow'
      push_cast
      linarith

variable {obs : S → A → List (S × ℝ)} {po V η : ℝ} {K M : Nat}

/-- The values of a well sampled RENTS tree are close to the expected value under optimal play. -/
theorem rents_close (hl : env.Live) (G : GoodCfg cfg env) (F : FloorOk cfg env B N p) (hnd : ∀ s, (env.actions s).Nodup)
    (hlen : ∀ s, Real.log (env.actions s).length ≤ loss p) (hdec : cfg.decay = none) (hu : m.useTable = false) (htb : Leftover tb)
    (hobs : Transitions env obs po) (hlr : ∀ s a, env.isSink s = false → a ∈ env.actions s → lr s a = Eval.mean1 (obs s a) fun o => env.reward s a o)
    (hV0 : 0 ≤ V) (hV : ∀ n t s, n ≤ (m.maxDepth - 0).toNat → |expValue env m obs n t s| ≤ V) (hη : 0 ≤ η)
    (hK0 : 0 < K) (hK : ∀ s a, (env.succ s a).length ≤ K) (hM : 2 * K ≤ M)
    (hlow : cfg.low * cfg.temp + remaining m 0 * (cfg.temp * loss p + sampleError V η K M) ≤ -V)
    (hr : Reachable env m (rents eps cfg lr) k s0 0 tm tb st h) (hq : Quiescent st) (hN : trialsBegun h ≤ N)
    (W : Sampled env m obs s0 0 M η st h) :
    ∀ (n d : Nat) nd, st.dn[d]? = some nd → (m.maxDepth - nd.depth).toNat = n →
      |valueD st d - expValue env m obs n nd.time nd.state| ≤ n * (cfg.temp * loss p + sampleError V η K M) := by
  have hv := rents_valid eps cfg lr
  have I := reach_inv hv htb hr
  have hse : 0 ≤ sampleError V η K M := by unfold sampleError; positivity
  have hT : 0 < cfg.temp := by simpa [hdec] using G.temp
  have hE : 0 ≤ cfg.temp * loss p := mul_nonneg hT.le (loss_nonneg (floor_nonneg (floorOn F)) (floor_le_one G (floorOn F)))
  have hheur : ∀ (d : Nat) nd, st.dn[d]? = some nd → nd.heur = heurOf env m nd.state := by
    intro d nd hd
    exact I.tree.heap.dHeur d nd.skel (by simp [hd])
  have hdepth : ∀ (d : Nat) nd, st.dn[d]? = some nd → 0 ≤ nd.depth := by
    intro d nd hd
    have := (I.tree.heap.dTime d nd.skel (by simp [hd])).2
    simp only [DNode.skel] at this
    omega
  intro n
  induction n with
  | zero =>
    intro d nd hd hn
    have hl : isLeaf env m nd = true := by
      simp [isLeaf]
      right
      omega
    rw [rents_nokids G htb hr hd (rents_leafKids htb hr hd hl), hheur d nd hd]
    simp [expValue]
  | succ n ih =>
    intro d nd hd hn
    by_cases hs : env.isSink nd.state = true
    · rw [rents_nokids G htb hr hd (rents_leafKids htb hr hd (by simp [isLeaf, hs])), hheur d nd hd, heurOf_sink hs]
      simp only [expValue, hs, if_true, sub_zero, abs_zero]
      positivity
    · have hs' : env.isSink nd.state = false := by simpa using hs
      have hleaf : isLeaf env m nd = false := by
        simp [isLeaf, hs']
        omega
      have hg : expValue env m obs (n + 1) nd.time nd.state = bestOf (isOpponent m nd.time) ((env.actions nd.state).map fun a =>
          actionValue env m obs n nd.time nd.state a) := by
        simp only [expValue, hs', Bool.false_eq_true, if_false]
        rfl
      have hrem : n + 1 ≤ (m.maxDepth - 0).toNat := by
        have := hdepth d nd hd
        omega
      have hlow' : cfg.low * cfg.temp + (n * (cfg.temp * loss p + sampleError V η K M) + sampleError V η K M) ≤
          sgn (isOpponent m nd.time) * expValue env m obs (n + 1) nd.time nd.state := by
        have h1 := sgn_ge (b := isOpponent m nd.time) (hV (n + 1) nd.time nd.state hrem)
        have h3 : ((n + 1 : ℕ) : ℝ) ≤ remaining m 0 := by exact_mod_cast hrem
        have h2 := mul_le_mul_of_nonneg_right h3 (add_nonneg hE hse)
        push_cast at h2
        linarith
      rw [hg] at hlow' ⊢
      have := rents_node G F hnd hdec hu htb hr hq hN hd (hl.acts _ hs') (hlen _)
        (g := fun a => actionValue env m obs n nd.time nd.state a)
        (ε := n * (cfg.temp * loss p + sampleError V η K M) + sampleError V η K M) (by
          intro a ha
          obtain ⟨c, h2, _⟩ := c77_complete hl hv htb hr W.explored hd hleaf ha
          obtain ⟨_, nc, _, g2, _⟩ := childC_facts I.tree h2
          exact ⟨c, nc, by simpa [childC, hd] using h2, g2,
            (chance_close hl hv htb hu hr hobs hlr hV0 hV hη hK0 hK hM W (w := softWeight env m st h)
              (fun c o d' hcd => (weights_close hv htb hu hr hq hcd).2) ih hd h2 g2 hn hs').2⟩) hlow'
      push_cast
      linarith

/-- The action recommended by value, given what the values of the actions are near. -/
theorem rents_recommends (htb : Leftover tb) (hr : Reachable env m (rents eps cfg lr) k s0 dp tm tb st h) (hq : Quiescent st)
    {d : Nat} {nd : DNode S A ℝ Soft} (hd : st.dn[d]? = some nd) (hne : env.actions nd.state ≠ []) (hth : cfg.threshold ≤ 1) {g : A → ℝ} {ε : ℝ}
    (hk : ∀ a ∈ env.actions nd.state, ∃ c v, childC st d a = some c ∧ softC id st c = some v ∧ |v - g a| ≤ ε)
    (hlow : ∀ a ∈ env.actions nd.state, cfg.low + ε ≤ sgn (isOpponent m nd.time) * g a)
    (raw : Nat) {iter : List (A × ℝ) → List (A × ℝ)} (hi : Uct.IterOk iter) :
    ∃ a ∈ env.actions nd.state, recommendSoft cfg (mentsQ cfg id (viewOf env m st nd)) (viewOf env m st nd) raw iter = .ok (some a) ∧
      ∀ b ∈ env.actions nd.state, sgn (isOpponent m nd.time) * g b ≤ sgn (isOpponent m nd.time) * g a + 2 * ε := by
  have hv := rents_valid eps cfg lr
  obtain ⟨I, C⟩ := reach_both hv htb hr
  obtain ⟨Bk, _⟩ := reach_bk hr
  let Q : A → ℝ := fun a => sgn (isOpponent m nd.time) * ((childC st d a).elim 0 fun c => (softC id st c).getD 0)
  have hfk : ∀ a, find? a (kidsY st nd) = (find? a nd.kids).bind fun c => (st.cn[c]?).map fun nc => (nc.visits, nc.y) := by
    intro a
    refine find?_kidsY a ?_
    intro p hp
    obtain ⟨_, nc, _, f2, _⟩ := childC_facts I.tree (childC_of_mem I.tree hd (show (p.1, p.2) ∈ nd.kids from hp))
    exact ⟨nc, f2⟩
  have hkv : (viewOf env m st nd).kids = kidsY st nd := rfl
  have hov : (viewOf env m st nd).opp = isOpponent m nd.time := rfl
  have hav : (viewOf env m st nd).actions = env.actions nd.state := rfl
  have key : ∀ a ∈ env.actions nd.state, ∃ c nc v, find? a nd.kids = some c ∧ st.cn[c]? = some nc ∧ nc.y.val = some v ∧
      Q a = sgn (isOpponent m nd.time) * v ∧ |v - g a| ≤ ε ∧ 1 ≤ nc.visits := by
    intro a ha
    obtain ⟨c, v, hc, h1, h2⟩ := hk a ha
    obtain ⟨nd1, nc, f1, f2, _⟩ := childC_facts I.tree hc
    rw [hd] at f1
    obtain rfl := Option.some.inj f1
    have hfind : find? a nd.kids = some c := by simpa [childC, hd] using hc
    refine ⟨c, nc, v, hfind, f2, ?_, ?_, h2, ?_⟩
    · simpa [softC, f2] using h1
    · simp only [Q, hc, Option.elim_some, h1, Option.getD_some]
    · have := (c39_children_backed hv htb hr hq hc).2
      have h3 := Bk.c c
      have h4 := List.length_pos_iff.2 this
      have h5 := C.v2 c nc f2
      omega
  have hQ : QIs (mentsQ cfg id (viewOf env m st nd)) (viewOf env m st nd) Q := by
    intro a ha
    rw [hav] at ha
    obtain ⟨c, nc, v, k1, k2, k3, k4, _⟩ := key a ha
    unfold mentsQ
    rw [hkv, hfk, k1]
    simp only [Option.bind_some, k2, Option.map_some, id, k3, hov, k4]
    congr 1
    unfold Backups.oppCoeff sgn
    split <;> ring
  have hs : ∀ a ∈ env.actions nd.state, |Q a - sgn (isOpponent m nd.time) * g a| ≤ ε := by
    intro a ha
    obtain ⟨c, nc, v, k1, k2, k3, k4, k5, _⟩ := key a ha
    rw [k4, ← mul_sub, abs_mul]
    have : |sgn (isOpponent m nd.time)| = 1 := by unfold sgn; split <;> simp
    rw [this, one_mul]
    exact k5
  obtain ⟨a, ha, h1, h2, h3⟩ := c37_best_soft_value hQ hne (by
    intro a ha
    have h1 := hlow a ha
    have h2 := (abs_sub_le_iff.1 (hs a ha)).2
    linarith) raw hi
  refine ⟨a, ha, h1, ?_⟩
  intro b hb
  have hmeets : ∀ b ∈ env.actions nd.state, Meets cfg (viewOf env m st nd) b := by
    intro b hb
    obtain ⟨c, nc, v, k1, k2, k3, k4, _, k6⟩ := key b hb
    refine ⟨nc.visits, nc.y, ?_, by omega⟩
    rw [hkv, hfk, k1]
    simp [k2]
  have hle := (h2 ⟨a, ha, hmeets a ha⟩).2 b hb (hmeets b hb)
  have e1 := (abs_sub_le_iff.1 (hs b hb)).2
  have e2 := (abs_sub_le_iff.1 (hs a ha)).1
  linarith

end

end Verif.Tents
