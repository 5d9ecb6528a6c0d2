import Verif.Proofs.Sparsemax
import Verif.Proofs.Dents

/-! # TENTS and RENTS in the search -/

set_option linter.unusedSectionVars false
set_option linter.unusedSimpArgs false

namespace Verif.Tents

open Verif.Search Verif.Sampling Verif.Spec Verif.Backups Verif.Ments Verif.Dents

variable {S A X Y : Type} [DecidableEq S] [DecidableEq A] {cfg : Cfg S A} {v : View S A X Y} {q : A → Except Bad ℝ} {Q : A → ℝ}

theorem foldl_add_eq (l : List (A × ℝ)) (f : A × ℝ → ℝ) : ∀ s : ℝ, l.foldl (fun s p => s + f p) s = s + (l.map f).sum := by
  induction l with
  | nil => intro s; simp
  | cons p l ih => intro s; simp [ih, add_assoc]

/-! ## Weights -/

theorem orUniform_keys (acts : List A) (ws : List (A × ℝ)) (s : ℝ) (h : ws.map Prod.fst = acts) : (orUniform acts ws s).1.map Prod.fst = acts := by
  unfold orUniform
  split
  · simp [List.map_map, Function.comp_def]
  · exact h

theorem tentsWeights_keys {bv : List (ℝ × A)} {ws : List (A × ℝ)} {s : ℝ} (h : tentsWeights cfg q v bv = .ok (ws, s)) :
    ws.map Prod.fst = v.actions := by
  unfold tentsWeights at h
  split at h
  · next sq qs h1 h2 =>
    split at h
    · simp at h
    · simp only [Except.ok.injEq] at h
      have := qList_keys h2
      have hw : ws = _ := (congrArg Prod.fst h).symm
      rw [hw]
      refine orUniform_keys _ _ _ ?_
      rw [List.map_map, ← this]
      rfl
  · simp at h
  · simp at h

/-- The TENTS weights are the values cut off at the threshold of the sparse set. -/
theorem tentsWeights_eq (hq : QIs q v Q) {bv : List (ℝ × A)} {rest : List A} (hp : (sparseSet bv ++ rest).Perm v.actions)
    (hK : sparseSet bv ≠ []) :
    tentsWeights cfg q v bv = .ok (v.actions.map (fun a => (a, above (fun b => Q b / getTemp cfg v)
        ((((sparseSet bv).map fun b => Q b / getTemp cfg v).sum - 1) / (sparseSet bv).length) a)),
      (v.actions.map (above (fun b => Q b / getTemp cfg v)
        ((((sparseSet bv).map fun b => Q b / getTemp cfg v).sum - 1) / (sparseSet bv).length))).sum) := by
  have hsub : ∀ a ∈ sparseSet bv, q a = .ok (Q a) := fun a ha => hq a (hp.mem_iff.1 (by simp [ha]))
  unfold tentsWeights
  rw [qList_eq hsub, qList_eq hq]
  dsimp only
  rw [if_neg (by simp [hK])]
  rw [foldl_add_eq _ (fun p => p.2 / getTemp cfg v), foldl_add_eq _ (fun p => p.2)]
  simp only [List.map_map, Function.comp_def, zero_add, List.length_map]
  unfold orUniform
  rw [if_neg]
  · rfl
  · have := above_sum_ge hp hK (fun b => Q b / getTemp cfg v)
    have e : EPS ≤ 1 := by unfold EPS; norm_num
    intro hlt
    have h2 := lt_of_le_of_lt this (show _ < EPS from hlt)
    linarith

theorem tents_valid (eps : ℝ) (cfg : Cfg S A) (env : Env S A ℝ) (m : Manager S ℝ) (lr : S → A → ℝ) : (tents eps cfg env m lr).Valid := by
  intro v ctx a h
  have h : selectableW eps cfg v (tentsWeights cfg (mentsQ cfg id v) v (byValOf v.x)) a = true := h
  unfold selectableW at h
  rw [@decide_eq_true_eq _ (Classical.propDecidable _)] at h
  obtain ⟨u, iter, _, _, hi, h⟩ := h
  obtain ⟨w, s, h1, h2⟩ := selectActionW_mem hi h
  rw [tentsWeights_keys h1] at h2
  exact h2

/-! ## The value -/

theorem atAll_eq {V : Type} [LinearOrder V] {acts : List A} {z : A → V} {bv : List (V × A)} {ba : List (A × V)} (H : MapsHold acts z bv ba) (hnd : acts.Nodup)
    (K : List A) (hK : ∀ a ∈ K, a ∈ acts) : atAll ba K = .ok (K.map z) := by
  induction K with
  | nil => rfl
  | cons a K ih =>
    unfold atAll
    rw [H.find hnd (hK a (by simp)), ih fun b hb => hK b (by simp [hb])]
    rfl

/-- `½ (1 + ∑ (z² - τ²))` over the sparse set, with the threshold `τ`. -/
theorem spmax_eq {acts : List A} {z : A → ℝ} {t : TX A} (H : MapsHold acts z t.byVal t.byAct) (hnd : acts.Nodup) (hne : acts ≠ []) :
    ∃ τ, spmax t = .ok (1 / 2 + ((sparseSet t.byVal).map fun a => z a ^ 2 / 2 - τ ^ 2 / 2).sum) ∧
      τ = (((sparseSet t.byVal).map z).sum - 1) / (sparseSet t.byVal).length := by
  obtain ⟨hK, rest, hp, _⟩ := sparseSet_spec H hne
  refine ⟨_, ?_, rfl⟩
  have hat := atAll_eq H hnd (sparseSet t.byVal) fun a ha => hp.mem_iff.1 (by simp [ha])
  unfold spmax
  rw [hat]
  dsimp only
  have f1 : ∀ (l : List ℝ) (s : ℝ), l.foldl (· + ·) s = s + l.sum := by
    intro l
    induction l with
    | nil => intro s; simp
    | cons x l ih => intro s; simp [ih, add_assoc]
  have f2 : ∀ (c : ℝ) (l : List ℝ) (s : ℝ), l.foldl (fun s x => s + (x ^ 2 / 2 - c)) s = s + (l.map fun x => x ^ 2 / 2 - c).sum := by
    intro c l
    induction l with
    | nil => intro s; simp
    | cons x l ih => intro s; simp [ih, add_assoc]
  rw [f1, f2, List.map_map, List.length_map]
  congr 2
  · norm_num
  · refine sum_congr fun a _ => ?_
    simp only [Function.comp]
    rw [div_pow]
    ring

/-- The value of the search policy's objective at the sparsemax distribution. -/
theorem spmax_attained {acts K rest : List A} (hp : (K ++ rest).Perm acts) (hK : K ≠ []) {z : A → ℝ} {τ : ℝ}
    (hτ : τ = ((K.map z).sum - 1) / K.length) (h1 : ∀ a ∈ K, τ < z a) (h2 : ∀ a ∈ rest, z a ≤ τ) :
    (acts.map fun a => above z τ a * z a).sum + 1 / 2 * (1 - (acts.map fun a => above z τ a ^ 2).sum) =
      1 / 2 + (K.map fun a => z a ^ 2 / 2 - τ ^ 2 / 2).sum := by
  have split : ∀ f : A → ℝ, (∀ a ∈ rest, f a = 0) → (acts.map f).sum = (K.map f).sum := by
    intro f hf
    rw [← (hp.map _).sum_eq, List.map_append, List.sum_append, sum_congr (l := rest) (g := fun _ => 0) hf]
    simp
  have z0 : ∀ a ∈ rest, above z τ a = 0 := by
    intro a ha
    have := h2 a ha
    unfold above
    split <;> linarith
  rw [split _ (fun a ha => by rw [z0 a ha]; ring), split _ (fun a ha => by rw [z0 a ha]; ring)]
  have e : (K.map fun a => z a ^ 2 / 2 - τ ^ 2 / 2).sum =
      (K.map fun a => above z τ a * z a + (-1 / 2) * above z τ a ^ 2).sum := by
    refine sum_congr fun a ha => ?_
    have := h1 a ha
    unfold above
    rw [if_neg (by linarith)]
    ring
  rw [e, sum_map_add, sum_map_mul]
  ring

/-! ## Invariants -/

/-- A TENTS decision node is sound: its value is a number and its maps hold one value per action. -/
def TentsOk (acts : List A) (x : Except TErr (TX A)) : Prop :=
  ∃ t z, x = .ok t ∧ (∃ r, t.soft.val = some r) ∧ MapsHold acts z t.byVal t.byAct

/-- What `TentsDNode::backup` relies on: the context has an action of the node. -/
def HasAction (v : View S A X Y) (ctx : Ctx A ℝ) : Prop := ∃ a ∈ v.actions, find? v.depth ctx.acts = some a

theorem tentsBackupD_spec {v : View S A (Except TErr (TX A)) Soft} {ctx : Ctx A ℝ} {t : TX A} {z : A → ℝ} {a : A} (hx : v.x = .ok t)
    (H : MapsHold v.actions z t.byVal t.byAct) (hnd : v.actions.Nodup) (ha : a ∈ v.actions) (hf : find? v.depth ctx.acts = some a)
    {x : ℝ} (hq : mentsQ cfg id v a = .ok x) :
    ∃ t' s, tentsBackupD cfg v ctx = .ok t' ∧ MapsHold v.actions (Function.update z a (x / getTemp cfg v)) t'.byVal t'.byAct ∧
      spmax { t' with soft := t.soft } = .ok s ∧ t'.soft = { n := t.soft.n + 1, val := some (oppCoeff v.opp * getTemp cfg v * s) } := by
  obtain ⟨t', h1, h2, h3⟩ := updateMaps_hold H hnd ha (x / getTemp cfg v)
  obtain ⟨τ, h4, _⟩ := spmax_eq h3 hnd (List.ne_nil_of_mem ha)
  unfold tentsBackupD
  rw [hx]
  dsimp only
  rw [hf]
  dsimp only
  rw [hq]
  dsimp only
  rw [h1]
  dsimp only
  rw [h4]
  refine ⟨_, _, rfl, h3, ?_, rfl⟩
  rw [← h4]
  rfl

theorem tents_local {env : Env S A ℝ} (m : Manager S ℝ) (eps : ℝ) (hp : PriorTotal cfg env) (hnd : ∀ s, (env.actions s).Nodup) (lr : S → A → ℝ) :
    LocalInvG env m (tents eps cfg env m lr) (fun _ => True) (fun _ => True) HasAction
      (fun s _ _ x => TentsOk (env.actions s) x) (fun _ _ _ _ y => ∃ r, y.val = some r) where
  initD s d t := by
    show TentsOk _ (tentsInitD cfg env m s d t _)
    unfold tentsInitD
    set v : View S A Unit Soft := newView env m s d t () with hv
    obtain ⟨Q, hQ⟩ := mentsQ_total hp (v := v) rfl id (by simp [v, newView])
    have hacts : v.actions = env.actions s := rfl
    dsimp only
    rw [qList_eq hQ]
    dsimp only
    refine ⟨_, fun a => Q a / getTemp cfg v, rfl, ⟨_, rfl⟩, ?_⟩
    have := fillMaps_hold (fun a => Q a / getTemp cfg v) v.actions [] ([], []) (by simpa [hacts] using hnd s)
      ⟨by simp, by simp, by simp⟩
    rw [List.nil_append] at this
    rw [List.map_map]
    exact this
  initC s a d t _ := ⟨_, rfl⟩
  visitD b s d t x h := by
    obtain ⟨T, z, rfl, ⟨r, h1⟩, h2⟩ := h
    refine ⟨{ T with soft := softVisit b T.soft }, z, rfl, ⟨r, ?_⟩, h2⟩
    dsimp only
    unfold softVisit
    split <;> exact h1
  visitC s a d t y h := h
  backupD v ctx args h1 h2 h3 h4 h5 _ _ hX h6 h7 := by
    obtain ⟨a, ha, hf⟩ := hX
    obtain ⟨T, z, hx, _, H⟩ := h6
    obtain ⟨Q, hQ⟩ := mentsQ_total hp h1 id h7
    rw [← h1] at H
    obtain ⟨t', s, g1, g2, _, g3⟩ := tentsBackupD_spec (cfg := cfg) hx H (by rw [h1]; exact hnd _) ha hf (hQ a ha)
    rw [h1] at g2
    exact ⟨t', _, g1, ⟨_, by rw [g3]⟩, g2⟩
  backupC s a d t y kids args _ _ h1 h2 := by
    obtain ⟨l, hl⟩ := finiteSoft_spec (kids.map fun k => softOfX k.2) (by
      intro y hy
      obtain ⟨k, hk, rfl⟩ := List.mem_map.1 hy
      obtain ⟨T, z, hx, hv, _⟩ := (h2 k hk).2
      rw [hx]
      exact hv)
    refine ⟨meanLoop l 0 0 + lr s a, ?_⟩
    show (softBackupC (lr s a) (kids.map fun k => softOfX k.2) y).val = _
    simp [softBackupC, hl]

theorem find?_put_self {V : Type} (k : Int) (x : V) (l : List (Int × V)) : find? k (put k x l) = some x := by
  unfold put
  rw [find?_append]
  have : find? k (l.filter fun p => p.1 ≠ k) = none := by
    rw [find?_eq_none]
    intro h
    obtain ⟨p, hp, rfl⟩ := List.mem_map.1 h
    simpa using (List.mem_filter.1 hp).2
  rw [this]
  simp

theorem find?_put_ne {V : Type} {k k' : Int} (h : k' ≠ k) (x : V) (l : List (Int × V)) : find? k' (put k x l) = find? k' l := by
  unfold put
  rw [find?_append]
  have : find? k' (l.filter fun p => p.1 ≠ k) = find? k' l := by
    induction l with
    | nil => rfl
    | cons p l ih =>
      obtain ⟨j, y⟩ := p
      rw [List.filter_cons]
      by_cases hj : j = k
      · subst hj
        simp only [ne_eq, not_true_eq_false, decide_false, Bool.false_eq_true, if_false]
        rw [ih]
        simp [find?, Ne.symm h]
      · simp only [ne_eq, hj, not_false_eq_true, decide_true, if_true]
        unfold find?
        rw [ih]
  rw [this]
  cases find? k' l with
  | none => simp [Ne.symm h]
  | some y => rfl

theorem tents_keeps (eps : ℝ) (cfg : Cfg S A) (env : Env S A ℝ) (m : Manager S ℝ) (lr : S → A → ℝ) :
    CtxKeeps (tents eps cfg env m lr) (fun ctx k => find? k ctx.acts) (fun _ _ a => a) where
  hit v ctx a _ := find?_put_self _ _ _
  miss v ctx a k _ hk := find?_put_ne hk _ _

section
variable {env : Env S A ℝ} {m : Manager S ℝ} {eps : ℝ} {lr : S → A → ℝ} {k : Nat} {s0 : S} {dp tm : Int}
  {tb : List ((Int × S) × Option Nat)} {st : St S A ℝ (Except TErr (TX A)) Soft} {h : List (Event S A ℝ)}

/-- A TENTS node that is about to be backed up finds the action its trial selected there. -/
theorem tents_hasAction (htb : Leftover tb) (hr : Reachable env m (tents eps cfg env m lr) k s0 dp tm tb st h) {w d : Nat}
    {nodes : List (Nat × Nat)} {before after : List ℝ} {ret tot : ℝ} (hw : st.ws[w]? = some (.backD d nodes before after ret tot))
    {nd : DNode S A ℝ (Except TErr (TX A))} (hd : st.dn[d]? = some nd) :
    ∃ a c, childC st d a = some c ∧ a ∈ env.actions nd.state ∧ find? nd.depth (st.ctxOf w).acts = some a ∧
      ∃ h1 h0, h = h1 ++ .selected w d a c :: h0 ∧ .began w ∉ h1 := by
  obtain ⟨I, H⟩ := reach_ctx (tents_valid eps cfg env m lr) (tents_keeps eps cfg env m lr) htb hr
  obtain ⟨a, c, x, h1, h2, h3⟩ := ctx_backD I H hw hd
  obtain ⟨e1, e0, g1, g2, st0, nd0, _, _, rfl⟩ := h3
  obtain ⟨nd', nc, f1, _, _, _, _, _, _, f2⟩ := childC_facts I.tree h1
  rw [hd] at f1
  obtain rfl := Option.some.inj f1
  exact ⟨_, c, h1, f2, h2, e1, e0, g1, g2⟩

/-- All TENTS nodes are sound in every reachable state. -/
theorem tents_reach (hp : PriorTotal cfg env) (hnd : ∀ s, (env.actions s).Nodup) (htb : Leftover tb)
    (hr : Reachable env m (tents eps cfg env m lr) k s0 dp tm tb st h) :
    (∀ (d : Nat) nd, st.dn[d]? = some nd → TentsOk (env.actions nd.state) nd.x) ∧
    (∀ (c : Nat) nc, st.cn[c]? = some nc → ∃ r, nc.y.val = some r) := by
  obtain ⟨_, L⟩ := local_reach_given (tents_local m eps hp hnd lr) (tents_valid eps cfg env m lr) htb
    (fun st h hr => ⟨fun _ _ _ => trivial, fun _ _ _ => trivial, fun w d nodes before after ret tot nd hw hd => by
      obtain ⟨a, c, _, g2, g3, _⟩ := tents_hasAction htb hr hw hd
      exact ⟨a, g2, g3⟩⟩) hr
  exact ⟨L.d, L.c⟩

end

end Verif.Tents
