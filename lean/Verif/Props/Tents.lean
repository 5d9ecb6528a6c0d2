import Verif.Proofs.TentsStored
import Mathlib.Analysis.Complex.ExponentialBounds

/-!
# C43, C44, C58: TENTS
-/

set_option linter.unusedSectionVars false
set_option linter.unusedSimpArgs false

namespace Verif.Tents

open Verif.Search Verif.Sampling Verif.Spec Verif.Backups Verif.Ments Verif.Dents

variable {S A X Y : Type} [DecidableEq S] [DecidableEq A] {cfg : Cfg S A}

/-! ## C43 -/

/-- A sequence of updates of the maps. -/
noncomputable def updates : List (A × ℝ) → TX A → Except TErr (TX A)
  | [], t => .ok t
  | (a, q) :: l, t => match updateMaps a q t with
    | .ok t' => updates l t'
    | .error e => .error e

/-- The last value given to an action. -/
def lastValue (z : A → ℝ) (ups : List (A × ℝ)) (a : A) : ℝ := (find? a ups.reverse).getD (z a)

/-- C43.  Starting from consistent maps, no sequence of updates of valid actions throws, whatever the values (ties included); after
it the maps hold exactly one entry per action, the last value given to it, and the ordered map is in order. -/
theorem c43_updates_never_throw {acts : List A} (hnd : acts.Nodup) (ups : List (A × ℝ)) (hups : ∀ u ∈ ups, u.1 ∈ acts) :
    ∀ (z : A → ℝ) (t : TX A), MapsHold acts z t.byVal t.byAct →
      ∃ t', updates ups t = .ok t' ∧ t'.byAct.Perm (acts.map fun a => (a, lastValue z ups a)) ∧
        t'.byVal.Perm (acts.map fun a => (lastValue z ups a, a)) ∧ t'.byVal.Pairwise fun p q => p.1 ≤ q.1 := by
  induction ups with
  | nil =>
    intro z t H
    exact ⟨t, rfl, by simpa [lastValue, find?] using H.act, by simpa [lastValue, find?] using H.val, H.sorted⟩
  | cons u ups ih =>
    obtain ⟨a, q⟩ := u
    intro z t H
    obtain ⟨t1, h1, _, h2⟩ := updateMaps_hold H hnd (hups (a, q) (by simp)) q
    obtain ⟨t', h3, h4, h5, h6⟩ := ih (fun u hu => hups u (by simp [hu])) (Function.update z a q) t1 h2
    have e : lastValue z ((a, q) :: ups) = lastValue (Function.update z a q) ups := by
      funext b
      unfold lastValue
      rw [List.reverse_cons, find?_append]
      cases hf : find? b ups.reverse with
      | some x => simp
      | none =>
        by_cases hb : b = a
        · subst hb; simp
        · simp [Ne.symm hb, Function.update_of_ne hb]
    refine ⟨t', ?_, by rw [e]; exact h4, by rw [e]; exact h5, h6⟩
    unfold updates
    rw [h1]
    exact h3

/-- The constructor's maps are consistent: one entry per valid action. -/
example : ∃ t : TX Bool, MapsHold [false, true] (fun _ => 2) t.byVal t.byAct ∧
    ∃ t', updates [(true, 1), (true, 2), (false, 2)] t = .ok t' := by
  have H := fillMaps_hold (fun _ : Bool => (2 : ℝ)) [false, true] [] ([], []) (by simp) ⟨by simp, by simp, by simp⟩
  refine ⟨⟨softInitD 0, _, _⟩, H, ?_⟩
  obtain ⟨t', h, _⟩ := c43_updates_never_throw (by simp) [(true, 1), (true, 2), (false, 2)] (by simp) (fun _ => (2 : ℝ)) ⟨softInitD 0, _, _⟩ H
  exact ⟨t', h⟩

section
variable {env : Env S A ℝ} {m : Manager S ℝ} {eps : ℝ} {lr : S → A → ℝ} {k : Nat} {s0 : S} {dp tm : Int}
  {tb : List ((Int × S) × Option Nat)} {st : St S A ℝ (Except TErr (TX A)) Soft} {h : List (Event S A ℝ)}

/-- C43 for a whole search: in every reachable state, for any number of workers and any schedule, no TENTS node has thrown, both
maps describe the same pairs with exactly one entry per valid action, and the ordered map is in order. -/
theorem c43_maps_consistent (hp : PriorTotal cfg env) (hnd : ∀ s, (env.actions s).Nodup) (htb : Leftover tb)
    (hr : Reachable env m (tents eps cfg env m lr) k s0 dp tm tb st h) {d : Nat} {nd : DNode S A ℝ (Except TErr (TX A))}
    (hd : st.dn[d]? = some nd) :
    ∃ t, nd.x = .ok t ∧ (t.byAct.map Prod.fst).Perm (env.actions nd.state) ∧
      (t.byVal.map fun p => (p.2, p.1)).Perm t.byAct ∧ t.byVal.Pairwise fun p q => p.1 ≤ q.1 := by
  obtain ⟨t, z, h1, _, H⟩ := (tents_reach hp hnd htb hr).1 d nd hd
  refine ⟨t, h1, ?_, ?_, H.sorted⟩
  · refine (H.act.map Prod.fst).trans ?_
    simp [List.map_map, Function.comp_def]
  · refine (H.val.map fun p => (p.2, p.1)).trans ?_
    rw [List.map_map]
    exact H.act.symm

/-- C43.  When a TENTS node is backed up, the context holds the action the trial selected at that node. -/
theorem c43_backup_finds_action (htb : Leftover tb) (hr : Reachable env m (tents eps cfg env m lr) k s0 dp tm tb st h) {w d : Nat}
    {nodes : List (Nat × Nat)} {before after : List ℝ} {ret tot : ℝ} (hw : st.ws[w]? = some (.backD d nodes before after ret tot))
    {nd : DNode S A ℝ (Except TErr (TX A))} (hd : st.dn[d]? = some nd) :
    ∃ a c, find? nd.depth (st.ctxOf w).acts = some a ∧ childC st d a = some c ∧
      ∃ h1 h0, h = h1 ++ .selected w d a c :: h0 ∧ .began w ∉ h1 := by
  obtain ⟨a, c, h1, _, h2, h3⟩ := tents_hasAction htb hr hw hd
  exact ⟨a, c, h2, h1, h3⟩

end

/-! ## C44 -/

theorem sparseSet_sorted {acts : List A} {z : A → ℝ} {bv : List (ℝ × A)} {ba : List (A × ℝ)} (H : MapsHold acts z bv ba) :
    (sparseSet bv).Pairwise fun a b => z b ≤ z a := by
  have hs : bv.reverse.Pairwise fun p q => q.1 ≤ p.1 := by rw [List.pairwise_reverse]; exact H.sorted
  obtain ⟨pre, suf, h1, h2, _⟩ := sparseLoop_spec (L := bv.reverse) 0 0 le_rfl hs
  have hset : sparseSet bv = pre.map Prod.snd := h2
  rw [hset, List.pairwise_map]
  have hz : ∀ p ∈ bv.reverse, p.1 = z p.2 := by
    intro p hp
    obtain ⟨a, _, rfl⟩ := List.mem_map.1 (H.val.mem_iff.1 (List.mem_reverse.1 hp))
    rfl
  rw [h1, List.pairwise_append] at hs
  refine List.Pairwise.imp_of_mem ?_ hs.1
  intro p q hp hq hpq
  rw [hz p (by rw [h1]; simp [hp]), hz q (by rw [h1]; simp [hq])] at hpq
  exact hpq

/-- C44.  The sparse action set is not empty, is listed in decreasing value, and every action in it has a larger value than every
action outside. -/
theorem c44_sparse_set {acts : List A} {z : A → ℝ} {bv : List (ℝ × A)} {ba : List (A × ℝ)} (H : MapsHold acts z bv ba) (hne : acts ≠ []) :
    sparseSet bv ≠ [] ∧ (sparseSet bv).Pairwise (fun a b => z b ≤ z a) ∧
      ∃ rest, (sparseSet bv ++ rest).Perm acts ∧ ∀ a ∈ sparseSet bv, ∀ b ∈ rest, z b < z a := by
  obtain ⟨h1, rest, h2, h3, h4⟩ := sparseSet_spec H hne
  exact ⟨h1, sparseSet_sorted H, rest, h2, fun a ha b hb => lt_of_le_of_lt (h4 b hb) (h3 a ha)⟩

theorem above_isSparsemax {acts : List A} {z : A → ℝ} {τ : ℝ} (hs : (acts.map (above z τ)).sum = 1) : IsSparsemax acts z (above z τ) :=
  ⟨⟨fun a _ => above_nonneg z τ a, hs⟩, fun _ hr => above_closest hs hr⟩

/-- C44.  If the stored values are the current ones, the TENTS weights are the values cut off at a threshold `τ`, they sum to one,
and they are the distribution closest to the values. -/
theorem c44_weights {v : View S A X Y} {q : A → Except Bad ℝ} {Q : A → ℝ} (hq : QIs q v Q) {bv : List (ℝ × A)} {ba : List (A × ℝ)}
    (H : MapsHold v.actions (fun a => Q a / getTemp cfg v) bv ba) (hne : v.actions ≠ []) :
    ∃ p, tentsWeights cfg q v bv = .ok (v.actions.map fun a => (a, p a), 1) ∧
      (∃ τ, ∀ a, p a = max (Q a / getTemp cfg v - τ) 0) ∧ IsSparsemax v.actions (fun a => Q a / getTemp cfg v) p := by
  obtain ⟨hK, rest, hp, h1, h2⟩ := sparseSet_spec H hne
  have hs := above_sum_eq hp hK (fun a => Q a / getTemp cfg v) h1 h2
  refine ⟨above (fun a => Q a / getTemp cfg v) ((((sparseSet bv).map fun a => Q a / getTemp cfg v).sum - 1) / (sparseSet bv).length), ?_,
    ⟨(((sparseSet bv).map fun a => Q a / getTemp cfg v).sum - 1) / (sparseSet bv).length, ?_⟩, above_isSparsemax hs⟩
  · rw [tentsWeights_eq hq hp hK, hs]
  · intro a
    unfold above
    split
    · next h => rw [max_eq_right h.le]
    · next h => rw [max_eq_left (not_lt.1 h)]

theorem objective_eq {acts : List A} (z r : A → ℝ) : tsallisObjective acts z r =
    1 / 2 + 1 / 2 * (acts.map fun a => z a ^ 2).sum - 1 / 2 * (acts.map fun a => (r a - z a) ^ 2).sum := by
  have e : (acts.map fun a => (r a - z a) ^ 2) = acts.map fun a => (r a ^ 2 + (-2) * (r a * z a)) + z a ^ 2 := by
    refine List.map_congr_left fun a _ => ?_
    ring
  unfold tsallisObjective
  rw [e, sum_map_add, sum_map_add, sum_map_mul]
  ring

theorem le_sum_of_mem {l : List A} {f : A → ℝ} (h0 : ∀ a ∈ l, 0 ≤ f a) {a : A} (ha : a ∈ l) : f a ≤ (l.map f).sum := by
  induction l with
  | nil => simp at ha
  | cons b l ih =>
    have hl : 0 ≤ (l.map f).sum := by
      refine List.sum_nonneg ?_
      intro x hx
      obtain ⟨c, hc, rfl⟩ := List.mem_map.1 hx
      exact h0 c (by simp [hc])
    simp only [List.map_cons, List.sum_cons]
    rcases List.mem_cons.1 ha with rfl | ha
    · linarith
    · have := ih (fun c hc => h0 c (by simp [hc])) ha
      have := h0 b (by simp)
      linarith

/-- A distribution concentrated on one action. -/
theorem pointMass_isDistr {acts : List A} (hnd : acts.Nodup) {a : A} (ha : a ∈ acts) (f : A → ℝ) :
    IsDistr acts (fun b => if b = a then 1 else 0) ∧ (acts.map fun b => (if b = a then 1 else 0) * f b).sum = f a ∧
      (acts.map fun b => (if b = a then (1 : ℝ) else 0) ^ 2).sum = 1 := by
  have key : ∀ g : A → ℝ, (acts.map fun b => (if b = a then 1 else 0) * g b).sum = g a := by
    intro g
    obtain ⟨pre, suf, rfl⟩ := List.append_of_mem ha
    have hpre : a ∉ pre ∧ a ∉ suf := by
      rw [List.nodup_append, List.nodup_cons] at hnd
      exact ⟨fun h => hnd.2.2 a h a (by simp) rfl, hnd.2.1.1⟩
    have z0 : ∀ l : List A, a ∉ l → (l.map fun b => (if b = a then 1 else 0) * g b).sum = 0 := by
      intro l hl
      rw [sum_congr (g := fun _ => 0)]
      · simp
      · intro b hb
        rw [if_neg (by rintro rfl; exact hl hb)]
        ring
    rw [List.map_append, List.sum_append, List.map_cons, List.sum_cons, z0 _ hpre.1, z0 _ hpre.2]
    simp
  refine ⟨⟨fun b _ => by split <;> norm_num, ?_⟩, key f, ?_⟩
  · have := key fun _ => 1
    simpa using this
  · refine Eq.trans (sum_congr fun b _ => ?_) (key fun _ => 1)
    split <;> norm_num

/-- C44.  `spmax` never throws on consistent maps; its value is the largest value of the objective "expected value plus Tsallis
entropy" over all distributions, attained by the sparsemax of the stored values; it lies between the largest value and the largest
value plus one half. -/
theorem c44_spmax {acts : List A} {z : A → ℝ} {t : TX A} (H : MapsHold acts z t.byVal t.byAct) (hnd : acts.Nodup) (hne : acts ≠ []) :
    ∃ s p, spmax t = .ok s ∧ IsSparsemax acts z p ∧ s = tsallisObjective acts z p ∧
      (∀ r, IsDistr acts r → tsallisObjective acts z r ≤ s) ∧
      (∀ a ∈ acts, z a ≤ s) ∧ ∃ a ∈ acts, s ≤ z a + 1 / 2 := by
  obtain ⟨hK, rest, hp, h1, h2⟩ := sparseSet_spec H hne
  obtain ⟨τ, h3, hτ⟩ := spmax_eq H hnd hne
  rw [← hτ] at h1 h2
  have hs := above_sum_eq hp hK z (by rw [← hτ]; exact h1) (by rw [← hτ]; exact h2)
  rw [← hτ] at hs
  have hmax : ∀ r, IsDistr acts r → tsallisObjective acts z r ≤ tsallisObjective acts z (above z τ) := by
    intro r hr
    rw [objective_eq, objective_eq]
    have := above_closest hs hr
    linarith
  have hval : 1 / 2 + ((sparseSet t.byVal).map fun a => z a ^ 2 / 2 - τ ^ 2 / 2).sum = tsallisObjective acts z (above z τ) :=
    (spmax_attained hp hK hτ h1 h2).symm
  refine ⟨_, above z τ, h3, above_isSparsemax hs, hval, fun r hr => by rw [hval]; exact hmax r hr, ?_, ?_⟩
  · intro a ha
    obtain ⟨g1, g2, g3⟩ := pointMass_isDistr hnd ha z
    have := hmax _ g1
    rw [hval]
    have e : tsallisObjective acts z (fun b => if b = a then 1 else 0) = z a := by
      unfold tsallisObjective
      rw [g2, g3]
      ring
    linarith
  · -- the largest value
    obtain ⟨a, ha, hmx⟩ : ∃ a ∈ acts, ∀ b ∈ acts, z b ≤ z a := by
      have : ∃ a ∈ acts, ∀ b ∈ acts, z b ≤ z a := by
        clear hval hmax hs h1 h2 h3 hp hK H hnd
        induction acts with
        | nil => exact absurd rfl hne
        | cons a l ih =>
          cases l with
          | nil => exact ⟨a, by simp, by simp⟩
          | cons b l =>
            obtain ⟨c, hc, hm⟩ := ih (by simp)
            rcases le_total (z a) (z c) with h | h
            · exact ⟨c, by simp [hc], fun d hd => by
                rcases List.mem_cons.1 hd with rfl | hd
                · exact h
                · exact hm d hd⟩
            · exact ⟨a, by simp, fun d hd => by
                rcases List.mem_cons.1 hd with rfl | hd
                · exact le_rfl
                · exact (hm d hd).trans h⟩
      exact this
    refine ⟨a, ha, ?_⟩
    rw [hval]
    unfold tsallisObjective
    have e1 : (acts.map fun b => above z τ b * z b).sum ≤ (acts.map fun b => z a * above z τ b).sum := by
      refine sum_le_sum fun b hb => ?_
      have := mul_le_mul_of_nonneg_left (hmx b hb) (above_nonneg z τ b)
      linarith
    rw [sum_map_mul] at e1
    have e3 : (acts.map fun a => above z τ a).sum = 1 := hs
    rw [e3] at e1
    have e2 : 0 ≤ (acts.map fun b => above z τ b ^ 2).sum := by
      refine List.sum_nonneg ?_
      intro x hx
      obtain ⟨b, _, rfl⟩ := List.mem_map.1 hx
      positivity
    linarith

/-- Values 3, 3 and 0 (a tie): the hypotheses can be met. -/
example : ∃ t : TX (Fin 3), MapsHold [0, 1, 2] (fun a : Fin 3 => if a = 2 then (0 : ℝ) else 3) t.byVal t.byAct ∧
    ∃ s, spmax t = .ok s ∧ 3 ≤ s := by
  have H := fillMaps_hold (fun a : Fin 3 => if a = 2 then (0 : ℝ) else 3) [0, 1, 2] [] ([], []) (by decide) ⟨by simp, by simp, by simp⟩
  refine ⟨⟨softInitD 0, _, _⟩, H, ?_⟩
  obtain ⟨s, p, h1, _, _, _, h2, _⟩ := c44_spmax (t := ⟨softInitD 0, _, _⟩) H (by decide) (by simp)
  exact ⟨s, h1, by simpa using h2 0 (by simp)⟩

section
variable {env : Env S A ℝ} {m : Manager S ℝ} {eps : ℝ} {lr : S → A → ℝ} {k : Nat} {s0 : S} {dp tm : Int}
  {tb : List ((Int × S) × Option Nat)} {st : St S A ℝ (Except TErr (TX A)) Soft} {h : List (Event S A ℝ)}

theorem tents_q_defined (hp : PriorTotal cfg env) (hnd : ∀ s, (env.actions s).Nodup) (htb : Leftover tb)
    (hr : Reachable env m (tents eps cfg env m lr) k s0 dp tm tb st h)
    (nd : DNode S A ℝ (Except TErr (TX A))) : ∃ Q, QIs (mentsQ cfg id (viewOf env m st nd)) (viewOf env m st nd) Q := by
  refine mentsQ_total hp rfl id ?_
  intro k hk
  obtain ⟨c, nc, _, h2, h3⟩ := mem_kidsY.1 hk
  rw [h3]
  exact (tents_reach hp hnd htb hr).2 c nc h2

/-- C44.  The value a TENTS node gets in a backup is (for the player to move) the temperature times the largest objective over all
distributions, for values that agree with the current Q-value over the temperature at the action of the trial, and that are the
values stored before at all other actions. -/
theorem c44_backup_value (hp : PriorTotal cfg env) (hnd : ∀ s, (env.actions s).Nodup) (htb : Leftover tb)
    (hr : Reachable env m (tents eps cfg env m lr) k s0 dp tm tb st h) {w d : Nat}
    {nodes : List (Nat × Nat)} {before after : List ℝ} {ret tot : ℝ} (hw : st.ws[w]? = some (.backD d nodes before after ret tot))
    {nd : DNode S A ℝ (Except TErr (TX A))} (hd : st.dn[d]? = some nd) :
    ∃ a x t z t', find? nd.depth (st.ctxOf w).acts = some a ∧ mentsQ cfg id (viewOf env m st nd) a = .ok x ∧
      nd.x = .ok t ∧ MapsHold (env.actions nd.state) z t.byVal t.byAct ∧
      tentsBackupD cfg (viewOf env m st nd) (st.ctxOf w) = .ok t' ∧
      MapsHold (env.actions nd.state) (Function.update z a (x / getTemp cfg (viewOf env m st nd))) t'.byVal t'.byAct ∧
      ∃ p s, IsSparsemax (env.actions nd.state) (Function.update z a (x / getTemp cfg (viewOf env m st nd))) p ∧
        s = tsallisObjective (env.actions nd.state) (Function.update z a (x / getTemp cfg (viewOf env m st nd))) p ∧
        (∀ r, IsDistr (env.actions nd.state) r →
          tsallisObjective (env.actions nd.state) (Function.update z a (x / getTemp cfg (viewOf env m st nd))) r ≤ s) ∧
        t'.soft.val = some (oppCoeff (isOpponent m nd.time) * getTemp cfg (viewOf env m st nd) * s) := by
  obtain ⟨a, c, h1, h2, h3, _⟩ := tents_hasAction htb hr hw hd
  obtain ⟨t, z, hx, _, MH⟩ := (tents_reach hp hnd htb hr).1 d nd hd
  obtain ⟨Q, hQ⟩ := tents_q_defined hp hnd htb hr nd
  obtain ⟨t', s, u1, u2, u3, u4⟩ := tentsBackupD_spec (cfg := cfg) (v := viewOf env m st nd) (ctx := st.ctxOf w) hx MH (hnd _) h2 h3 (hQ a h2)
  have MH' : MapsHold (env.actions nd.state) (Function.update z a (Q a / getTemp cfg (viewOf env m st nd))) ({ t' with soft := t.soft } : TX A).byVal
      ({ t' with soft := t.soft } : TX A).byAct := u2
  obtain ⟨s', p, v1, v2, v3, v4, _⟩ := c44_spmax MH' (hnd _) (List.ne_nil_of_mem h2)
  rw [u3] at v1
  obtain rfl := Except.ok.inj v1
  exact ⟨a, Q a, t, z, t', h3, hQ a h2, hx, MH, u1, u2, p, s, v2, v3, v4, by rw [u4]; rfl⟩

/-- C44 for a whole search, any number of workers and any schedule: whenever a worker is about to select an action at a TENTS node
with at least one action, every draw below `1 - |A|·1e-16` selects a valid action. -/
theorem c44_never_fails_in_search (G : GoodCfg cfg env) (hnd : ∀ s, (env.actions s).Nodup) (htb : Leftover tb) (heps : 0 ≤ eps)
    (hr : Reachable env m (tents eps cfg env m lr) k s0 dp tm tb st h) {w cur : Nat} {path : List (Nat × Nat)} {rs : List ℝ} {new : Bool}
    (_hw : st.ws[w]? = some (.sel cur path rs new)) {nd : DNode S A ℝ (Except TErr (TX A))} (hd : st.dn[cur]? = some nd)
    (hne : env.actions nd.state ≠ []) {u : ℝ} (h0 : 0 ≤ u) (h1 : u < 1 - (env.actions nd.state).length * (1 / 10 ^ 16))
    {iter : List (A × ℝ) → List (A × ℝ)} (hi : ∀ l, List.Perm (iter l) l) :
    let v := viewOf env m st { nd with visits := nd.visits + 1, x := tentsVisit false nd.x }
    ∃ a ∈ env.actions nd.state, selectActionW eps cfg v (tentsWeights cfg (mentsQ cfg id v) v (byValOf v.x)) u iter = .ok (.key a) := by
  intro v
  obtain ⟨t, z, hx, _, MH⟩ := (tents_reach G.total hnd htb hr).1 cur nd hd
  obtain ⟨Q, hQ⟩ := tents_q_defined G.total hnd htb hr { nd with visits := nd.visits + 1, x := tentsVisit false nd.x }
  have hbv : byValOf v.x = t.byVal := by
    show byValOf (tentsVisit false nd.x) = _
    rw [hx]
    rfl
  obtain ⟨hK, rest, hp, _, _⟩ := sparseSet_spec MH hne
  have hge := above_sum_ge hp hK (fun b => Q b / getTemp cfg v)
  rw [hbv, tentsWeights_eq (v := v) hQ hp hK]
  have hb := isDistr_div (acts := v.actions) (fun a _ => above_nonneg (fun b => Q b / getTemp cfg v)
      ((((sparseSet t.byVal).map fun b => Q b / getTemp cfg v).sum - 1) / (sparseSet t.byVal).length) a) rfl (lt_of_lt_of_le one_pos hge)
  rcases selectW_valid (v := v) (Nat.succ_pos _) (goodCfg_wellFormed G rfl) hb heps hi h0 with h2 | ⟨_, h2⟩
  · exact h2
  · exact absurd h1 (not_lt.2 h2)

/-- C44.  In particular a TENTS search never gets stuck at a selection. -/
theorem c44_can_continue (G : GoodCfg cfg env) (hnd : ∀ s, (env.actions s).Nodup) (htb : Leftover tb) (heps : 0 ≤ eps)
    (hr : Reachable env m (tents eps cfg env m lr) k s0 dp tm tb st h) (hc : st.crashed = none) {w cur : Nat} {path : List (Nat × Nat)}
    {rs : List ℝ} {new : Bool} (hw : st.ws[w]? = some (.sel cur path rs new)) {nd : DNode S A ℝ (Except TErr (TX A))}
    (hd : st.dn[cur]? = some nd) (hs : shouldContinue env m nd new = true) (hne : env.actions nd.state ≠ [])
    (hlen : (env.actions nd.state).length < 10 ^ 16) :
    ∃ a ∈ env.actions nd.state, ∃ st' e, step env m (tents eps cfg env m lr) st w (.act a) = some (st', e) := by
  obtain ⟨a, h1, h2⟩ := c44_never_fails_in_search G hnd htb heps hr hw hd hne le_rfl (by
    have : ((env.actions nd.state).length : ℝ) < 10 ^ 16 := by exact_mod_cast hlen
    rw [mul_one_div, sub_pos, div_lt_one (by positivity)]
    exact this) (iter := id) (fun l => List.Perm.refl l)
  refine ⟨a, h1, ?_⟩
  have hsel : (tents eps cfg env m lr).canSelect (viewOf env m st { nd with visits := nd.visits + 1, x := (tents eps cfg env m lr).visitD false nd.x })
      (st.ctxOf w) a = true := by
    show selectableW _ _ _ _ _ = true
    unfold selectableW
    rw [@decide_eq_true_eq _ (Classical.propDecidable _)]
    exact ⟨0, id, le_rfl, one_pos, fun l => List.Perm.refl l, h2⟩
  unfold step
  rw [hc, hw]
  simp only [Option.isSome_none, Bool.false_eq_true, if_false, hd, hs, if_true, blockD]
  rw [if_pos hsel]
  split
  · exact ⟨_, _, rfl⟩
  · exact ⟨_, _, rfl⟩

/-! ## C58 -/

/-- C58, the part that holds.  With a constant temperature, whenever no trial in flight has passed through a TENTS node without having
backed it up yet, the node's weights are the sparsemax of the current Q-values over the temperature. -/
theorem c58_settled_sparsemax_partial (G : GoodCfg cfg env) (hnd : ∀ s, (env.actions s).Nodup) (hdec : cfg.decay = none) (htb : Leftover tb)
    (hr : Reachable env m (tents eps cfg env m lr) k s0 dp tm tb st h) {cur : Nat} {nd : DNode S A ℝ (Except TErr (TX A))}
    (hd : st.dn[cur]? = some nd) (hset : ∀ a, Settled st h cur a) (hne : env.actions nd.state ≠ []) :
    let v := viewOf env m st { nd with visits := nd.visits + 1, x := tentsVisit false nd.x }
    ∃ Q p, QIs (mentsQ cfg id v) v Q ∧ IsSparsemax (env.actions nd.state) (fun a => Q a / cfg.temp) p ∧
      tentsWeights cfg (mentsQ cfg id v) v (byValOf v.x) = .ok ((env.actions nd.state).map fun a => (a, p a), 1) := by
  intro v
  obtain ⟨t, z, hx, _, MH⟩ := (tents_reach G.total hnd htb hr).1 cur nd hd
  obtain ⟨Q, hQ⟩ := tents_q_defined G.total hnd htb hr { nd with visits := nd.visits + 1, x := tentsVisit false nd.x }
  have htemp : getTemp cfg v = cfg.temp := by simp [getTemp, hdec]
  have hz : ∀ a ∈ env.actions nd.state, z a = Q a / getTemp cfg v := by
    intro a ha
    obtain ⟨t2, x, g1, g2, g3⟩ := stored_reach G.total hnd hdec htb hr cur nd a hd ha (hset a)
    rw [hx] at g1
    obtain rfl := Except.ok.inj g1
    rw [MH.find (hnd _) ha] at g3
    have e : mentsQ cfg id v a = mentsQ cfg id (viewOf env m st nd) a := mentsQ_congr id a rfl rfl rfl
    have g4 : mentsQ cfg id v a = .ok (Q a) := hQ a ha
    rw [e, g2] at g4
    rw [htemp, Option.some.inj g3, Except.ok.inj g4]
  have MH' : MapsHold v.actions (fun a => Q a / getTemp cfg v) t.byVal t.byAct := by
    refine ⟨MH.act.trans ?_, MH.val.trans ?_, MH.sorted⟩
    · exact (List.Perm.of_eq (List.map_congr_left fun a ha => by rw [hz a ha]))
    · exact (List.Perm.of_eq (List.map_congr_left fun a ha => by rw [hz a ha]))
  obtain ⟨p, h1, _, h2⟩ := c44_weights (cfg := cfg) (v := v) hQ MH' hne
  refine ⟨Q, p, hQ, by rw [← htemp]; exact h2, ?_⟩
  have hbv : byValOf v.x = t.byVal := by
    show byValOf (tentsVisit false nd.x) = _
    rw [hx]
    rfl
  rw [hbv]
  exact h1

/-- C58.  So with one worker and a constant temperature, every TENTS selection uses the sparsemax of the current Q-values: action `a`
is selected with probability `(1-λ)(1-λ̃) p a + …`, `p` the sparsemax (probabilities below `1e-16` count as zero). -/
theorem c58_single_worker_partial (G : GoodCfg cfg env) (hnd : ∀ s, (env.actions s).Nodup) (hdec : cfg.decay = none) (htb : Leftover tb)
    (heps : 0 ≤ eps) (hr : Reachable env m (tents eps cfg env m lr) 1 s0 dp tm tb st h) {w cur : Nat} {path : List (Nat × Nat)} {rs : List ℝ}
    {new : Bool} (hw : st.ws[w]? = some (.sel cur path rs new)) {nd : DNode S A ℝ (Except TErr (TX A))} (hd : st.dn[cur]? = some nd)
    (hne : env.actions nd.state ≠ []) {iter : List (A × ℝ) → List (A × ℝ)} (hi : ∀ l, List.Perm (iter l) l) :
    let v := viewOf env m st { nd with visits := nd.visits + 1, x := tentsVisit false nd.x }
    ∃ Q p, QIs (mentsQ cfg id v) v Q ∧ IsSparsemax (env.actions nd.state) (fun a => Q a / cfg.temp) p ∧
      ∀ a ∈ env.actions nd.state,
        prob (fun u => selectActionW eps cfg v (tentsWeights cfg (mentsQ cfg id v) v (byValOf v.x)) u iter) (· = .ok (.key a)) =
          if mixture cfg v p a < 1 / 10 ^ 16 then 0 else mixture cfg v p a := by
  intro v
  obtain ⟨I, CI⟩ := reach_ctx (tents_valid eps cfg env m lr) (tents_keeps eps cfg env m lr) htb hr
  have hlen : st.ws.length = 1 := by
    refine reach_induct (fun (st : St S A ℝ (Except TErr (TX A)) Soft) _ => st.ws.length = 1) (by simp [init]) ?_ hr
    intro st h w e st' _ ih _ E
    rw [eff_len E]
    exact ih
  obtain ⟨Q, p, h1, h2, h3⟩ := c58_settled_sparsemax_partial G hnd hdec htb hr hd (settled_single I hlen hw) hne
  refine ⟨Q, p, h1, h2, ?_⟩
  intro a ha
  have hb : IsDistr v.actions fun a => p a / 1 := by
    simp only [div_one]
    exact h2.1
  have h3 : tentsWeights cfg (mentsQ cfg id v) v (byValOf v.x) = .ok (v.actions.map fun a => (a, p a), 1) := h3
  rw [h3, selectW_probability (v := v) (Nat.succ_pos _) (hnd _) (goodCfg_wellFormed G rfl) hb heps hi ha]
  simp

end

/-! C58 is false in general: a decaying temperature. -/

/-- Prior probabilities proportional to `exp (-1)`, `exp (-1/2)` and 1. -/
noncomputable def total3 : ℝ := Real.exp (-1) + Real.exp (-(1 / 2)) + 1

/-- Temperature 2, decaying with the inverse square root of the visits. -/
noncomputable def staleCfg : Cfg Unit (Fin 3) :=
  { temp := 2, priorWeight := 0, epsilon := 1, rootEpsilon := -1, maxExplore := 1, decay := some Decay.invSqrt, minTemp := 1 / 2, scale := 3,
    rootScale := -1, defaultQ := 0, shift := false, offset := 0, threshold := 0, mostVisited := false,
    prior := some fun _ => [(0, Real.exp (-1) / total3), (1, Real.exp (-(1 / 2)) / total3), (2, 1 / total3)], low := -1000000 }

def staleEnv : Env Unit (Fin 3) ℝ :=
  { isSink := fun _ => false, actions := fun _ => [0, 1, 2], succ := fun _ _ => [()], reward := fun _ _ _ => 1 }

theorem total3_pos : 0 < total3 := by unfold total3; positivity

theorem total3_lt : total3 < 3 := by
  unfold total3
  have h1 : Real.exp (-1) < 1 := by rw [Real.exp_lt_one_iff]; norm_num
  have h2 : Real.exp (-(1 / 2)) < 1 := by rw [Real.exp_lt_one_iff]; norm_num
  linarith

theorem staleGood : GoodCfg staleCfg staleEnv := by
  have h3 := total3_pos
  refine ⟨by norm_num [staleCfg], by norm_num [staleCfg], by simp [staleCfg], by simp [staleCfg], ?_, fun h => ⟨_, rfl⟩, ?_, ?_, ?_⟩
  · show (0 : ℝ) ≤ _
    exact Real.log_nonneg (by norm_num)
  · intro f hf s a _
    simp only [staleCfg, Option.some.injEq] at hf
    subst hf
    fin_cases a <;> simp [find?]
  · intro f hf s p hp
    simp only [staleCfg, Option.some.injEq] at hf
    subst hf
    simp at hp
    rcases hp with rfl | rfl | rfl <;> simp <;> positivity
  · intro f hf s
    simp only [staleCfg, Option.some.injEq] at hf
    subst hf
    have e : Real.exp (-1) / total3 + (Real.exp (-(1 / 2)) / total3 + 1 / total3) = 1 := by
      rw [← add_div, ← add_div, ← add_assoc]
      exact div_self h3.ne'
    simpa [staleEnv, find?] using e

theorem logWeight_stale {x : ℝ} (h1 : -1 ≤ x) (h0 : x ≤ 0) : logWeight (Real.exp x / total3) = x - Real.log total3 := by
  have h3 := total3_pos
  have h4 := total3_lt
  have e1 : Real.exp (-1) ≤ Real.exp x := Real.exp_le_exp.2 h1
  have e2 : Real.exp x ≤ 1 := Real.exp_le_one_iff.2 h0
  have e3 := Real.exp_neg_one_gt_d9
  have e4 : 1 < total3 := by unfold total3; have := Real.exp_pos (-1); have := Real.exp_pos (-(1 / 2)); linarith
  unfold logWeight logMaxArg logMinArg
  rw [if_neg, if_pos, Real.log_div (Real.exp_pos x).ne' h3.ne', Real.log_exp]
  · rw [lt_div_iff₀ h3]
    have : (1 / 10 ^ 32 : ℝ) * total3 < 1 / 10 ^ 32 * 3 := by
      apply mul_lt_mul_of_pos_left h4
      positivity
    have h5 : (1 / 10 ^ 32 : ℝ) * 3 < 0.36 := by norm_num
    linarith
  · rw [not_le, div_lt_iff₀ h3]
    have : (1 : ℝ) < 10 ^ 32 * total3 := by nlinarith
    linarith

/-- The values of the three actions. -/
noncomputable def staleQ (a : Fin 3) : ℝ := (if a = 0 then -1 else if a = 1 then -(1 / 2) else 0) - Real.log total3

theorem staleQ_zero : staleQ 0 = -1 - Real.log total3 := by unfold staleQ; rw [if_pos rfl]
theorem staleQ_one : staleQ 1 = -(1 / 2) - Real.log total3 := by unfold staleQ; rw [if_neg (by decide), if_pos rfl]
theorem staleQ_two : staleQ 2 = -Real.log total3 := by unfold staleQ; rw [if_neg (by decide), if_neg (by decide)]; ring

theorem stale_untried (v : View Unit (Fin 3) X Y) (a : Fin 3) : untriedQ staleCfg v a = .ok (staleQ a) := by
  have hl := @logWeight_stale
  have e0 : logWeight (1 / total3) = 0 - Real.log total3 := by
    have := @logWeight_stale 0 (by norm_num) le_rfl
    rwa [Real.exp_zero] at this
  unfold untriedQ nodeOffset staleQ
  fin_cases a
  · simp [staleCfg, find?]
    rw [hl (by norm_num) (by norm_num)]
  · simp [staleCfg, find?]
    exact hl (by norm_num) (by norm_num)
  · simp [staleCfg, find?]
    have := e0
    norm_num at this
    rw [this]

theorem stale_temp0 {v : View Unit (Fin 3) X Y} (hv : v.visits = 0) : getTemp staleCfg v = 2 := by
  unfold getTemp staleCfg Decay.decayedTemp Decay.invSqrt
  rw [hv]
  norm_num

theorem stale_temp1 {v : View Unit (Fin 3) X Y} (hv : v.visits = 1) : getTemp staleCfg v = 1 := by
  have h4 : √(4 : ℝ) = 2 := by
    rw [show (4 : ℝ) = 2 ^ 2 by norm_num]
    exact Real.sqrt_sq (by norm_num)
  unfold getTemp staleCfg Decay.decayedTemp Decay.invSqrt
  rw [hv]
  norm_num [h4]

theorem stale_init : ∃ t, tentsInitD staleCfg staleEnv exMgr () 0 0 0 = .ok t ∧ sparseSet t.byVal = [2, 1, 0] := by
  unfold tentsInitD
  have hq : qList (mentsQ staleCfg id (newView staleEnv exMgr () 0 0 () : View Unit (Fin 3) Unit Soft)) [0, 1, 2] =
      .ok ([0, 1, 2].map fun a => (a, staleQ a)) := by
    refine qList_eq fun a _ => ?_
    exact stale_untried _ a
  have ha : (newView staleEnv exMgr () 0 0 () : View Unit (Fin 3) Unit Soft).actions = [0, 1, 2] := rfl
  simp only [ha]
  rw [hq]
  refine ⟨_, rfl, ?_⟩
  simp only [List.map_cons, List.map_nil, fillMaps]
  rw [stale_temp0 rfl]
  rw [staleQ_zero, staleQ_one, staleQ_two]
  generalize Real.log total3 = c
  simp only [insertVal]
  rw [if_pos (by linarith)]
  simp only [insertVal]
  rw [if_pos (by linarith), if_pos (by linarith)]
  simp only [sparseSet, List.reverse_cons, List.reverse_nil, List.nil_append, List.cons_append, sparseLoop]
  rw [if_pos (by linarith), if_pos (by linarith), if_pos (by linarith)]

/-- C58 is false of the code: with a decaying temperature the stored values are divided by an old temperature; already the first
trial of a single worker does not sample from the sparsemax of the current Q-values. -/
theorem c58_sparsemax_false : ∃ (st : St Unit (Fin 3) ℝ (Except TErr (TX (Fin 3))) Soft) (h : List (Event Unit (Fin 3) ℝ))
    (nd : DNode Unit (Fin 3) ℝ (Except TErr (TX (Fin 3)))),
    GoodCfg staleCfg staleEnv ∧ Reachable staleEnv exMgr (tents 0 staleCfg staleEnv exMgr fun _ _ => 1) 1 () 0 0 [] st h ∧
    (∃ path rs new, st.ws[0]? = some (.sel 0 path rs new)) ∧ st.dn[0]? = some nd ∧
    let v := viewOf staleEnv exMgr st { nd with visits := nd.visits + 1, x := tentsVisit false nd.x }
    ∃ (Q p : Fin 3 → ℝ) (s : ℝ), QIs (mentsQ staleCfg id v) v Q ∧
      tentsWeights staleCfg (mentsQ staleCfg id v) v (byValOf v.x) = .ok ((staleEnv.actions ()).map fun a => (a, p a), s) ∧
      ¬ IsSparsemax (staleEnv.actions ()) (fun a => Q a / getTemp staleCfg v) fun a => p a / s := by
  obtain ⟨t, ht, hset⟩ := stale_init
  refine ⟨_, _, _, staleGood, ⟨[(0, .go)], rfl⟩, ⟨_, _, _, rfl⟩, rfl, ?_⟩
  intro v
  have hbv : sparseSet (byValOf v.x) = [2, 1, 0] := by
    have : v.x = tentsVisit false (tentsInitD staleCfg staleEnv exMgr () 0 0 0) := rfl
    rw [this, ht]
    exact hset
  have hQ : QIs (mentsQ staleCfg id v) v staleQ := fun a _ => stale_untried v a
  have htemp : getTemp staleCfg v = 1 := stale_temp1 rfl
  have hW := tentsWeights_eq (cfg := staleCfg) (v := v) hQ (bv := byValOf v.x) (rest := []) (by rw [hbv]; decide) (by rw [hbv]; simp)
  refine ⟨staleQ, _, _, hQ, hW, ?_⟩
  rw [hbv, htemp]
  intro hS
  have hr : IsDistr (staleEnv.actions ()) fun a : Fin 3 => if a = 0 then (0 : ℝ) else if a = 1 then 1 / 4 else 3 / 4 := by
    refine ⟨fun a _ => by split <;> [skip; split] <;> norm_num, ?_⟩
    show (0 : ℝ) + (1 / 4 + (3 / 4 + 0)) = 1
    norm_num
  have h1 := hS.2 _ hr
  have h2 : ∀ z : Fin 3 → ℝ, ∀ r : Fin 3 → ℝ, ((staleEnv.actions ()).map fun a => (r a - z a) ^ 2).sum =
      (r 0 - z 0) ^ 2 + ((r 1 - z 1) ^ 2 + ((r 2 - z 2) ^ 2 + 0)) := fun _ _ => rfl
  rw [h2, h2] at h1
  have h3 : ∀ τ, (v.actions.map (above (fun b => staleQ b / 1) τ)).sum = above (fun b => staleQ b / 1) τ 0 +
      (above (fun b => staleQ b / 1) τ 1 + (above (fun b => staleQ b / 1) τ 2 + 0)) := fun _ => rfl
  have hτ : ((([2, 1, 0] : List (Fin 3)).map fun b => staleQ b / 1).sum - 1) / (([2, 1, 0] : List (Fin 3)).length : ℝ) = -(5 / 6) - Real.log total3 := by
    simp only [List.map_cons, List.map_nil, List.sum_cons, List.sum_nil, List.length_cons, List.length_nil]
    rw [staleQ_zero, staleQ_one, staleQ_two]
    push_cast
    ring
  rw [h3, hτ] at h1
  have a0 : above (fun b => staleQ b / 1) (-(5 / 6) - Real.log total3) 0 = 0 := by
    unfold above; beta_reduce; rw [staleQ_zero, if_pos (by linarith)]
  have a1 : above (fun b => staleQ b / 1) (-(5 / 6) - Real.log total3) 1 = 1 / 3 := by
    unfold above; beta_reduce; rw [staleQ_one, if_neg (by linarith)]; ring
  have a2 : above (fun b => staleQ b / 1) (-(5 / 6) - Real.log total3) 2 = 5 / 6 := by
    unfold above; beta_reduce; rw [staleQ_two, if_neg (by linarith)]; ring
  rw [a0, a1, a2, staleQ_zero, staleQ_one, staleQ_two, if_pos rfl, if_neg (by decide), if_pos rfl, if_neg (by decide), if_neg (by decide)] at h1
  generalize Real.log total3 = c at h1
  nlinarith

theorem exNodup : ∀ s, (exEnv.actions s).Nodup := by intro s; simp [exEnv]

/-- A TENTS worker has begun a trial and can select an action. -/
example : ∃ st h a st' e, Reachable exEnv exMgr (tents 0 exCfg exEnv exMgr fun _ _ => 1) 2 () 0 0 [] st h ∧
    step exEnv exMgr (tents 0 exCfg exEnv exMgr fun _ _ => 1) st 1 (.act a) = some (st', e) := by
  have hr : Reachable exEnv exMgr (tents 0 exCfg exEnv exMgr fun _ _ => 1) 2 () 0 0 [] _ _ := ⟨[(1, .go)], rfl⟩
  obtain ⟨a, _, st', e, h⟩ := c44_can_continue exGood exNodup (by intro p hp; simp at hp) le_rfl hr rfl (w := 1) rfl rfl (by rfl)
    (by simp [exEnv]) (by simp [exEnv])
  exact ⟨_, _, a, st', e, hr, h⟩

/-- With one worker its first selection is from the sparsemax of the current Q-values. -/
example : ∃ st h, Reachable exEnv exMgr (tents 0 exCfg exEnv exMgr fun _ _ => 1) 1 () 0 0 [] st h ∧
    ∃ (v : View Unit Bool (Except TErr (TX Bool)) Soft) (Q p : Bool → ℝ), IsSparsemax [false, true] (fun a => Q a / 1) p ∧
      prob (fun u => selectActionW 0 exCfg v (tentsWeights exCfg (mentsQ exCfg id v) v (byValOf v.x)) u id) (· = .ok (.key true)) =
          if mixture exCfg v p true < 1 / 10 ^ 16 then 0 else mixture exCfg v p true := by
  have hr : Reachable exEnv exMgr (tents 0 exCfg exEnv exMgr fun _ _ => 1) 1 () 0 0 [] _ _ := ⟨[(0, .go)], rfl⟩
  obtain ⟨Q, p, _, h2, h3⟩ := c58_single_worker_partial exGood exNodup rfl (by intro p hp; simp at hp) le_rfl hr (w := 0) (cur := 0) rfl rfl
    (by simp [exEnv]) (iter := id) (fun l => List.Perm.refl l)
  exact ⟨_, _, hr, _, Q, p, h2, h3 true (by simp [exEnv])⟩

end Verif.Tents
