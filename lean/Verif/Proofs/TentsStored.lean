import Verif.Proofs.Tents
import Verif.Proofs.StoredValues

/-! # When the values stored by TENTS are the current ones -/

set_option linter.unusedSectionVars false
set_option linter.unusedSimpArgs false

namespace Verif.Tents

open Verif.Search Verif.Sampling Verif.Spec Verif.Backups Verif.Ments Verif.Dents

variable {S A X Y : Type} [DecidableEq S] [DecidableEq A] {cfg : Cfg S A}

/-- The Q-value depends on the state, the player and the data of the child only. -/
theorem mentsQ_congr (py : Y → Soft) {X' : Type} {v : View S A X Y} {v' : View S A X' Y} (a : A) (h1 : v'.state = v.state) (h2 : v'.opp = v.opp)
    (h3 : (find? a v'.kids).map Prod.snd = (find? a v.kids).map Prod.snd) : mentsQ cfg py v' a = mentsQ cfg py v a := by
  unfold mentsQ
  cases h4 : find? a v.kids with
  | none =>
    rw [h4] at h3
    have : find? a v'.kids = none := by simpa using h3
    rw [this]
    simp [untriedQ, h1, h2]
  | some p =>
    obtain ⟨n, y⟩ := p
    rw [h4] at h3
    simp only [Option.map_some] at h3
    rw [Option.map_eq_some_iff] at h3
    obtain ⟨⟨n', y'⟩, h5, h6⟩ := h3
    dsimp only at h6
    subst h6
    rw [h5]
    simp [h2]

section
variable {env : Env S A ℝ} {m : Manager S ℝ} {eps : ℝ} {lr : S → A → ℝ} {k : Nat} {s0 : S} {dp tm : Int}
  {tb : List ((Int × S) × Option Nat)} {st : St S A ℝ (Except TErr (TX A)) Soft} {h : List (Event S A ℝ)}

/-- Every action without an outstanding backup has its current value (over the temperature) stored. -/
def StoredCurrent (cfg : Cfg S A) (env : Env S A ℝ) (m : Manager S ℝ) (st : St S A ℝ (Except TErr (TX A)) Soft) (h : List (Event S A ℝ)) : Prop :=
  ∀ (d : Nat) nd a, st.dn[d]? = some nd → a ∈ env.actions nd.state → Settled st h d a →
    ∃ t x, nd.x = .ok t ∧ mentsQ cfg id (viewOf env m st nd) a = .ok x ∧ find? a t.byAct = some (x / cfg.temp)

theorem newNode_stored (hp : PriorTotal cfg env) (hnd : ∀ s, (env.actions s).Nodup) (hdec : cfg.decay = none)
    (st : St S A ℝ (Except TErr (TX A)) Soft) (s : S) (dep tim : Int) {a : A} (ha : a ∈ env.actions s) :
    ∃ t x, (newD env m (tents eps cfg env m lr) s dep tim).x = .ok t ∧
      mentsQ cfg id (viewOf env m st (newD env m (tents eps cfg env m lr) s dep tim)) a = .ok x ∧ find? a t.byAct = some (x / cfg.temp) := by
  set v : View S A Unit Soft := newView env m s dep tim () with hv
  obtain ⟨Q, hQ⟩ := mentsQ_total hp (v := v) rfl id (by simp [v, newView])
  have htemp : getTemp cfg v = cfg.temp := by simp [getTemp, hdec]
  have hmaps := fillMaps_hold (fun a => Q a / getTemp cfg v) v.actions [] ([], []) (by simpa [hv, newView] using hnd s)
      ⟨by simp, by simp, by simp⟩
  rw [List.nil_append] at hmaps
  obtain ⟨t, ht, hb⟩ : ∃ t, (newD env m (tents eps cfg env m lr) s dep tim).x = .ok t ∧
      t.byAct = (fillMaps (v.actions.map fun a => (a, Q a / getTemp cfg v)) ([], [])).2 := by
    have : tentsInitD cfg env m s dep tim (heurOf env m s) = .ok
        { soft := softInitD (heurOf env m s),
          byVal := (fillMaps (v.actions.map fun a => (a, Q a / getTemp cfg v)) ([], [])).1,
          byAct := (fillMaps (v.actions.map fun a => (a, Q a / getTemp cfg v)) ([], [])).2 } := by
      unfold tentsInitD
      dsimp only
      rw [← hv, qList_eq hQ]
      dsimp only
      rw [List.map_map]
      rfl
    exact ⟨_, this, rfl⟩
  refine ⟨t, Q a, ht, ?_, ?_⟩
  · rw [← hQ a ha]
    refine mentsQ_congr id a rfl rfl ?_
    simp [v, newView, viewOf, kidsY, newD]
  · rw [hb, ← htemp]
    exact hmaps.find (hnd s) ha

/-- The value stored for an action, if any. -/
def storedOf {V W : Type} (x : Except TErr (TXV A V W)) (a : A) : Option V := x.toOption.bind fun t => find? a t.byAct

theorem storedOf_ok {V W : Type} (t : TXV A V W) (a : A) : storedOf (.ok t) a = find? a t.byAct := rfl

/-- TENTS nodes store the Q-values over the temperature. -/
theorem tents_stores (hp : PriorTotal cfg env) (hnd : ∀ s, (env.actions s).Nodup) (hdec : cfg.decay = none) (htb : Leftover tb) :
    StoresValues env m (tents eps cfg env m lr) k s0 dp tm tb storedOf fun v a => (mentsQ cfg id v a).toOption.map (· / cfg.temp) where
  congr h1 h2 h3 := by rw [mentsQ_congr id _ h1 h2 h3]
  init st s dep tim a ha := by
    obtain ⟨t, x, h1, h2, h3⟩ := newNode_stored (eps := eps) (lr := lr) (m := m) hp hnd hdec st s dep tim ha
    rw [h1, h2, storedOf_ok, h3]
    rfl
  visitC _ := rfl
  visit b x a := by
    show storedOf (tentsVisit b x) a = _
    cases x <;> rfl
  backup := by
    intro st h hr w d nd b args hd hb hf a ha
    obtain ⟨TD, TC⟩ := tents_reach hp hnd htb hr
    obtain ⟨T, z, hx, _, MH⟩ := TD d nd hd
    have hkids : ∀ p ∈ (viewOf env m st nd).kids, ∃ r, (id p.2.2 : Soft).val = some r := by
      intro p hp
      obtain ⟨c, nc, _, l2, l3⟩ := mem_kidsY.1 hp
      rw [l3]
      exact TC c nc l2
    obtain ⟨Q, hQ'⟩ := mentsQ_total hp (v := viewOf env m st nd) rfl id hkids
    obtain ⟨t', sv, u1, u2, _, _⟩ := tentsBackupD_spec (cfg := cfg) (v := viewOf env m st nd) (ctx := st.ctxOf w) hx MH (hnd _) hb hf (hQ' b hb)
    have htemp : getTemp cfg (viewOf env m st nd) = cfg.temp := by simp [getTemp, hdec]
    show storedOf (tentsBackupD cfg (viewOf env m st nd) (st.ctxOf w)) a = _
    rw [u1, storedOf_ok, u2.find (hnd _) ha, hx, storedOf_ok, MH.find (hnd _) ha, hQ' b hb, htemp]
    by_cases hab : a = b
    · subst hab
      rw [if_pos rfl, Function.update_self]
      rfl
    · rw [if_neg hab, Function.update_of_ne hab]

theorem stored_reach (hp : PriorTotal cfg env) (hnd : ∀ s, (env.actions s).Nodup) (hdec : cfg.decay = none) (htb : Leftover tb)
    (hr : Reachable env m (tents eps cfg env m lr) k s0 dp tm tb st h) : StoredCurrent cfg env m st h := by
  intro d nd a hd ha hS
  have H := values_reach (tents_stores hp hnd hdec htb) (tents_valid eps cfg env m lr) (tents_keeps eps cfg env m lr) htb hr d nd a hd ha hS
  obtain ⟨T, z, hx, _, MH⟩ := (tents_reach hp hnd htb hr).1 d nd hd
  rw [hx, storedOf_ok] at H
  rw [MH.find (hnd _) ha] at H
  beta_reduce at H
  cases hq : mentsQ cfg id (viewOf env m st nd) a with
  | error e => rw [hq] at H; simp [Except.toOption] at H
  | ok x =>
    refine ⟨T, x, hx, rfl, ?_⟩
    rw [MH.find (hnd _) ha, H, hq]
    rfl

end

end Verif.Tents
