import Verif.Spec.Uct
import Verif.Props.Sampling
import Verif.Proofs.SearchBack
import Mathlib.Tactic.Ring
import Mathlib.Tactic.FieldSimp
import Mathlib.Tactic.Linarith

/-! # Lemmas about UCT -/

set_option linter.unusedSectionVars false
set_option linter.unusedSimpArgs false

namespace Verif.Uct

open Verif.Search Verif.Sampling Verif.Spec

variable {S A 𝕜 : Type} [DecidableEq S] [DecidableEq A] [Field 𝕜] [LinearOrder 𝕜]

/-! ## Random helpers -/

theorem sampleUniform_eq {K : Type} (keys : List K) (raw : Nat) (h : keys ≠ []) :
    sampleUniform keys raw = keys[raw % keys.length]? := by
  have hl : 0 < keys.length := List.length_pos_iff.2 h
  unfold sampleUniform
  rw [getRandInt_eq (by omega)]
  have : ((keys.length : Int) - 0).toNat = keys.length := by omega
  rw [this]
  simp only [Int.zero_add]
  rw [if_neg (by omega), Int.toNat_natCast]

theorem sampleUniform_nil {K : Type} (raw : Nat) : sampleUniform ([] : List K) raw = none := by
  simp [sampleUniform, getRandInt]

theorem sampleUniform_mem {K : Type} {keys : List K} {raw : Nat} {k : K} (h : sampleUniform keys raw = some k) :
    k ∈ keys ∧ ∃ raw' < keys.length, sampleUniform keys raw' = some k := by
  by_cases hk : keys = []
  · subst hk; simp [sampleUniform_nil] at h
  · have hl : 0 < keys.length := List.length_pos_iff.2 hk
    rw [sampleUniform_eq keys raw hk] at h
    refine ⟨List.mem_of_getElem? h, raw % keys.length, Nat.mod_lt _ hl, ?_⟩
    rw [sampleUniform_eq _ _ hk, Nat.mod_mod]
    exact h

theorem sampleUniform_defined {K : Type} (keys : List K) (raw : Nat) (h : keys ≠ []) : ∃ k, sampleUniform keys raw = some k := by
  have hl : 0 < keys.length := List.length_pos_iff.2 h
  rw [sampleUniform_eq keys raw h]
  exact ⟨_, List.getElem?_eq_getElem (Nat.mod_lt _ hl)⟩

theorem sampleUniform_all {K : Type} {keys : List K} {k : K} (h : k ∈ keys) : ∃ raw < keys.length, sampleUniform keys raw = some k := by
  obtain ⟨i, hi⟩ := List.mem_iff_getElem?.1 h
  have hlt := (List.getElem?_eq_some_iff.1 hi).1
  refine ⟨i, hlt, ?_⟩
  rw [sampleUniform_eq keys i (List.ne_nil_of_mem h), Nat.mod_eq_of_lt hlt, hi]

theorem getMaxKey_some {K V : Type} [LinearOrder V] {low : V} {m : List (K × V)} {raw : Nat} {k : K}
    (h : getMaxKey low m raw = some k) : IsBest m k ∧ ∃ p ∈ m, low ≤ p.2 := by
  by_cases hex : ∃ p ∈ m, low ≤ p.2
  · obtain ⟨k', h1, h2⟩ := c22_returns_maximiser low m raw hex
    rw [h] at h1
    simp at h1
    subst h1
    exact ⟨h2, hex⟩
  · rw [c22_no_key_ub low m raw (fun p hp => not_le.1 fun hl => hex ⟨p, hp, hl⟩)] at h
    simp at h

theorem isBest_iter {K V : Type} [LE V] {iter : List (K × V) → List (K × V)} (hi : IterOk iter) {m : List (K × V)} {k : K} :
    IsBest (iter m) k ↔ IsBest m k := by
  unfold IsBest
  simp only [hi m]

theorem iterOk_id {K V : Type} : IterOk (id : List (K × V) → List (K × V)) := fun _ _ => Iff.rfl

/-! ## The values -/

theorem kid_some_iff (v : View S A (Stats 𝕜) (Stats 𝕜)) (a : A) : (kid v a).isSome = true ↔ Tried v a := by
  unfold kid Tried
  rw [Option.isSome_iff_ne_none, Ne, find?_eq_none, not_not]

theorem bias_spec (cfg : Cfg S A 𝕜) (v : View S A (Stats 𝕜) (Stats 𝕜)) : BiasIs cfg v (biasOf cfg v) := by
  unfold BiasIs biasOf
  split
  · have gen : ∀ (as : List A) (b0 : 𝕜) (s : Set 𝕜), IsGreatest s b0 →
        IsGreatest (s ∪ {x | ∃ a ∈ as, Tried v a ∧ x = |avgOf v a|})
          (as.foldl (fun bias a => match kid v a with
            | none => bias
            | some (_, y) => if bias < |y.avg| then |y.avg| else bias) b0) := by
      intro as
      induction as with
      | nil =>
        intro b0 s h
        simpa using h
      | cons a as ih =>
        intro b0 s h
        rw [List.foldl_cons]
        cases hk : kid v a with
        | none =>
          have hnt : ¬ Tried v a := by
            rw [← kid_some_iff, hk]; simp
          have := ih b0 s h
          have heq : (s ∪ {x | ∃ a' ∈ a :: as, Tried v a' ∧ x = |avgOf v a'|}) = s ∪ {x | ∃ a' ∈ as, Tried v a' ∧ x = |avgOf v a'|} := by
            ext x
            simp only [List.mem_cons, Set.mem_union, Set.mem_ofPred_eq, exists_eq_or_imp, hnt, false_and, false_or]
          rw [heq]
          exact this
        | some ny =>
          obtain ⟨n, y⟩ := ny
          have ht : Tried v a := by rw [← kid_some_iff, hk]; simp
          have hav : avgOf v a = y.avg := by
            unfold kid at hk; simp [avgOf, hk]
          have heq : (s ∪ {x | ∃ a' ∈ a :: as, Tried v a' ∧ x = |avgOf v a'|}) =
              (s ∪ {|y.avg|}) ∪ {x | ∃ a' ∈ as, Tried v a' ∧ x = |avgOf v a'|} := by
            ext x
            simp only [List.mem_cons, Set.mem_union, Set.mem_ofPred_eq, exists_eq_or_imp, ht, true_and, hav,
              Set.mem_singleton_iff, or_assoc]
          rw [heq]
          apply ih
          constructor
          · dsimp only
            split
            · exact .inr rfl
            · exact .inl h.1
          · rintro x (hx | hx)
            · dsimp only
              split
              · rename_i hlt; exact le_trans (h.2 hx) hlt.le
              · exact h.2 hx
            · simp only [Set.mem_singleton_iff] at hx
              subst hx
              dsimp only
              split
              · exact le_refl _
              · rename_i hlt; exact not_lt.1 hlt
    exact gen v.actions (1 / 1000) {1 / 1000} isGreatest_singleton
  · rfl

theorem ucbValue_eq (cfg : Cfg S A 𝕜) (v : View S A (Stats 𝕜) (Stats 𝕜)) {prior : A → 𝕜} (hp : PriorIs cfg v prior) {a : A}
    (ha : a ∈ v.actions) : ucbValue cfg v a = some (score cfg.term prior (biasOf cfg v) v a) := by
  have hpa := hp a ha
  unfold ucbValue score oppCoeff
  cases hpr : cfg.prior with
  | none =>
    rw [hpr] at hpa
    dsimp only at hpa
    rw [hpa]
    cases hk : kid v a with
    | none =>
      unfold kid at hk
      simp [avgOf, visitsOf, hk]
      ring
    | some ny =>
      obtain ⟨n, y⟩ := ny
      unfold kid at hk
      simp [avgOf, visitsOf, hk]
      ring
  | some f =>
    rw [hpr] at hpa
    dsimp only at hpa
    cases hk : kid v a with
    | none =>
      unfold kid at hk
      simp [avgOf, visitsOf, hk, hpa]
      ring
    | some ny =>
      obtain ⟨n, y⟩ := ny
      unfold kid at hk
      simp [avgOf, visitsOf, hk, hpa]
      ring

theorem fill_eq (cfg : Cfg S A 𝕜) (v : View S A (Stats 𝕜) (Stats 𝕜)) {prior : A → 𝕜} (hp : PriorIs cfg v prior) :
    ∀ (as : List A), (∀ a ∈ as, a ∈ v.actions) →
    fillFrom cfg v as = some (as.map fun a => (a, score cfg.term prior (biasOf cfg v) v a))
  | [], _ => rfl
  | a :: as, h => by
    rw [fillFrom, ucbValue_eq cfg v hp (h a (by simp)), fill_eq cfg v hp as (fun b hb => h b (by simp [hb]))]
    rfl

theorem fill_keys (cfg : Cfg S A 𝕜) (v : View S A (Stats 𝕜) (Stats 𝕜)) :
    ∀ (as : List A) (l : List (A × 𝕜)), fillFrom cfg v as = some l → l.map Prod.fst = as
  | [], l, h => by simp [fillFrom] at h; subst h; rfl
  | a :: as, l, h => by
    rw [fillFrom] at h
    cases h1 : ucbValue cfg v a with
    | none => rw [h1] at h; simp at h
    | some x =>
      cases h2 : fillFrom cfg v as with
      | none => rw [h1, h2] at h; simp at h
      | some l' =>
        rw [h1, h2] at h
        simp at h
        subst h
        simp [fill_keys cfg v as l' h2]

/-! ## Selection -/

theorem selectUcb_mem {cfg : Cfg S A 𝕜} {v : View S A (Stats 𝕜) (Stats 𝕜)} {raw : Nat} {iter : List (A × 𝕜) → List (A × 𝕜)}
    (hi : IterOk iter) {a : A} (h : selectUcb cfg v raw iter = some a) :
    a ∈ v.actions ∧ ∃ raw' < v.actions.length, selectUcb cfg v raw' id = some a := by
  unfold selectUcb at h ⊢
  split at h
  · rename_i hc
    obtain ⟨h1, raw', h2, h3⟩ := sampleUniform_mem h
    refine ⟨(List.mem_filter.1 h1).1, raw', lt_of_lt_of_le h2 (List.length_filter_le _ _), ?_⟩
    rw [if_pos hc, h3]
  · rename_i hc
    cases hf : fillFrom cfg v v.actions with
    | none => rw [hf] at h; simp at h
    | some vals =>
      rw [hf] at h
      simp only [Option.bind_some] at h
      obtain ⟨h1, p, hp, hlow⟩ := getMaxKey_some h
      rw [isBest_iter hi] at h1
      rw [hi] at hp
      obtain ⟨raw', h2, h3⟩ := c22_every_maximiser cfg.low vals a h1 ⟨p, hp, hlow⟩
      have hk := fill_keys cfg v _ _ hf
      have hlen : vals.length = v.actions.length := by rw [← hk]; simp
      obtain ⟨val, hval, _⟩ := h1
      refine ⟨hk ▸ List.mem_map.2 ⟨_, hval, rfl⟩, raw', hlen ▸ h2, ?_⟩
      rw [if_neg hc]
      simpa using h3

theorem selectAction_mem {cfg : Cfg S A 𝕜} {v : View S A (Stats 𝕜) (Stats 𝕜)} {u : 𝕜} {raw : Nat}
    {iter : List (A × 𝕜) → List (A × 𝕜)} (hi : IterOk iter) {a : A} (h : selectAction cfg v u raw iter = some a) :
    a ∈ v.actions ∧ ∃ raw' < v.actions.length, selectAction cfg v u raw' id = some a := by
  unfold selectAction at h ⊢
  split at h
  · rename_i hc
    obtain ⟨h1, raw', h2, h3⟩ := sampleUniform_mem h
    exact ⟨h1, raw', h2, by rw [if_pos hc]; exact h3⟩
  · rename_i hc
    obtain ⟨h1, raw', h2, h3⟩ := selectUcb_mem hi h
    exact ⟨h1, raw', h2, by rw [if_neg hc]; exact h3⟩

/-- `selectable` is exactly "some draw and some iteration order make `select_action` return `a`". -/
theorem selectable_iff [IsStrictOrderedRing 𝕜] (cfg : Cfg S A 𝕜) (v : View S A (Stats 𝕜) (Stats 𝕜)) (a : A) :
    selectable cfg v a = true ↔
      ∃ (u : 𝕜) (raw : Nat) (iter : List (A × 𝕜) → List (A × 𝕜)), 0 ≤ u ∧ u < 1 ∧ IterOk iter ∧
        selectAction cfg v u raw iter = some a := by
  unfold selectable
  simp only [List.any_cons, List.any_nil, Bool.or_false, Bool.or_eq_true, Bool.and_eq_true, decide_eq_true_eq, List.any_eq_true,
    List.mem_range]
  constructor
  · rintro (⟨⟨h0, h1⟩, raw, _, h⟩ | ⟨⟨h0, h1⟩, raw, _, h⟩)
    · exact ⟨0, raw, id, le_refl _, one_pos, iterOk_id, h⟩
    · exact ⟨cfg.epsilon, raw, id, h0, h1, iterOk_id, h⟩
  · rintro ⟨u, raw, iter, h0, h1, hi, h⟩
    obtain ⟨_, raw', h2, h3⟩ := selectAction_mem hi h
    by_cases he : 0 < cfg.epsilon
    · by_cases hu : u < cfg.epsilon
      · refine .inl ⟨⟨le_refl _, one_pos⟩, raw', h2, ?_⟩
        unfold selectAction at h3 ⊢
        rw [if_pos ⟨he, hu⟩] at h3
        rw [if_pos ⟨he, he⟩]
        exact h3
      · refine .inr ⟨⟨he.le, lt_of_le_of_lt (not_lt.1 hu) h1⟩, raw', h2, ?_⟩
        unfold selectAction at h3 ⊢
        rw [if_neg (fun hc => hu hc.2)] at h3
        rw [if_neg (fun hc => lt_irrefl _ hc.2)]
        exact h3
    · refine .inl ⟨⟨le_refl _, one_pos⟩, raw', h2, ?_⟩
      unfold selectAction at h3 ⊢
      rw [if_neg (fun hc => he hc.1)] at h3 ⊢
      exact h3

theorem uct_valid [IsStrictOrderedRing 𝕜] (cfg : Cfg S A 𝕜) (m : Manager S 𝕜) : (uct cfg m).Valid := by
  intro v _ a h
  obtain ⟨u, raw, iter, _, _, hi, h⟩ := (selectable_iff cfg v a).1 h
  exact (selectAction_mem hi h).1

/-! ## The averages -/

theorem backupAvg_spec [CharZero 𝕜] (s : Stats 𝕜) (r : 𝕜) :
    (backupAvg s r).n = s.n + 1 ∧ (backupAvg s r).n * (backupAvg s r).avg = s.n * s.avg + r := by
  refine ⟨rfl, ?_⟩
  have : ((s.n : 𝕜) + 1) ≠ 0 := by exact_mod_cast Nat.succ_ne_zero s.n
  simp only [backupAvg, Nat.cast_add, Nat.cast_one]
  field_simp
  ring

/-- Pseudo trials actually counted: none without a heuristic function. -/
def pseudoOf (cfg : Cfg S A 𝕜) (m : Manager S 𝕜) : Nat := if m.heuristic.isSome then cfg.pseudo else 0

structure AvgInv (cfg : Cfg S A 𝕜) (m : Manager S 𝕜) (st : St S A 𝕜 (Stats 𝕜) (Stats 𝕜)) (h : List (Event S A 𝕜)) : Prop where
  d : ∀ (d : Nat) (nd : DNode S A 𝕜 (Stats 𝕜)), st.dn[d]? = some nd →
    nd.x.n = pseudoOf cfg m + (returnsD d h).length ∧
    (nd.x.n : 𝕜) * nd.x.avg = pseudoOf cfg m * nd.heur + (returnsD d h).sum ∧
    (nd.x.n = 0 → nd.x.avg = nd.heur)
  c : ∀ (c : Nat) (nc : CNode S A 𝕜 (Stats 𝕜)), st.cn[c]? = some nc →
    nc.y.n = (returnsC c h).length ∧ (nc.y.n : 𝕜) * nc.y.avg = (returnsC c h).sum ∧ (nc.y.n = 0 → nc.y.avg = 0)

theorem newD_avg (env : Env S A 𝕜) (cfg : Cfg S A 𝕜) (m : Manager S 𝕜) (s : S) (dep tim : Int) :
    (newD env m (uct cfg m) s dep tim).x.n = pseudoOf cfg m ∧
    ((newD env m (uct cfg m) s dep tim).x.n : 𝕜) * (newD env m (uct cfg m) s dep tim).x.avg =
      pseudoOf cfg m * (newD env m (uct cfg m) s dep tim).heur ∧
    ((newD env m (uct cfg m) s dep tim).x.n = 0 →
      (newD env m (uct cfg m) s dep tim).x.avg = (newD env m (uct cfg m) s dep tim).heur) := by
  cases hh : m.heuristic with
  | none => simp [newD, uct, pseudoOf, hh, heurOf]
  | some f => simp [newD, uct, pseudoOf, hh, heurOf]

theorem avg_eff [CharZero 𝕜] {env : Env S A 𝕜} {cfg : Cfg S A 𝕜} {m : Manager S 𝕜}
    {st st' : St S A 𝕜 (Stats 𝕜) (Stats 𝕜)} {h : List (Event S A 𝕜)} {w : Nat} {e : Event S A 𝕜} (T : Touch st h)
    (I : AvgInv cfg m st h) (E : Eff env m (uct cfg m) st w e st') : AvgInv cfg m st' (e :: h) := by
  constructor
  · intro d nd' hd'
    rcases dn_chg E hd' with ⟨nd, hd, hchg⟩ | ⟨rfl, ht, s, dep, tim, rfl⟩
    · have H := I.d d nd hd
      cases hchg with
      | same he => rw [returnsD_cons d e h he]; exact H
      | selOld hl ha hf => simpa [returnsD, uct] using H
      | selNew hl ha hf => simpa [returnsD, uct] using H
      | ended => simpa [returnsD, uct] using H
      | @backed w' args =>
        obtain ⟨h1, h2, h3⟩ := H
        obtain ⟨b1, b2⟩ := backupAvg_spec nd.x args.retAfter
        have hr : returnsD d (Event.backedD w' d args :: h) = args.retAfter :: returnsD d h := by simp [returnsD]
        rw [hr]
        refine ⟨?_, ?_, ?_⟩
        · show (backupAvg nd.x args.retAfter).n = _
          rw [b1, h1, List.length_cons]; omega
        · show ((backupAvg nd.x args.retAfter).n : 𝕜) * (backupAvg nd.x args.retAfter).avg = _
          rw [b2, h2, List.sum_cons]; ring
        · intro h0
          have : (backupAvg nd.x args.retAfter).n = 0 := h0
          rw [b1] at this
          omega
    · rw [returnsD_cons _ e h ht, returnsD_nil T.freshD]
      have := newD_avg env cfg m s dep tim
      simpa using this
  · intro c nc' hc'
    rcases cn_chg E hc' with ⟨nc, hc, hchg⟩ | ⟨rfl, ht, nd, a, rfl⟩
    · have H := I.c c nc hc
      cases hchg with
      | same he => rw [returnsC_cons c e h he]; exact H
      | stepped ho hk => simpa [returnsC, uct] using H
      | @backed w' args =>
        obtain ⟨h1, h2, h3⟩ := H
        obtain ⟨b1, b2⟩ := backupAvg_spec nc.y args.retAfter
        have hr : returnsC c (Event.backedC w' c args :: h) = args.retAfter :: returnsC c h := by simp [returnsC]
        rw [hr]
        refine ⟨?_, ?_, ?_⟩
        · show (backupAvg nc.y args.retAfter).n = _
          rw [b1, h1, List.length_cons]
        · show ((backupAvg nc.y args.retAfter).n : 𝕜) * (backupAvg nc.y args.retAfter).avg = _
          rw [b2, h2, List.sum_cons]; ring
        · intro h0
          have : (backupAvg nc.y args.retAfter).n = 0 := h0
          rw [b1] at this
          omega
    · rw [returnsC_cons _ e h ht, returnsC_nil T.freshC]
      simp [newC, uct]

theorem avg_reach [CharZero 𝕜] {env : Env S A 𝕜} {cfg : Cfg S A 𝕜} {m : Manager S 𝕜} {k : Nat} {s0 : S} {dp tm : Int}
    {tb : List ((Int × S) × Option Nat)} {st : St S A 𝕜 (Stats 𝕜) (Stats 𝕜)} {h : List (Event S A 𝕜)}
    (hr : Reachable env m (uct cfg m) k s0 dp tm tb st h) : AvgInv cfg m st h := by
  obtain ⟨ls, hx⟩ := hr
  refine (exec_induct (fun s h => AvgInv cfg m s h ∧ Touch s h) (fun _ _ _ _ _ hp _ E => ⟨avg_eff hp.2 hp.1 E, touch_eff hp.2 E⟩)
    ⟨?_, ⟨by simp, by simp⟩⟩ hx).1
  constructor
  · intro d nd hd
    rcases d with _ | d
    · simp [init] at hd
      subst hd
      have := newD_avg env cfg m s0 dp tm
      simpa [returnsD] using this
    · simp [init] at hd
  · intro c nc hc
    simp [init] at hc

end Verif.Uct
