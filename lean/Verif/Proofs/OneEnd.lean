import Verif.Proofs.Consistent

/-! # In mcts mode exactly one trial ends in an inner node -/

namespace Verif.Search

set_option linter.unusedSimpArgs false
set_option linter.unusedSectionVars false

variable {S A R X Y : Type} [DecidableEq S] [DecidableEq A]

/-- The worker is at node `d`, which it has just created. -/
def Phase.inNew (d : Nat) : Phase S A R → Bool | .sel d' _ _ new => d' == d && new | _ => false

/-- A worker that goes on from a node has not created a node in this trial, and every inner node but the root has been the end of
a trial or is about to be. -/
structure OneEnd (env : Env S A R) (m : Manager S R) (st : St S A R X Y) (h : List (Event S A R)) : Prop where
  samp : ∀ (w : Nat) cur a c path rs new, st.ws[w]? = some (.samp cur a c path rs new) → new = false
  sel : ∀ (w : Nat) cur path rs new, st.ws[w]? = some (.sel cur path rs new) → cur < st.dn.length
  one : ∀ (d : Nat) nd, st.dn[d]? = some nd → d ≠ st.root → isLeaf env m nd = false →
    h.countP (Event.endAt d) + st.ws.countP (Phase.inNew d) = 1

theorem oneEnd_init [Zero R] (env : Env S A R) (m : Manager S R) (alg : Alg S A R X Y) (k : Nat) (s0 : S) (dp tm : Int)
    (tb : List ((Int × S) × Option Nat)) : OneEnd env m (init env m alg k s0 dp tm tb) [] := by
  refine ⟨?_, ?_, ?_⟩
  · intro w cur a c path rs new hw
    simp [init, List.getElem?_replicate] at hw
  · intro w cur path rs new hw
    simp [init, List.getElem?_replicate] at hw
  · intro d nd hd hne
    rcases d with _ | d
    · simp [init] at hne
    · simp [init] at hd

theorem oneEnd_eff [AddMonoid R] {env : Env S A R} {m : Manager S R} {alg : Alg S A R X Y} {s0 : S} {dp tm : Int}
    {st st' : St S A R X Y} {h : List (Event S A R)} {w : Nat} {e : Event S A R} (hmode : m.mctsMode = true) (hu : m.useTable = false)
    (I : Inv env m s0 dp tm st h) (C : Cnt m alg st h) (O : OneEnd env m st h) (E : Eff env m alg st w e st') :
    OneEnd env m st' (e :: h) := by
  obtain ⟨o1, o2, o3⟩ := O
  obtain ⟨hnoD1, hnoD2⟩ := C.noD
  have lift : ∀ (p q : Phase S A R), st.ws[w]? = some p → st'.ws = st.ws.set w q → st'.root = st.root → st.dn.length ≤ st'.dn.length →
      (∀ cur a c path rs new, q = .samp cur a c path rs new → new = false) →
      (∀ cur path rs new, q = .sel cur path rs new → cur < st'.dn.length) →
      (∀ (d : Nat) nd', st'.dn[d]? = some nd' → d ≠ st.root → isLeaf env m nd' = false →
        (h.countP (Event.endAt d) + st.ws.countP (Phase.inNew d) = 1 ∧
          (Event.endAt d e).toNat + (Phase.inNew d q).toNat = (Phase.inNew d p).toNat) ∨
        (d = st.dn.length ∧ Event.endAt d e = false ∧ Phase.inNew d q = true ∧ Phase.inNew d p = false)) → OneEnd env m st' (e :: h) := by
    intro p q hp hws hroot hlen h1 h2 h3
    have hlt := (List.getElem?_eq_some_iff.1 hp).1
    refine ⟨?_, ?_, ?_⟩
    · intro w' cur a c path rs new hw'
      rw [hws] at hw'
      rcases set_cases hw' with ⟨rfl, h4⟩ | ⟨_, h4⟩
      · exact h1 _ _ _ _ _ _ h4.symm
      · exact o1 _ _ _ _ _ _ _ h4
    · intro w' cur path rs new hw'
      rw [hws] at hw'
      rcases set_cases hw' with ⟨rfl, h4⟩ | ⟨_, h4⟩
      · exact h2 _ _ _ _ h4.symm
      · exact Nat.lt_of_lt_of_le (o2 _ _ _ _ _ h4) hlen
    · intro d nd' hd' hne hl
      rw [hroot] at hne
      have k1 := countP_set' (Phase.inNew d) st.ws w p q hp
      rw [hws, List.countP_cons]
      rcases h3 d nd' hd' hne hl with ⟨h4, h5⟩ | ⟨rfl, h4, h5, h6⟩
      · cases hb : Event.endAt d e <;> simp only [hb, Bool.toNat_false, Bool.toNat_true, if_true, Bool.false_eq_true, if_false] at h5 ⊢ <;> omega
      · have h7 : st.ws.countP (Phase.inNew st.dn.length) = 0 := by
          apply countP_zero_of
          intro p' hp'
          obtain ⟨i, hi⟩ := List.mem_iff_getElem?.1 hp'
          cases p' with
          | sel d' path rs new =>
            have := o2 i d' path rs new hi
            have hne' : d' ≠ st.dn.length := by omega
            simp [Phase.inNew, hne']
          | _ => rfl
        rw [h5, h6] at k1
        rw [h4]
        simp only [Bool.toNat_false, Bool.toNat_true, if_true, Bool.false_eq_true, if_false] at k1 ⊢
        omega
  have old : ∀ (d : Nat) (nd nd' : DNode S A R X), st.dn[d]? = some nd → nd'.state = nd.state → nd'.depth = nd.depth → d ≠ st.root →
      isLeaf env m nd' = false → h.countP (Event.endAt d) + st.ws.countP (Phase.inNew d) = 1 := by
    intro d nd nd' hd h1 h2 hne hl
    refine o3 d nd hd hne ?_
    rw [← hl]
    simp [isLeaf, h1, h2]
  cases E with
  | crash hc =>
    refine ⟨o1, o2, ?_⟩
    intro d nd hd hne hl
    have := o3 d nd hd hne hl
    simpa [List.countP_cons, Event.endAt] using this
  | began hw =>
    refine lift _ _ hw rfl rfl (Nat.le_refl _) (by simp) ?_ ?_
    · intro cur path rs new hh
      simp only [Phase.sel.injEq] at hh
      obtain ⟨rfl, _⟩ := hh
      obtain ⟨nd, hnd, _⟩ := root_node I.tree
      exact (List.getElem?_eq_some_iff.1 hnd).1
    · intro d nd hd hne hl
      exact .inl ⟨o3 d nd hd hne hl, by simp [Event.endAt, Phase.inNew]⟩
  | @selOld cur path rs new nd a c hw hd hl hm ha hf =>
    have hnew : new = false := by simpa [hmode] using hm
    subst hnew
    refine lift _ _ hw rfl rfl (by simp) (by simp) (by simp) ?_
    intro d nd' hd' hne hl'
    rcases set_cases hd' with ⟨rfl, rfl⟩ | ⟨_, hd'⟩
    · exact .inl ⟨old d nd _ hd rfl rfl hne hl', by simp [Event.endAt, Phase.inNew]⟩
    · exact .inl ⟨o3 d nd' hd' hne hl', by simp [Event.endAt, Phase.inNew]⟩
  | @selNew cur path rs new nd a hw hd hl hm ha hf =>
    have hnew : new = false := by simpa [hmode] using hm
    subst hnew
    refine lift _ _ hw rfl rfl (by simp) (by simp) (by simp) ?_
    intro d nd' hd' hne hl'
    rcases set_cases hd' with ⟨rfl, rfl⟩ | ⟨_, hd'⟩
    · exact .inl ⟨old d nd _ hd rfl rfl hne hl', by simp [Event.endAt, Phase.inNew]⟩
    · exact .inl ⟨o3 d nd' hd' hne hl', by simp [Event.endAt, Phase.inNew]⟩
  | @ended cur path rs new nd hw hd hs =>
    refine lift _ _ hw rfl rfl (by simp) (by simp) (by simp) ?_
    intro d nd' hd' hne hl'
    rcases set_cases hd' with ⟨rfl, rfl⟩ | ⟨hne', hd'⟩
    · have hl'' : isLeaf env m nd = false := hl'
      have hnew : new = true := by simpa [hl'', hmode] using hs
      exact .inl ⟨old d nd _ hd rfl rfl hne hl', by simp [Event.endAt, Phase.inNew, hnew]⟩
    · exact .inl ⟨o3 d nd' hd' hne hl', by simp [Event.endAt, Phase.inNew, beq_eq_false_iff_ne.2 (Ne.symm hne')]⟩
  | @stepOld cur a c path rs new nc nd o d' hw hc hd ho hf =>
    have hnew := o1 _ _ _ _ _ _ _ hw
    subst hnew
    refine lift _ _ hw rfl rfl (by simp) (by simp) ?_ ?_
    · intro cur' path' rs' new' hh
      simp only [Phase.sel.injEq] at hh
      obtain ⟨rfl, _⟩ := hh
      obtain ⟨_, nd2, _, k2, _⟩ := childD_facts I.tree (show childD st c o = some d' by simp [childD, hc, hf])
      exact (List.getElem?_eq_some_iff.1 k2).1
    · intro d nd' hd' hne hl'
      exact .inl ⟨o3 d nd' hd' hne hl', by simp [Event.endAt, Phase.inNew]⟩
  | @stepNew cur a c path rs new nc nd o tb hw hc hd ho hf ht =>
    refine lift _ _ hw rfl rfl (by simp) (by simp) ?_ ?_
    · intro cur' path' rs' new' hh
      simp only [Phase.sel.injEq] at hh
      obtain ⟨rfl, _⟩ := hh
      simp
    · intro d nd' hd' hne hl'
      rcases snoc_cases hd' with ⟨hlt, hd'⟩ | ⟨rfl, rfl⟩
      · have : st.dn.length ≠ d := by omega
        exact .inl ⟨o3 d nd' hd' hne hl', by simp [Event.endAt, Phase.inNew, this]⟩
      · exact .inr ⟨rfl, by simp [Event.endAt], by simp [Phase.inNew], by simp [Phase.inNew]⟩
  | stepHit hw hc hd ho hf hu' ht => simp [hu] at hu'
  | completed hw =>
    refine lift _ _ hw rfl rfl (Nat.le_refl _) (by simp) (by simp) ?_
    intro d nd hd hne hl
    exact .inl ⟨o3 d nd hd hne hl, by simp [Event.endAt, Phase.inNew]⟩
  | backedC hw hc =>
    refine lift _ _ hw rfl rfl (Nat.le_refl _) (by simp) (by simp) ?_
    intro d nd hd hne hl
    exact .inl ⟨o3 d nd hd hne hl, by simp [Event.endAt, Phase.inNew]⟩
  | @backedD cur nodes before after ret tot nd hw hd =>
    refine lift _ _ hw rfl rfl (by simp) (by simp) (by simp) ?_
    intro d nd' hd' hne hl'
    rcases set_cases hd' with ⟨rfl, rfl⟩ | ⟨_, hd'⟩
    · exact .inl ⟨old d nd _ hd rfl rfl hne hl', by simp [Event.endAt, Phase.inNew]⟩
    · exact .inl ⟨o3 d nd' hd' hne hl', by simp [Event.endAt, Phase.inNew]⟩

theorem reach_oneEnd [AddMonoid R] {env : Env S A R} {m : Manager S R} {alg : Alg S A R X Y} (hv : alg.Valid) (hmode : m.mctsMode = true)
    (hu : m.useTable = false) {k : Nat} {s0 : S} {dp tm : Int} {tb : List ((Int × S) × Option Nat)} (htb : Leftover tb)
    {st : St S A R X Y} {h : List (Event S A R)} (hr : Reachable env m alg k s0 dp tm tb st h) : OneEnd env m st h := by
  obtain ⟨ls, hx⟩ := hr
  exact (exec_induct (fun s h => (Inv env m s0 dp tm s h ∧ Cnt m alg s h) ∧ OneEnd env m s h)
    (fun _ _ _ _ _ hp _ E => ⟨⟨inv_eff hv hp.1.1 E, cnt_eff hp.1.1 hp.1.2 E⟩, oneEnd_eff hmode hu hp.1.1 hp.1.2 hp.2 E⟩)
    ⟨⟨inv_init env m alg k s0 dp tm tb htb, cnt_init env m alg k s0 dp tm tb⟩, oneEnd_init env m alg k s0 dp tm tb⟩ hx).2

/-- Whenever no trial is running, exactly one trial has ended in an inner node that is not the root. -/
theorem one_end [AddMonoid R] {env : Env S A R} {m : Manager S R} {alg : Alg S A R X Y} (hv : alg.Valid) (hmode : m.mctsMode = true)
    (hu : m.useTable = false) {k : Nat} {s0 : S} {dp tm : Int} {tb : List ((Int × S) × Option Nat)} (htb : Leftover tb)
    {st : St S A R X Y} {h : List (Event S A R)} (hr : Reachable env m alg k s0 dp tm tb st h) (hq : Quiescent st)
    {d : Nat} {nd : DNode S A R X} (hd : st.dn[d]? = some nd) (hne : d ≠ st.root) (hl : isLeaf env m nd = false) :
    h.countP (Event.endAt d) = 1 := by
  have := (reach_oneEnd hv hmode hu htb hr).one d nd hd hne hl
  rw [quiescent_counts hq (Phase.inNew d) rfl] at this
  omega

/-- Outside mcts mode trials end in leaves only. -/
theorem no_end [AddMonoid R] {env : Env S A R} {m : Manager S R} {alg : Alg S A R X Y} (hmode : m.mctsMode = false)
    {k : Nat} {s0 : S} {dp tm : Int} {tb : List ((Int × S) × Option Nat)}
    {st : St S A R X Y} {h : List (Event S A R)} (hr : Reachable env m alg k s0 dp tm tb st h)
    {d : Nat} {nd : DNode S A R X} (hd : st.dn[d]? = some nd) (hl : isLeaf env m nd = false) :
    h.countP (Event.endAt d) = 0 := by
  obtain ⟨ls, hx⟩ := hr
  refine (exec_induct (fun s h => Touch s h ∧ ∀ (d : Nat) nd, s.dn[d]? = some nd → isLeaf env m nd = false → h.countP (Event.endAt d) = 0)
    ?_ ⟨⟨by simp, by simp⟩, by simp⟩ hx).2 d nd hd hl
  intro st h w e st' ⟨T, ih⟩ _ E
  refine ⟨touch_eff T E, ?_⟩
  intro d nd' hd' hl'
  have hs : Event.endAt d e = false := by
    cases E with
    | @ended cur path rs new nd hw hd hs =>
      by_cases hc : cur = d
      · subst hc
        have hlt := (List.getElem?_eq_some_iff.1 hd).1
        simp only [List.getElem?_set_self hlt, Option.some.injEq] at hd'
        subst hd'
        have h1 : isLeaf env m nd = false := hl'
        simp [h1, hmode] at hs
      · simp [Event.endAt, hc]
    | _ => rfl
  rw [List.countP_cons, hs]
  simp only [Bool.false_eq_true, if_false, Nat.add_zero]
  rcases dn_chg E hd' with ⟨nd, hd, hchg⟩ | ⟨hlen, ht, s, dep, tim, rfl⟩
  · refine ih d nd hd ?_
    cases hchg <;> exact hl'
  · subst hlen
    refine countP_zero_of ?_
    intro e' he'
    have := T.freshD e' he'
    cases e' <;> simp [Event.touchesD, Event.endAt] at this ⊢
    exact this

end Verif.Search
