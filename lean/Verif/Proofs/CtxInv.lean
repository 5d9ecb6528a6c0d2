import Verif.Proofs.Consistent

/-! # What a trial finds in its context -/

namespace Verif.Search

set_option linter.unusedSimpArgs false
set_option linter.unusedSectionVars false

variable {S A R X Y : Type} [DecidableEq S] [DecidableEq A]

theorem reach_induct [Add R] [Zero R] {env : Env S A R} {m : Manager S R} {alg : Alg S A R X Y} {k : Nat} {s0 : S} {dp tm : Int}
    {tb : List ((Int × S) × Option Nat)} (P : St S A R X Y → List (Event S A R) → Prop) (h0 : P (init env m alg k s0 dp tm tb) [])
    (hs : ∀ st h w e st', Reachable env m alg k s0 dp tm tb st h → P st h → st.crashed = none → Eff env m alg st w e st' → P st' (e :: h))
    {st : St S A R X Y} {h : List (Event S A R)} (hr : Reachable env m alg k s0 dp tm tb st h) : P st h := by
  obtain ⟨ls, hx⟩ := hr
  obtain ⟨n, hn⟩ : ∃ n, ls.length = n := ⟨_, rfl⟩
  induction n generalizing ls st h with
  | zero =>
    have : ls = [] := List.length_eq_zero_iff.1 hn
    subst this
    simp [execFrom] at hx
    obtain ⟨rfl, rfl⟩ := hx
    exact h0
  | succ n ih =>
    rcases getLast?_cases ls with rfl | ⟨l, ⟨w, ch⟩, rfl⟩
    · simp at hn
    · rw [exec_snoc] at hx
      simp only [Option.bind_eq_some_iff, Option.map_eq_some_iff, Prod.exists] at hx
      obtain ⟨s1, h', hx1, s2, e', hst, heq⟩ := hx
      simp only [Prod.mk.injEq] at heq
      obtain ⟨rfl, rfl⟩ := heq
      obtain ⟨hc, E⟩ := step_eff hst
      exact hs _ _ w _ _ ⟨l, hx1⟩ (ih l hx1 (by simpa using hn)) hc E

theorem base_depth [AddMonoid R] {env : Env S A R} {m : Manager S R} {s0 : S} {dp tm : Int} {st : St S A R X Y}
    (T : Tree env m s0 dp tm st) {ss : List (Step S A R)} {e : Nat} (B : Base env m st ss e) :
    (∀ nd, st.dn[e]? = some nd → nd.depth = dp + ss.length) ∧
    (∀ (j : Nat) s, ss[j]? = some s → ∃ nd, st.dn[s.d]? = some nd ∧ nd.depth = dp + j) := by
  obtain ⟨nr, hr, _, hdep, _⟩ := root_node T
  constructor
  · intro nd hd
    have := isPath_depth T B.1 hr hd
    omega
  · intro j s hj
    obtain ⟨g1, _⟩ := isPath_mem B.1 s (List.mem_of_getElem? hj)
    obtain ⟨nd, nc, k1, _⟩ := childC_facts T g1
    have := isPath_depth T (isPath_take B.1 hj) hr k1
    have hl := (List.getElem?_eq_some_iff.1 hj).1
    rw [List.length_take, Nat.min_eq_left (Nat.le_of_lt hl)] at this
    exact ⟨nd, k1, by omega⟩

/-- The entries of the context under the node's depth: `f` is what `select_action` stores. -/
structure CtxKeeps (alg : Alg S A R X Y) {V : Type} (get : Ctx A R → Int → Option V) (f : View S A X Y → Ctx A R → A → V) : Prop where
  hit : ∀ v ctx a, alg.canSelect v ctx a = true → get (alg.selCtx v ctx a) v.depth = some (f v ctx a)
  miss : ∀ v ctx a k, alg.canSelect v ctx a = true → k ≠ v.depth → get (alg.selCtx v ctx a) k = get ctx k

section
variable [AddMonoid R] {V : Type}

/-- `x` is what worker `w`, in its current (or last) trial, stored when it selected `a` at decision node `d`. -/
def Stored (env : Env S A R) (m : Manager S R) (alg : Alg S A R X Y) (k : Nat) (s0 : S) (dp tm : Int) (tb : List ((Int × S) × Option Nat))
    (f : View S A X Y → Ctx A R → A → V) (h : List (Event S A R)) (w d : Nat) (a : A) (c : Nat) (x : V) : Prop :=
  ∃ h1 h0, h = h1 ++ .selected w d a c :: h0 ∧ .began w ∉ h1 ∧
    ∃ (st0 : St S A R X Y) (nd : DNode S A R X), Reachable env m alg k s0 dp tm tb st0 h0 ∧ st0.dn[d]? = some nd ∧
      x = f (viewOf env m st0 { nd with visits := nd.visits + 1, x := alg.visitD false nd.x }) (st0.ctxOf w) a

variable {env : Env S A R} {m : Manager S R} {alg : Alg S A R X Y} {k : Nat} {s0 : S} {dp tm : Int} {tb : List ((Int × S) × Option Nat)}
  {f : View S A X Y → Ctx A R → A → V} {get : Ctx A R → Int → Option V}

theorem Stored.cons {h : List (Event S A R)} {w d : Nat} {a : A} {c : Nat} {x : V} (H : Stored env m alg k s0 dp tm tb f h w d a c x)
    {e : Event S A R} (he : e ≠ .began w) : Stored env m alg k s0 dp tm tb f (e :: h) w d a c x := by
  obtain ⟨h1, h0, rfl, h3, h4⟩ := H
  exact ⟨e :: h1, h0, rfl, by simp only [List.mem_cons, not_or]; exact ⟨fun h => he h.symm, h3⟩, h4⟩

structure CtxInv (env : Env S A R) (m : Manager S R) (alg : Alg S A R X Y) (k : Nat) (s0 : S) (dp tm : Int)
    (tb : List ((Int × S) × Option Nat)) (f : View S A X Y → Ctx A R → A → V) (get : Ctx A R → Int → Option V)
    (st : St S A R X Y) (h : List (Event S A R)) : Prop where
  len : st.ctxs.length = st.ws.length
  steps : ∀ (w j : Nat) s, w < st.ws.length → (stepsOf w h)[j]? = some s →
    ∃ x, get (st.ctxOf w) (dp + j) = some x ∧ Stored env m alg k s0 dp tm tb f h w s.d s.a s.c x
  samp : ∀ (w cur : Nat) a c path rs new, st.ws[w]? = some (.samp cur a c path rs new) →
    ∃ x, get (st.ctxOf w) (dp + (stepsOf w h).length) = some x ∧ Stored env m alg k s0 dp tm tb f h w cur a c x

theorem ctx_eff (C : CtxKeeps alg get f) {st st' : St S A R X Y} {h : List (Event S A R)} {w : Nat} {e : Event S A R}
    (hr : Reachable env m alg k s0 dp tm tb st h)
    (I : Inv env m s0 dp tm st h) (H : CtxInv env m alg k s0 dp tm tb f get st h) (E : Eff env m alg st w e st') :
    CtxInv env m alg k s0 dp tm tb f get st' (e :: h) := by
  have hlen : st'.ctxs.length = st.ctxs.length := by cases E <;> simp
  have hlen' : st'.ws.length = st.ws.length := eff_len E
  have hew := eff_worker E
  -- another worker
  have other : ∀ w', w' ≠ w → st'.ctxOf w' = st.ctxOf w' ∧ st'.ws[w']? = st.ws[w']? ∧ stepsOf w' (e :: h) = stepsOf w' h ∧ e ≠ .began w' := by
    intro w' hw'
    refine ⟨?_, eff_ws_other E hw', stepsOf_other (by rw [hew]; exact fun h => hw' h.symm), ?_⟩
    · unfold St.ctxOf
      cases E <;> simp [Ne.symm hw']
    · rintro rfl
      exact hw' hew
  have hself : ∀ (x : Ctx A R), (st.ws[w]?).isSome → ((st.ctxs.set w x)[w]?).getD {} = x := by
    intro x hx
    have : w < st.ctxs.length := by
      rw [H.len]
      cases hq : st.ws[w]? with
      | none => simp [hq] at hx
      | some y => exact (List.getElem?_eq_some_iff.1 hq).1
    simp [this]
  have hselfw : ∀ q, (st.ws[w]?).isSome → (st.ws.set w q)[w]? = some q := by
    intro q hq
    cases hx : st.ws[w]? with
    | none => simp [hx] at hq
    | some y => exact List.getElem?_set_self (List.getElem?_eq_some_iff.1 hx).1
  -- selections
  have hsel : ∀ (cur : Nat) path rs new nd a c, st.ws[w]? = some (.sel cur path rs new) → st.dn[cur]? = some nd →
      alg.canSelect (viewOf env m st { nd with visits := nd.visits + 1, x := alg.visitD false nd.x }) (st.ctxOf w) a = true →
      let ctx' := alg.selCtx (viewOf env m st { nd with visits := nd.visits + 1, x := alg.visitD false nd.x }) (st.ctxOf w) a
      (∀ (j : Nat) s, (stepsOf w h)[j]? = some s → ∃ x, get ctx' (dp + j) = some x ∧
        Stored env m alg k s0 dp tm tb f (.selected w cur a c :: h) w s.d s.a s.c x) ∧
      ∃ x, get ctx' (dp + (stepsOf w h).length) = some x ∧ Stored env m alg k s0 dp tm tb f (.selected w cur a c :: h) w cur a c x := by
    intro cur path rs new nd a c hw hd ha ctx'
    obtain ⟨B, _⟩ := I.ws w _ hw
    have hdep : nd.depth = dp + (stepsOf w h).length := (base_depth I.tree B).1 nd hd
    constructor
    · intro j s hj
      obtain ⟨x, h1, h2⟩ := H.steps w j s (List.getElem?_eq_some_iff.1 hw).1 hj
      refine ⟨x, ?_, h2.cons (by simp)⟩
      have := (List.getElem?_eq_some_iff.1 hj).1
      show get ctx' _ = _
      rw [C.miss _ _ _ _ ha (by simp only [viewOf]; omega), h1]
    · refine ⟨_, ?_, [], h, rfl, by simp, st, nd, hr, hd, rfl⟩
      rw [← hdep]
      exact C.hit _ _ _ ha
  refine ⟨by rw [hlen, hlen', H.len], ?_, ?_⟩
  · intro w' j s hw' hj
    rw [hlen'] at hw'
    by_cases hww : w' = w
    · subst hww
      cases E with
      | began hw => simp [stepsOf, tr_began] at hj
      | crash hc =>
        rw [st_crash] at hj
        obtain ⟨x, h1, h2⟩ := H.steps w' j s hw' hj
        exact ⟨x, h1, h2.cons (by simp)⟩
      | ended hw hd hs =>
        rw [st_end] at hj
        obtain ⟨x, h1, h2⟩ := H.steps w' j s hw' hj
        exact ⟨x, h1, h2.cons (by simp)⟩
      | completed hw =>
        rw [st_comp] at hj
        obtain ⟨x, h1, h2⟩ := H.steps w' j s hw' hj
        exact ⟨x, h1, h2.cons (by simp)⟩
      | backedC hw hc =>
        rw [st_bc] at hj
        obtain ⟨x, h1, h2⟩ := H.steps w' j s hw' hj
        exact ⟨x, h1, h2.cons (by simp)⟩
      | backedD hw hd =>
        rw [st_bd] at hj
        obtain ⟨x, h1, h2⟩ := H.steps w' j s hw' hj
        exact ⟨x, h1, h2.cons (by simp)⟩
      | @selOld cur path rs new nd a c hw hd hl hm ha hf =>
        rw [st_sel] at hj
        obtain ⟨x, h1, h2⟩ := (hsel cur path rs new nd a c hw hd ha).1 j s hj
        refine ⟨x, ?_, h2⟩
        unfold St.ctxOf
        dsimp only
        rw [hself _ (by rw [hw]; rfl)]
        exact h1
      | @selNew cur path rs new nd a hw hd hl hm ha hf =>
        rw [st_sel] at hj
        obtain ⟨x, h1, h2⟩ := (hsel cur path rs new nd a st.cn.length hw hd ha).1 j s hj
        refine ⟨x, ?_, h2⟩
        unfold St.ctxOf
        dsimp only
        rw [hself _ (by rw [hw]; rfl)]
        exact h1
      | @stepOld cur a c path rs new nc nd o d' hw hc hd ho hf =>
        rw [st_stp] at hj
        rcases Nat.lt_or_ge j (stepsOf w' h).length with hlt | hge
        · rw [List.getElem?_append_left hlt] at hj
          obtain ⟨x, h1, h2⟩ := H.steps w' j s hw' hj
          exact ⟨x, h1, h2.cons (by simp)⟩
        · rw [List.getElem?_append_right hge, List.getElem?_singleton] at hj
          split at hj
          · simp only [Option.some.injEq] at hj
            subst hj
            have : j = (stepsOf w' h).length := by omega
            subst this
            obtain ⟨x, h1, h2⟩ := H.samp w' _ _ _ _ _ _ hw
            exact ⟨x, h1, h2.cons (by simp)⟩
          · simp at hj
      | @stepNew cur a c path rs new nc nd o tb' hw hc hd ho hf ht =>
        rw [st_stp] at hj
        rcases Nat.lt_or_ge j (stepsOf w' h).length with hlt | hge
        · rw [List.getElem?_append_left hlt] at hj
          obtain ⟨x, h1, h2⟩ := H.steps w' j s hw' hj
          exact ⟨x, h1, h2.cons (by simp)⟩
        · rw [List.getElem?_append_right hge, List.getElem?_singleton] at hj
          split at hj
          · simp only [Option.some.injEq] at hj
            subst hj
            have : j = (stepsOf w' h).length := by omega
            subst this
            obtain ⟨x, h1, h2⟩ := H.samp w' _ _ _ _ _ _ hw
            exact ⟨x, h1, h2.cons (by simp)⟩
          · simp at hj
      | @stepHit cur a c path rs new nc nd o d' hw hc hd ho hf hu ht =>
        rw [st_stp] at hj
        rcases Nat.lt_or_ge j (stepsOf w' h).length with hlt | hge
        · rw [List.getElem?_append_left hlt] at hj
          obtain ⟨x, h1, h2⟩ := H.steps w' j s hw' hj
          exact ⟨x, h1, h2.cons (by simp)⟩
        · rw [List.getElem?_append_right hge, List.getElem?_singleton] at hj
          split at hj
          · simp only [Option.some.injEq] at hj
            subst hj
            have : j = (stepsOf w' h).length := by omega
            subst this
            obtain ⟨x, h1, h2⟩ := H.samp w' _ _ _ _ _ _ hw
            exact ⟨x, h1, h2.cons (by simp)⟩
          · simp at hj
    · obtain ⟨o1, o2, o3, o4⟩ := other w' hww
      rw [o3] at hj
      obtain ⟨x, h1, h2⟩ := H.steps w' j s hw' hj
      exact ⟨x, by rw [o1]; exact h1, h2.cons o4⟩
  · intro w' cur a c path rs new hp
    by_cases hww : w' = w
    · subst hww
      cases E with
      | crash hc =>
        rw [st_crash]
        obtain ⟨x, h1, h2⟩ := H.samp w' _ _ _ _ _ _ hp
        exact ⟨x, h1, h2.cons (by simp)⟩
      | began hw => rw [hselfw _ (by simp [hw])] at hp; simp at hp
      | ended hw hd hs => rw [hselfw _ (by simp [hw])] at hp; simp at hp
      | completed hw => rw [hselfw _ (by simp [hw])] at hp; simp at hp
      | backedC hw hc => rw [hselfw _ (by simp [hw])] at hp; simp at hp
      | backedD hw hd => rw [hselfw _ (by simp [hw])] at hp; simp at hp
      | stepOld hw => rw [hselfw _ (by simp [hw])] at hp; simp at hp
      | stepNew hw => rw [hselfw _ (by simp [hw])] at hp; simp at hp
      | stepHit hw => rw [hselfw _ (by simp [hw])] at hp; simp at hp
      | @selOld cur path rs new nd a c hw hd hl hm ha hf =>
        rw [hselfw _ (by simp [hw])] at hp
        simp at hp
        obtain ⟨rfl, rfl, rfl, rfl, rfl, rfl⟩ := hp
        obtain ⟨x, h1, h2⟩ := (hsel cur path rs new nd a c hw hd ha).2
        refine ⟨x, ?_, h2⟩
        rw [st_sel]
        unfold St.ctxOf
        dsimp only
        rw [hself _ (by rw [hw]; rfl)]
        exact h1
      | @selNew cur path rs new nd a hw hd hl hm ha hf =>
        rw [hselfw _ (by simp [hw])] at hp
        simp at hp
        obtain ⟨rfl, rfl, rfl, rfl, rfl, rfl⟩ := hp
        obtain ⟨x, h1, h2⟩ := (hsel cur path rs new nd a st.cn.length hw hd ha).2
        refine ⟨x, ?_, h2⟩
        rw [st_sel]
        unfold St.ctxOf
        dsimp only
        rw [hself _ (by rw [hw]; rfl)]
        exact h1
    · obtain ⟨o1, o2, o3, o4⟩ := other w' hww
      rw [o2] at hp
      obtain ⟨x, h1, h2⟩ := H.samp w' _ _ _ _ _ _ hp
      exact ⟨x, by rw [o1, o3]; exact h1, h2.cons o4⟩

theorem ctx_init : CtxInv env m alg k s0 dp tm tb f get (init env m alg k s0 dp tm tb) [] where
  len := by simp [init]
  steps := by intro w j s _ hj; simp [stepsOf, trialOf] at hj
  samp := by
    intro w cur a c path rs new hw
    simp only [init, List.getElem?_replicate] at hw
    split at hw <;> simp at hw

theorem reach_ctx (hv : alg.Valid) (C : CtxKeeps alg get f) (htb : Leftover tb) {st : St S A R X Y} {h : List (Event S A R)}
    (hr : Reachable env m alg k s0 dp tm tb st h) :
    Inv env m s0 dp tm st h ∧ CtxInv env m alg k s0 dp tm tb f get st h := by
  refine reach_induct (fun st h => Inv env m s0 dp tm st h ∧ CtxInv env m alg k s0 dp tm tb f get st h)
    ⟨inv_init env m alg k s0 dp tm tb htb, ctx_init⟩ ?_ hr
  intro st h w e st' hr ih _ E
  exact ⟨inv_eff hv ih.1 E, ctx_eff C hr ih.1 ih.2 E⟩

/-- A node that is about to be backed up finds what the trial stored there. -/
theorem ctx_backD (I : Inv env m s0 dp tm st h) (H : CtxInv env m alg k s0 dp tm tb f get st h) {w d : Nat} {nodes : List (Nat × Nat)}
    {before after : List R} {ret tot : R} (hw : st.ws[w]? = some (.backD d nodes before after ret tot)) {nd : DNode S A R X}
    (hd : st.dn[d]? = some nd) : ∃ a c x, childC st d a = some c ∧ get (st.ctxOf w) nd.depth = some x ∧
      Stored env m alg k s0 dp tm tb f h w d a c x := by
  obtain ⟨e, hv, j, s, h1, h2, h3, h4, h5, _⟩ := I.ws w _ hw
  obtain ⟨nd', g1, g2⟩ := (base_depth I.tree h4).2 j s h1
  subst h2
  rw [hd] at g1
  obtain rfl := Option.some.inj g1
  obtain ⟨x, k1, k2⟩ := H.steps w j s (List.getElem?_eq_some_iff.1 hw).1 h1
  exact ⟨s.a, s.c, x, (isPath_mem h4.1 s (List.mem_of_getElem? h1)).1, by rw [g2]; exact k1, k2⟩

/-- A node that is not the root, about to select an action or to be backed up, finds what the trial stored at the parent it came
from. -/
theorem ctx_parent (I : Inv env m s0 dp tm st h) (H : CtxInv env m alg k s0 dp tm tb f get st h) {w d : Nat}
    (hw : (∃ path rs new, st.ws[w]? = some (.sel d path rs new)) ∨
      (∃ nodes before after ret tot, st.ws[w]? = some (.backD d nodes before after ret tot))) {nd : DNode S A R X}
    (hd : st.dn[d]? = some nd) : nd.depth = dp ∨ ∃ s x, s ∈ stepsOf w h ∧ s.d' = d ∧ get (st.ctxOf w) (nd.depth - 1) = some x ∧
      Stored env m alg k s0 dp tm tb f h w s.d s.a s.c x := by
  -- the position of the node in the trial
  have key : ∃ j : Nat, nd.depth = dp + j ∧ IsPath env st st.root ((stepsOf w h).take j) d ∧ j ≤ (stepsOf w h).length ∧ w < st.ws.length := by
    rcases hw with ⟨path, rs, new, hw⟩ | ⟨nodes, before, after, ret, tot, hw⟩
    · obtain ⟨B, _⟩ := I.ws w _ hw
      refine ⟨(stepsOf w h).length, (base_depth I.tree B).1 nd hd, ?_, Nat.le_refl _, (List.getElem?_eq_some_iff.1 hw).1⟩
      rw [List.take_length]
      exact B.1
    · obtain ⟨e, hv, j, s, h1, h2, h3, h4, h5, _⟩ := I.ws w _ hw
      obtain ⟨nd', g1, g2⟩ := (base_depth I.tree h4).2 j s h1
      subst h2
      rw [hd] at g1
      obtain rfl := Option.some.inj g1
      exact ⟨j, g2, isPath_take h4.1 h1, Nat.le_of_lt (List.getElem?_eq_some_iff.1 h1).1, (List.getElem?_eq_some_iff.1 hw).1⟩
  obtain ⟨j, hj, hp, hle, hwl⟩ := key
  cases j with
  | zero => left; simpa using hj
  | succ j =>
    right
    have hlt : j < (stepsOf w h).length := hle
    obtain ⟨s, hs⟩ : ∃ s, (stepsOf w h)[j]? = some s := ⟨_, List.getElem?_eq_getElem hlt⟩
    obtain ⟨x, k1, k2⟩ := H.steps w j s hwl hs
    refine ⟨s, x, List.mem_of_getElem? hs, ?_, ?_, k2⟩
    · rw [List.take_add_one, hs] at hp
      simp only [Option.toList_some] at hp
      have : ∀ (l : List (Step S A R)) (b : Nat), IsPath env st b (l ++ [s]) d → s.d' = d := by
        intro l
        induction l with
        | nil => intro b hb; exact hb.2.2.2.2
        | cons t l ih => intro b hb; exact ih _ hb.2.2.2.2
      exact this _ _ hp
    · have : nd.depth - 1 = dp + (j : Int) := by rw [hj]; push_cast; omega
      rw [this]
      exact k1

end

end Verif.Search
