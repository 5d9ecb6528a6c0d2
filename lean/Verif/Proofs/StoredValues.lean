import Verif.Proofs.Owed
import Verif.Proofs.SearchPrefix

/-! # When values of actions stored in decision nodes are the current ones -/

set_option linter.unusedSectionVars false
set_option linter.unusedSimpArgs false

namespace Verif.Search

variable {S A R X Y V : Type} [DecidableEq S] [DecidableEq A] [AddMonoid R]
  {env : Env S A R} {m : Manager S R} {alg : Alg S A R X Y} {k : Nat} {s0 : S} {dp tm : Int}
  {tb : List ((Int × S) × Option Nat)} {st st' : St S A R X Y} {h : List (Event S A R)}
  {stored : X → A → Option V} {cur : View S A X Y → A → Option V}

/-- Every action without an outstanding backup has its current value stored. -/
def ValuesCurrent (env : Env S A R) (m : Manager S R) (stored : X → A → Option V) (cur : View S A X Y → A → Option V) (st : St S A R X Y)
    (h : List (Event S A R)) : Prop :=
  ∀ (d : Nat) nd a, st.dn[d]? = some nd → a ∈ env.actions nd.state → Settled st h d a → stored nd.x a = cur (viewOf env m st nd) a

/-- The decision nodes store values `stored` of the actions: the current values `cur` when the node is made, and a backup updates that of the action the trial selected,
which it finds in its context. -/
structure StoresValues (env : Env S A R) (m : Manager S R) (alg : Alg S A R X Y) (k : Nat) (s0 : S) (dp tm : Int) (tb : List ((Int × S) × Option Nat))
    (stored : X → A → Option V) (cur : View S A X Y → A → Option V) : Prop where
  congr : ∀ {v v' : View S A X Y} {a}, v'.state = v.state → v'.opp = v.opp → (find? a v'.kids).map Prod.snd = (find? a v.kids).map Prod.snd → cur v' a = cur v a
  init : ∀ (st : St S A R X Y) s dep tim a, a ∈ env.actions s → stored (newD env m alg s dep tim).x a = cur (viewOf env m st (newD env m alg s dep tim)) a
  visitC : ∀ y, alg.visitC y = y
  visit : ∀ b x a, stored (alg.visitD b x) a = stored x a
  backup : ∀ {st h}, Reachable env m alg k s0 dp tm tb st h → ∀ {w d : Nat} {nd : DNode S A R X} {b : A} (args : BArgs R), st.dn[d]? = some nd → b ∈ env.actions nd.state →
    find? nd.depth (st.ctxOf w).acts = some b → ∀ a ∈ env.actions nd.state,
      stored (alg.backupD (viewOf env m st nd) (st.ctxOf w) args) a = if a = b then cur (viewOf env m st nd) b else stored nd.x a

theorem values_eff (G : StoresValues env m alg k s0 dp tm tb stored cur) (hv : alg.Valid) (C : CtxKeeps alg (fun ctx k => find? k ctx.acts) (fun _ _ a => a))
    (htb : Leftover tb) {w : Nat} {e : Event S A R} (hr : Reachable env m alg k s0 dp tm tb st h) (H : ValuesCurrent env m stored cur st h)
    (E : Eff env m alg st w e st') : ValuesCurrent env m stored cur st' (e :: h) := by
  obtain ⟨I, CI⟩ := reach_ctx hv C htb hr
  have T' := tree_eff hv I.tree E
  intro d nd' a hd' ha hS
  rcases dn_chg E hd' with ⟨nd, hd, hchg⟩ | ⟨rfl, _, s, dep, tim, rfl⟩
  swap
  · exact G.init st' s dep tim a ha
  -- the current value does not change
  have hkid : ∀ nd0 : DNode S A R X, nd0.kids = nd.kids →
      find? a (kidsY st nd0) = (childC st d a).bind fun c => (st.cn[c]?).map fun nc => (nc.visits, nc.y) := by
    intro nd0 hk
    rw [find?_kidsY I.tree hd hk a]
    simp [childC, hd]
  have hkid' : find? a (kidsY st' nd') = (childC st' d a).bind fun c => (st'.cn[c]?).map fun nc => (nc.visits, nc.y) := by
    rw [find?_kidsY T' hd' rfl a]
    simp [childC, hd']
  have hchild : childC st' d a = childC st d a := by
    simp only [childC, hd, hd', Option.bind_some]
    cases hchg with
    | same he => rfl
    | selOld hl ha hf => rfl
    | @selNew w' b hl hb hf =>
      dsimp only
      rw [find?_append]
      have hne : b ≠ a := by
        rintro rfl
        exact settled_not_selected I E hS rfl
      cases find? a nd.kids with
      | none => simp [hne]
      | some c => rfl
    | ended => rfl
    | backed => rfl
  have hy : ((childC st' d a).bind fun c => (st'.cn[c]?).map fun nc => (nc.visits, nc.y)).map Prod.snd =
      ((childC st d a).bind fun c => (st.cn[c]?).map fun nc => (nc.visits, nc.y)).map Prod.snd := by
    rw [hchild]
    cases hc : childC st d a with
    | none => rfl
    | some c =>
      simp only [Option.bind_some]
      obtain ⟨_, nc, _, hcn, _⟩ := childC_facts I.tree hc
      obtain ⟨nc', hcn', _⟩ := (le_eff E).c c nc hcn
      rw [hcn, hcn']
      simp only [Option.map_some, Option.some.injEq]
      rcases cn_chg E hcn' with ⟨nc2, h2, hchgc⟩ | ⟨rfl, _⟩
      · rw [hcn] at h2
        obtain rfl := Option.some.inj h2
        cases hchgc with
        | same he => rfl
        | stepped ho hk => exact G.visitC _
        | backed => exact absurd rfl (settled_not_backedC I E hS hc)
      · simp at hcn
  have hst : nd'.state = nd.state ∧ nd'.time = nd.time := by cases hchg <;> exact ⟨rfl, rfl⟩
  rw [hst.1] at ha
  have hQ : cur (viewOf env m st' nd') a = cur (viewOf env m st nd) a := by
    refine G.congr hst.1 (by simp [viewOf, hst.2]) ?_
    show (find? a (kidsY st' nd')).map Prod.snd = (find? a (kidsY st nd)).map Prod.snd
    rw [hkid', hkid nd rfl]
    exact hy
  rw [hQ]
  -- the stored value
  cases hchg with
  | same he =>
    rcases settled_back I E hS with hS0 | ⟨args, rfl⟩
    · exact H d nd' a hd ha hS0
    · simp [Event.touchesD] at he
  | selOld hl ha' hf =>
    rcases settled_back I E hS with hS0 | ⟨args, he⟩
    · exact (G.visit _ _ _).trans (H d nd a hd ha hS0)
    · simp at he
  | selNew hl ha' hf =>
    rcases settled_back I E hS with hS0 | ⟨args, he⟩
    · exact (G.visit _ _ _).trans (H d nd a hd ha hS0)
    · simp at he
  | ended =>
    rcases settled_back I E hS with hS0 | ⟨args, he⟩
    · exact (G.visit _ _ _).trans (H d nd a hd ha hS0)
    · simp at he
  | @backed w' args =>
    obtain ⟨hww, nodes, nd0, hw, _⟩ := Backups.eff_backedD E
    subst hww
    -- the action the trial selected here
    obtain ⟨e, hv, j, s, g1, g2, g3, g4, g5, g6, _⟩ := I.ws w' _ hw
    obtain ⟨nd1, f1, f2⟩ := (base_depth I.tree g4).2 j s g1
    rw [g2, hd] at f1
    obtain rfl := Option.some.inj f1
    obtain ⟨x1, k1, e1, e0, _, _, st0, nd2, _, _, k2⟩ := CI.steps w' j s (List.getElem?_eq_some_iff.1 hw).1 g1
    rw [← f2] at k1
    subst k2
    have hs := (isPath_mem g4.1 s (List.mem_of_getElem? g1)).1
    rw [g2] at hs
    obtain ⟨nd3, nc3, m1, _, _, _, _, _, _, m2⟩ := childC_facts I.tree hs
    rw [hd] at m1
    obtain rfl := Option.some.inj m1
    refine (G.backup hr args hd m2 k1 a ha).trans ?_
    by_cases hsa : a = s.a
    · rw [if_pos hsa, hsa]
    · rw [if_neg hsa]
      -- this action was settled before
      refine H d nd a hd ha ?_
      intro w2 p2 hp2 hmem
      by_cases hne : w2 = w'
      · subst hne
        rw [hw] at hp2
        obtain rfl := Option.some.inj hp2
        have hj := (List.getElem?_eq_some_iff.1 g1).1
        have hl : nodes.length = j := by rw [g6, pairs_take_length hj.le]
        have hown := hS w2 _ (by
          have : st'.ws = st.ws.set w2 (.back nodes args.before args.after args.retAfter args.total) := by
            obtain ⟨_, nodes', nd', q1, _, q2⟩ := Backups.eff_backedD E
            rw [hw] at q1
            simp only [Option.some.injEq, Phase.backD.injEq] at q1
            rw [q2, q1.2.1]
          rw [this, List.getElem?_set_self (List.getElem?_eq_some_iff.1 hw).1])
        simp only [owed, st_bd, hl] at hown hmem
        rw [List.take_add_one, g1] at hmem
        simp only [dacts, Option.toList_some, List.map_append, List.map_cons, List.map_nil, List.mem_append, List.mem_singleton,
          Prod.mk.injEq] at hmem
        rcases hmem with h5 | h5
        · exact hown h5
        · exact hsa h5.2
      · have := hS w2 p2 (by rw [eff_ws_other E hne]; exact hp2)
        rw [owed_other E hne] at this
        exact this hmem

theorem values_reach (G : StoresValues env m alg k s0 dp tm tb stored cur) (hv : alg.Valid) (C : CtxKeeps alg (fun ctx k => find? k ctx.acts) (fun _ _ a => a))
    (htb : Leftover tb) (hr : Reachable env m alg k s0 dp tm tb st h) : ValuesCurrent env m stored cur st h := by
  refine reach_induct (fun st h => ValuesCurrent env m stored cur st h) ?_ ?_ hr
  · intro d nd a hd ha _
    rcases d with _ | d
    · simp [init] at hd
      subst hd
      exact G.init _ s0 dp tm a ha
    · simp [init] at hd
  · intro st h w e st' hr ih _ E
    exact values_eff G hv C htb hr ih E

end Verif.Search
