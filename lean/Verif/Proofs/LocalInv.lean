import Verif.Proofs.Dp
import Verif.Proofs.CtxInv

/-! # Invariants of the node data that only relate a node to itself and to its children -/

namespace Verif.Backups

open Verif.Search

set_option linter.unusedSectionVars false

variable {S A 𝕜 X Y : Type} [DecidableEq S] [DecidableEq A] [AddMonoid 𝕜]

/-- `P` holds of the data of every decision node (given its state, depth and timestep) and `Q` of the data of every chance node,
if the algorithm's constructors, visits and backups establish and preserve them.  `KD` and `KC` are facts about the node data, and
`KX` about the context a node is backed up with, that are known already. -/
structure LocalInvG (env : Env S A 𝕜) (m : Manager S 𝕜) (alg : Alg S A 𝕜 X Y) (KD : X → Prop) (KC : Y → Prop)
    (KX : View S A X Y → Ctx A 𝕜 → Prop) (P : S → Int → Int → X → Prop) (Q : S → A → Int → Int → Y → Prop) : Prop where
  initD : ∀ s d t, P s d t (alg.initD s d t (heurOf env m s))
  initC : ∀ s a d t, a ∈ env.actions s → Q s a d t (alg.initC s a d t)
  visitD : ∀ b s d t x, P s d t x → P s d t (alg.visitD b x)
  visitC : ∀ s a d t y, Q s a d t y → Q s a d t (alg.visitC y)
  backupD : ∀ (v : View S A X Y) ctx args, v.actions = env.actions v.state → v.opp = isOpponent m v.time →
    (∃ k, k ∈ v.kids) → (v.kids.map Prod.fst).Nodup → (∀ k ∈ v.kids, k.1 ∈ v.actions) →
    KD v.x → (∀ k ∈ v.kids, KC k.2.2) → KX v ctx →
    P v.state v.depth v.time v.x → (∀ k ∈ v.kids, Q v.state k.1 v.depth v.time k.2.2) →
    P v.state v.depth v.time (alg.backupD v ctx args)
  backupC : ∀ s a d t y (kids : List (S × X)) args, KC y → (∀ k ∈ kids, KD k.2) → Q s a d t y →
    (∀ k ∈ kids, k.1 ∈ env.succ s a ∧ P k.1 (d + 1) (t + 1) k.2) → Q s a d t (alg.backupC s a y kids args)

/-- Without previous knowledge. -/
abbrev LocalInv (env : Env S A 𝕜) (m : Manager S 𝕜) (alg : Alg S A 𝕜 X Y) (P : S → Int → Int → X → Prop)
    (Q : S → A → Int → Int → Y → Prop) : Prop := LocalInvG env m alg (fun _ => True) (fun _ => True) (fun _ _ => True) P Q

variable {env : Env S A 𝕜} {m : Manager S 𝕜} {alg : Alg S A 𝕜 X Y} {P : S → Int → Int → X → Prop} {Q : S → A → Int → Int → Y → Prop}
  {KD : X → Prop} {KC : Y → Prop} {KX : View S A X Y → Ctx A 𝕜 → Prop}

/-- All nodes satisfy the invariant. -/
structure AllLocal (P : S → Int → Int → X → Prop) (Q : S → A → Int → Int → Y → Prop) (st : St S A 𝕜 X Y) : Prop where
  d : ∀ (d : Nat) nd, st.dn[d]? = some nd → P nd.state nd.depth nd.time nd.x
  c : ∀ (c : Nat) nc, st.cn[c]? = some nc → Q nc.state nc.action nc.depth nc.time nc.y

theorem kidsY_nodup {s0 : S} {dp tm : Int} {st : St S A 𝕜 X Y} (T : Tree env m s0 dp tm st) {d : Nat} {nd : DNode S A 𝕜 X}
    (hd : st.dn[d]? = some nd) : ((kidsY st nd).map Prod.fst).Nodup := by
  have h1 : (st.dn.map DNode.skel)[d]? = some nd.skel := by simp [hd]
  have h2 := T.heap.dNodup d nd.skel h1
  have h3 : (nd.kids.map Prod.fst).Nodup := h2
  have h4 : ((kidsY st nd).map Prod.fst).Sublist (nd.kids.map Prod.fst) := by
    unfold kidsY
    clear h1 h2 h3
    induction nd.kids with
    | nil => simp
    | cons p l ih =>
      rw [List.filterMap_cons]
      cases hc : st.cn[p.2]? with
      | none => simp only [Option.map_none, List.map_cons]; exact ih.cons _
      | some nc => simp only [Option.map_some, List.map_cons]; exact ih.cons_cons _
  exact h4.nodup h3

theorem local_eff (L : LocalInvG env m alg KD KC KX P Q) (hv : alg.Valid) {s0 : S} {dp tm : Int} {st st' : St S A 𝕜 X Y} {h : List (Event S A 𝕜)} {w : Nat}
    {e : Event S A 𝕜} (I : Inv env m s0 dp tm st h)
    (KDs : ∀ (d : Nat) nd, st.dn[d]? = some nd → KD nd.x) (KCs : ∀ (c : Nat) nc, st.cn[c]? = some nc → KC nc.y)
    (KXs : ∀ (w d : Nat) nodes before after ret tot nd, st.ws[w]? = some (.backD d nodes before after ret tot) → st.dn[d]? = some nd →
      KX (viewOf env m st nd) (st.ctxOf w))
    (D : AllLocal P Q st) (E : Eff env m alg st w e st') :
    AllLocal P Q st' := by
  have T' : Tree env m s0 dp tm st' := tree_eff hv I.tree E
  constructor
  · intro d nd' hd'
    rcases dn_chg E hd' with ⟨nd, hd, hchg⟩ | ⟨rfl, ht, s, dep, tim, rfl⟩
    · have h1 := D.d d nd hd
      cases hchg with
      | same he => exact h1
      | selOld hl ha hf => exact L.visitD _ _ _ _ _ h1
      | selNew hl ha hf => exact L.visitD _ _ _ _ _ h1
      | ended => exact L.visitD _ _ _ _ _ h1
      | @backed w' args =>
        obtain ⟨hww, nodes, nd0, hw, _⟩ := eff_backedD E
        subst hww
        obtain ⟨nd1, a, c, nc, k1, k2, k3, k4⟩ := backD_kid I hw
        rw [hd] at k1
        obtain rfl := Option.some.inj k1
        have hk : ∀ k ∈ kidsY st nd, k.1 ∈ env.actions nd.state ∧ Q nd.state k.1 nd.depth nd.time k.2.2 ∧ KC k.2.2 := by
          intro k hk
          obtain ⟨c', nc', g1, g2, g3⟩ := mem_kidsY.1 hk
          obtain ⟨nd2, nc2, f1, f2, _, f4, f5, f6, f7, f8⟩ := childC_facts I.tree (childC_of_mem I.tree hd g1)
          rw [hd] at f1
          obtain rfl := Option.some.inj f1
          rw [g2] at f2
          obtain rfl := Option.some.inj f2
          have := D.c c' nc' g2
          rw [f4, f5, f6, f7] at this
          rw [g3]
          exact ⟨f8, this, KCs c' nc' g2⟩
        exact L.backupD (viewOf env m st nd) _ args rfl rfl ⟨(a, nc.visits, nc.y), mem_kidsY.2 ⟨c, nc, k2, k3, rfl⟩⟩ (kidsY_nodup I.tree hd)
          (fun k hk' => (hk k hk').1) (KDs d nd hd) (fun k hk' => (hk k hk').2.2)
          (KXs _ _ _ _ _ _ _ _ hw hd) h1 (fun k hk' => (hk k hk').2.1)
    · exact L.initD _ _ _
  · intro c nc' hc'
    rcases cn_chg E hc' with ⟨nc, hc, hchg⟩ | ⟨rfl, ht, nd, a, rfl⟩
    · have h1 := D.c c nc hc
      cases hchg with
      | same he => exact h1
      | stepped ho hk => exact L.visitC _ _ _ _ _ h1
      | @backed w' args =>
        refine L.backupC _ _ _ _ _ _ _ (KCs c nc hc) ?_ h1 ?_
        · intro k hk
          obtain ⟨d', nd', g1, g2, g3⟩ := mem_kidsX.1 hk
          rw [g3]
          exact KDs d' nd' g2
        intro k hk
        obtain ⟨d', nd', g1, g2, g3⟩ := mem_kidsX.1 hk
        obtain ⟨nc2, nd2, f1, f2, _, f4, f5, f6, f7⟩ := childD_facts I.tree (childD_of_mem I.tree hc g1)
        rw [hc] at f1
        obtain rfl := Option.some.inj f1
        rw [g2] at f2
        obtain rfl := Option.some.inj f2
        have := D.d d' nd' g2
        rw [f4, f5, f6] at this
        rw [g3]
        exact ⟨f7, this⟩
    · refine L.initC _ _ _ _ ?_
      have h1 : (st'.cn.map CNode.skel)[st.cn.length]? = some (newC alg nd a).skel := by simp [hc']
      obtain ⟨i, d, g1, g2⟩ := T'.heap.cPar _ _ h1
      obtain ⟨n, g3, g4, _⟩ := T'.heap.dKid i d _ _ g1 g2
      rw [h1] at g3
      obtain rfl := Option.some.inj g3
      have := T'.heap.dAct i d _ _ g1 g2
      rw [← g4] at this
      exact this

/-- The invariant in every reachable state, given the previous knowledge there. -/
theorem local_reach_given (L : LocalInvG env m alg KD KC KX P Q) (hv : alg.Valid) {k : Nat} {s0 : S} {dp tm : Int}
    {tb : List ((Int × S) × Option Nat)} (htb : Leftover tb)
    (hK : ∀ (st : St S A 𝕜 X Y) h, Reachable env m alg k s0 dp tm tb st h →
      (∀ (d : Nat) nd, st.dn[d]? = some nd → KD nd.x) ∧ (∀ (c : Nat) nc, st.cn[c]? = some nc → KC nc.y) ∧
      (∀ (w d : Nat) nodes before after ret tot nd, st.ws[w]? = some (.backD d nodes before after ret tot) → st.dn[d]? = some nd →
        KX (viewOf env m st nd) (st.ctxOf w)))
    {st : St S A 𝕜 X Y} {h : List (Event S A 𝕜)}
    (hr : Reachable env m alg k s0 dp tm tb st h) : Inv env m s0 dp tm st h ∧ AllLocal P Q st := by
  refine reach_induct (fun st h => Inv env m s0 dp tm st h ∧ AllLocal P Q st)
    ⟨inv_init env m alg k s0 dp tm tb htb, ⟨by
      intro d nd hd
      rcases d with _ | d
      · simp [init] at hd
        subst hd
        exact L.initD _ _ _
      · simp [init] at hd, by
      intro c nc hc
      simp [init] at hc⟩⟩ ?_ hr
  intro st h w e st' hr' hp _ E
  obtain ⟨k1, k2, k3⟩ := hK st h hr'
  exact ⟨inv_eff hv hp.1 E, local_eff L hv hp.1 k1 k2 k3 hp.2 E⟩

theorem local_reach (L : LocalInv env m alg P Q) (hv : alg.Valid) {k : Nat} {s0 : S} {dp tm : Int} {tb : List ((Int × S) × Option Nat)}
    (htb : Leftover tb) {st : St S A 𝕜 X Y} {h : List (Event S A 𝕜)}
    (hr : Reachable env m alg k s0 dp tm tb st h) : Inv env m s0 dp tm st h ∧ AllLocal P Q st :=
  local_reach_given L hv htb (fun _ _ _ => ⟨fun _ _ _ => trivial, fun _ _ _ => trivial, fun _ _ _ _ _ _ _ _ _ _ => trivial⟩) hr

end Verif.Backups
