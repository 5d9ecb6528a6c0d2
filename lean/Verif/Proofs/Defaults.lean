import Verif.Spec.Defaults
import Verif.Proofs.Calls
import Verif.Props.Live

/-! # The depth limit does not matter where no node is cut off -/

namespace Verif.Random

open Verif.Search
open Verif.Eval (mean1)

section
variable {S A R X Y : Type} [DecidableEq S] [DecidableEq A] [AddMonoid R] {env : Env S A R} {m : Manager S R} {alg : Alg S A R X Y}
  {k : Nat} {s0 : S} {dp tm M : Int} {tb : List ((Int × S) × Option Nat)} {st : St S A R X Y} {h : List (Event S A R)}

/-- The two limits agree on which nodes of the tree are leaves. -/
def Agree (env : Env S A R) (m : Manager S R) (M : Int) (st : St S A R X Y) : Prop :=
  ∀ (d : Nat) nd, st.dn[d]? = some nd → isLeaf env (withLimit m M) nd = isLeaf env m nd

theorem continue_limit {nd : DNode S A R X} {new : Bool} (hl : isLeaf env (withLimit m M) nd = isLeaf env m nd) :
    shouldContinue env (withLimit m M) nd new = shouldContinue env m nd new := by
  unfold shouldContinue
  rw [hl]
  rfl

theorem step_limit (hag : Agree env m M st) (w : Nat) (ch : Choice S A) : step env (withLimit m M) alg st w ch = step env m alg st w ch := by
  unfold step
  split
  · rfl
  cases hw : st.ws[w]? with
  | none => rfl
  | some ph =>
    cases ph with
    | sel cur path rs new =>
      dsimp only
      cases hd : st.dn[cur]? with
      | none => rfl
      | some nd =>
        have hl := hag cur nd hd
        dsimp only
        rw [continue_limit hl]
        split
        · rfl
        · cases ch with
          | go => simp only [blockEnd, hl]
          | act a => rfl
          | obs o => rfl
    | _ => rfl

theorem reach_limit {T : List (Event S A R) → Prop} (hT : ∀ e h, T (e :: h) → T h)
    (hag : ∀ st h, Reachable env m alg k s0 dp tm tb st h → T h → Agree env m M st)
    (hr : Reachable env m alg k s0 dp tm tb st h) (ht : T h) : Reachable env (withLimit m M) alg k s0 dp tm tb st h := by
  obtain ⟨ls, hx⟩ := hr
  induction ls using List.reverseRecOn generalizing st h with
  | nil =>
    refine ⟨[], ?_⟩
    rw [← hx]
    rfl
  | append_singleton ls p ih =>
    obtain ⟨w, ch⟩ := p
    rw [exec_snoc] at hx
    obtain ⟨q, hq, hx⟩ := Option.bind_eq_some_iff.1 hx
    obtain ⟨r, hr, hx⟩ := Option.map_eq_some_iff.1 hx
    obtain ⟨rfl, rfl⟩ := Prod.mk.inj hx
    have ht' := hT _ _ ht
    refine reach_snoc (w := w) (ch := ch) (ih ht' hq) ?_
    rw [step_limit (hag _ _ ⟨ls, hq⟩ ht'), hr]

/-- Runs of a search within the bound, from a reachable state. -/
theorem exec_limit {T : List (Event S A R) → Prop} (hT : ∀ e h, T (e :: h) → T h)
    (hag : ∀ st h, Reachable env m alg k s0 dp tm tb st h → T h → Agree env m M st) {ls : List (Nat × Choice S A)} {st' : St S A R X Y}
    {h' : List (Event S A R)} (hr : Reachable env m alg k s0 dp tm tb st h) (hx : execFrom env m alg st h ls = some (st', h')) (ht : T h') :
    execFrom env (withLimit m M) alg st h ls = some (st', h') := by
  induction ls using List.reverseRecOn generalizing st' h' with
  | nil => rw [← hx]; rfl
  | append_singleton ls p ih =>
    obtain ⟨w, ch⟩ := p
    have hx0 := hx
    rw [exec_snoc] at hx ⊢
    obtain ⟨q, hq, hx⟩ := Option.bind_eq_some_iff.1 hx
    obtain ⟨r, hr', hx⟩ := Option.map_eq_some_iff.1 hx
    obtain ⟨rfl, rfl⟩ := Prod.mk.inj hx
    have ht' := hT _ _ ht
    rw [ih hq ht', Option.bind_some, step_limit (hag _ _ (reach_append hr hq) ht'), hr']
    rfl

theorem draws_limit {D : Dice S A R X Y} (hag : Agree env m M st) (w : Nat) : draws env (withLimit m M) alg D st w = draws env m alg D st w := by
  unfold draws
  cases hw : st.ws[w]? with
  | none => rfl
  | some ph =>
    cases ph with
    | sel cur path rs new =>
      dsimp only
      cases hd : st.dn[cur]? with
      | none => rfl
      | some nd =>
        dsimp only
        rw [continue_limit (hag cur nd hd)]
        rfl
    | _ => rfl

theorem expect_limit {D : Dice S A R X Y} {N : Nat} {sched : Scheduler S A R} {f : St S A R X Y → List (Event S A R) → ℝ}
    (hag : ∀ st h, Reachable env m alg k s0 dp tm tb st h → Agree env m M st) (n : Nat) : ∀ {st h}, Reachable env m alg k s0 dp tm tb st h →
    expectAfter env (withLimit m M) alg D N sched f n st h = expectAfter env m alg D N sched f n st h := by
  induction n with
  | zero => intro st h _; rfl
  | succ n ih =>
    intro st h hr
    have hA := hag _ _ hr
    simp only [expectAfter, draws_limit hA, step_limit hA]
    split
    · congr 1
      funext ch
      cases hs : step env m alg st (sched h) ch with
      | none => exact ih hr
      | some p => exact ih (reach_snoc hr hs)
    · exact ih hr

/-- A play that cannot be made longer ends in a sink. -/
theorem ends_sink (hl : env.Live) {L : Nat} {l : List (A × S)} (he : EndsWithin env L s0) (hp : ValidPlay env s0 l) (hn : l.length = L) :
    env.isSink (endState s0 l) = true := by
  by_contra hs
  have hs : env.isSink (endState s0 l) = false := by simpa using hs
  obtain ⟨a, ha⟩ := List.exists_mem_of_ne_nil _ (hl.acts _ hs)
  obtain ⟨o, ho⟩ := List.exists_mem_of_ne_nil _ (hl.succs _ hs a ha)
  have := he _ (validPlay_snoc hp hs ha ho)
  simp at this
  omega

/-- Limits beyond the end of all episodes agree. -/
theorem ends_agree (hl : env.Live) (hv : alg.Valid) (htb : Leftover tb) {L : Nat} (he : EndsWithin env L s0) (h1 : dp + L ≤ m.maxDepth)
    (h2 : dp + L ≤ M) (hr : Reachable env m alg k s0 dp tm tb st h) : Agree env m M st := by
  intro d nd hd
  have T := (reach_inv hv htb hr).tree
  obtain ⟨nr, g1, g2, g3, _⟩ := root_node T
  have hdep := (T.heap.dTime d nd.skel (by simp [hd])).2
  simp only [DNode.skel] at hdep
  obtain ⟨l, k1, k2, k3⟩ := every_node hv htb hr (nd.depth - dp).toNat d nd hd (by omega)
  have hlen := he l k2
  simp only [isLeaf, withLimit]
  by_cases hL : l.length = L
  · obtain ⟨nd', q1, q2, _⟩ := k1.node T g1
    rw [hd] at q1
    obtain rfl := Option.some.inj q1
    rw [g2] at q2
    rw [q2, ends_sink hl he k2 hL]
    simp
  · have e1 : ¬ m.maxDepth ≤ nd.depth := by omega
    have e2 : ¬ M ≤ nd.depth := by omega
    simp [e1, e2]

theorem leads_prefix {d e : Nat} {l1 l2 : List (A × S)} : ∀ {d : Nat}, Eval.Leads st d (l1 ++ l2) e → ∃ e', Eval.Leads st d l1 e' := by
  induction l1 with
  | nil => intro d _; exact ⟨d, .nil d⟩
  | cons p l1 ih =>
    intro d hx
    cases hx with
    | cons a1 a2 a3 =>
      obtain ⟨e', he⟩ := ih a3
      exact ⟨e', .cons a1 a2 he⟩

/-- In mcts mode the tree is no deeper than the number of trials. -/
theorem mcts_depth (hv : alg.Valid) (htb : Leftover tb) (hr : Reachable env m alg k s0 dp tm tb st h) (hm : m.mctsMode = true) {d : Nat}
    {nd : DNode S A R X} (hd : st.dn[d]? = some nd) : nd.depth ≤ dp + trialsBegun h := by
  have T := (reach_inv hv htb hr).tree
  obtain ⟨nr, g1, g2, g3, _⟩ := root_node T
  have hdep := (T.heap.dTime d nd.skel (by simp [hd])).2
  simp only [DNode.skel] at hdep
  obtain ⟨n, hn⟩ : ∃ n : Nat, nd.depth = dp + n := ⟨(nd.depth - dp).toNat, by omega⟩
  obtain ⟨l, k1, k2, k3⟩ := every_node hv htb hr n d nd hd hn
  have key : ∀ j : Fin (n + 1), ∃ (e : Fin st.dn.length) (ne : DNode S A R X), st.dn[e.1]? = some ne ∧ ne.depth = dp + j := by
    intro j
    have k1' := k1
    rw [← List.take_append_drop j.1 l] at k1'
    obtain ⟨e, q1⟩ := leads_prefix (d := d) k1'
    obtain ⟨ne, r1, _, r3, _⟩ := q1.node T g1
    refine ⟨⟨e, (List.getElem?_eq_some_iff.1 r1).1⟩, ne, r1, ?_⟩
    have := j.2
    rw [r3, g3, List.length_take, k3, Nat.min_eq_left (by omega)]
  choose f hf using key
  have hinj : Function.Injective f := by
    intro i j hij
    obtain ⟨n1, a1, a2⟩ := hf i
    obtain ⟨n2, b1, b2⟩ := hf j
    rw [hij, b1] at a1
    obtain rfl := Option.some.inj a1
    exact Fin.ext (by omega)
  have hcard := Fintype.card_le_of_injective f hinj
  simp only [Fintype.card_fin] at hcard
  have := c11_one_node_per_trial hv htb hr hm
  omega

/-- In mcts mode, limits beyond the number of trials agree. -/
theorem mcts_agree (hv : alg.Valid) (htb : Leftover tb) (hm : m.mctsMode = true) {N : Nat} (h1 : dp + N < m.maxDepth)
    (h2 : dp + N < M) (hr : Reachable env m alg k s0 dp tm tb st h) (hb : trialsBegun h ≤ N) : Agree env m M st := by
  intro d nd hd
  have := mcts_depth hv htb hr hm hd
  have e1 : ¬ m.maxDepth ≤ nd.depth := by omega
  have e2 : ¬ M ≤ nd.depth := by omega
  simp [isLeaf, withLimit, e1, e2]

end

end Verif.Random
