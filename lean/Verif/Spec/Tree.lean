import Verif.Spec.Backups

/-! # The value of a search tree, and of a game -/

namespace Verif.Backups

open Verif.Search

section
variable {𝕜 : Type} [Field 𝕜] [LinearOrder 𝕜]

/-- The best of some values for the player to move: the largest; for the opponent the smallest (0 if there are none). -/
def bestOf (opp : Bool) (l : List 𝕜) : 𝕜 := if opp then l.min?.getD 0 else l.max?.getD 0

variable {S A X Y : Type}

/-- Number of trials that selected an action at decision node `d`. -/
def trialsThrough (d : Nat) (h : List (Event S A 𝕜)) : Nat :=
  h.countP (fun e => match e with | .selected _ d' _ _ => d' == d | _ => false)

/-- The weight of decision node `d` in its parent's mean: one for its heuristic value, one for every trial that went on from it, and
one for every trial that ended in it if it is a leaf. -/
def weightD (env : Env S A 𝕜) (m : Manager S 𝕜) (st : St S A 𝕜 X Y) (h : List (Event S A 𝕜)) (d : Nat) : Nat :=
  match st.dn[d]? with
  | none => 0
  | some nd => 1 + trialsThrough d h + if isLeaf env m nd then trialsEndedAt d h else 0

/-- The value of a chance node, given the values of the nodes below it: its reward plus their weighted mean. -/
def chanceValue (env : Env S A 𝕜) (m : Manager S 𝕜) (lr : S → A → 𝕜) (st : St S A 𝕜 X Y) (h : List (Event S A 𝕜)) (below : Nat → 𝕜)
    (nc : CNode S A 𝕜 Y) : 𝕜 :=
  lr nc.state nc.action + wmean (nc.kids.map fun q => (weightD env m st h q.2, below q.2))

/-- The value of the tree below decision node `d`, for trees of height at most `n`: the heuristic value of a node without children;
otherwise the best, for the player to move, of the values of its children. -/
def treeValue (env : Env S A 𝕜) (m : Manager S 𝕜) (lr : S → A → 𝕜) (st : St S A 𝕜 X Y) (h : List (Event S A 𝕜)) : Nat → Nat → 𝕜
  | 0, d => (st.dn[d]?).elim 0 fun nd => nd.heur
  | n + 1, d => (st.dn[d]?).elim 0 fun nd =>
      if nd.kids = [] then nd.heur
      else bestOf (isOpponent m nd.time)
        (nd.kids.map fun p => (st.cn[p.2]?).elim 0 (chanceValue env m lr st h (treeValue env m lr st h n)))

/-- The value of the game from state `s` at timestep `t` with `n` moves to go: at a sink or when no move is left, the heuristic value
(0 at a sink); otherwise the best, for the player to move, over the actions, of the reward plus the value of the next state.
`next s a` is the successor of `s` by `a` in a deterministic environment. -/
def gameValue (env : Env S A 𝕜) (m : Manager S 𝕜) (next : S → A → S) : Nat → Int → S → 𝕜
  | 0, _, s => heurOf env m s
  | n + 1, t, s =>
    if env.isSink s then 0
    else bestOf (isOpponent m t) ((env.actions s).map fun a => env.reward s a (next s a) + gameValue env m next n (t + 1) (next s a))

/-- The search has tried everything: every node that is not a leaf has a child for every action. -/
def Exhausted (env : Env S A 𝕜) (m : Manager S 𝕜) [DecidableEq A] (st : St S A 𝕜 X Y) : Prop :=
  ∀ (d : Nat) nd, st.dn[d]? = some nd → isLeaf env m nd = false → ∀ a ∈ env.actions nd.state, ∃ c, childC st d a = some c

end

end Verif.Backups
