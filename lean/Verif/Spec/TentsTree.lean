import Verif.Spec.SoftTree
import Verif.Spec.Tents
import Verif.Spec.RandomSearch

/-! # The sparse minimax value of a search tree, and the random choices of TENTS and RENTS -/

namespace Verif.Tents

open Verif.Search Verif.Backups Verif.Ments Verif.Sampling Verif.Spec Verif.Random

variable {S A X Y : Type} [DecidableEq S] [DecidableEq A]

/-- The sparse maximum of values `Q a` (from the point of view of the player to move): temperature times the largest value, over all
distributions, of the expectation of `Q / temp` plus the Tsallis entropy. -/
noncomputable def sparseMax (temp : ℝ) (Q : A → ℝ) (actions : List A) : ℝ :=
  temp * sSup {x | ∃ p, IsDistr actions p ∧ x = tsallisObjective actions (fun a => Q a / temp) p}

/-- The sparse value of the tree below decision node `d`, for trees of height at most `n`: the heuristic value of a node without children;
otherwise the sparse maximum (for the opponent: minimum) over the actions, tried or not. -/
noncomputable def sparseTree (cfg : Cfg S A) (env : Env S A ℝ) (m : Manager S ℝ) (lr : S → A → ℝ) (st : St S A ℝ X Y) (h : List (Event S A ℝ)) :
    Nat → Nat → ℝ
  | 0, d => (st.dn[d]?).elim 0 fun nd => nd.heur
  | n + 1, d => (st.dn[d]?).elim 0 fun nd =>
      if nd.kids = [] then nd.heur
      else sgn (isOpponent m nd.time) * sparseMax cfg.temp
        (fun a => (find? a nd.kids).elim (untriedValue cfg (isOpponent m nd.time) nd.state a) fun c =>
          sgn (isOpponent m nd.time) * (st.cn[c]?).elim 0 (chanceSoft env m lr st h (sparseTree cfg env m lr st h n)))
        (env.actions nd.state)

/-- The random choices of TENTS: an action has the probability that `select_action` returns it when the uniform draw is uniform in [0,1).
`iter v` is the order in which the node's action distribution is iterated over, `obs` is the environment's distribution of observations. -/
noncomputable def tentsDice (eps : ℝ) (cfg : Cfg S A) (iter : View S A (Except TErr (TX A)) Soft → List (A × ℝ) → List (A × ℝ))
    (obs : S → A → List (S × ℝ)) : Dice S A ℝ (Except TErr (TX A)) Soft where
  sel v _ := v.actions.map fun a =>
    (a, prob (fun u => selectActionW eps cfg v (tentsWeights cfg (mentsQ cfg id v) v (byValOf v.x)) u (iter v)) (· = .ok (.key a)))
  obs := obs

/-- The random choices of RENTS. -/
noncomputable def rentsDice (eps : ℝ) (cfg : Cfg S A) (iter : View S A Soft Soft → List (A × ℝ) → List (A × ℝ))
    (obs : S → A → List (S × ℝ)) : Dice S A ℝ Soft Soft where
  sel v ctx := v.actions.map fun a =>
    (a, prob (fun u => selectActionW eps cfg v (rentsWS cfg (mentsQ cfg id v) v ctx) u (iter v)) (· = .ok (.key a)))
  obs := obs

end Verif.Tents
