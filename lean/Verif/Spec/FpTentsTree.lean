import Verif.Model.FpTentsSearch
import Verif.Spec.FpSoftTree
import Verif.Spec.TentsTree
import Verif.Spec.Fp

/-! # The sparse value of a search tree of a TENTS search with doubles, in real arithmetic -/

namespace Verif.Fp

open Verif.Search Verif.Backups
open Verif.Tents (TErr put sparseMax)
open Verif.Ments (sgn)

variable {S A X Y : Type} [DecidableEq S] [DecidableEq A]

/-- The algorithm is TENTS with doubles, except perhaps for its choice of actions. -/
structure HasFpTents (alg : Alg S A ℚ (Except TErr (TXF A)) SoftF) (env : Env S A ℚ) (m : Manager S ℚ) (sq : ℚ → ℚ) (cfg : MentsCfg) (lr : S → A → ℚ) : Prop where
  initD : ∀ s dep tim h, alg.initD s dep tim h = .ok (tentsFInitD cfg env m s dep tim h)
  initC : ∀ s a dep tim, alg.initC s a dep tim = softFInitC cfg
  visitD : ∀ leaf x, alg.visitD leaf x = tentsFVisit leaf x
  visitC : ∀ y, alg.visitC y = y
  selCtx : ∀ v ctx a, (alg.selCtx v ctx a).acts = put v.depth a ctx.acts
  backupD : ∀ v ctx args, alg.backupD v ctx args = tentsFBackupD sq cfg v ctx
  backupC : ∀ s a y kids args, alg.backupC s a y kids args = softFBackupC (lr s a) (kids.map fun k => softOfF k.2) y

/-- The sparse value of the tree below decision node `d` in real arithmetic, for trees of height at most `n`: the heuristic value of a node without children; otherwise the
sparse maximum (for the opponent: minimum) over the actions, tried or not. -/
noncomputable def sparseTreeR (cfg : MentsCfg) (env : Env S A ℚ) (m : Manager S ℚ) (lr : S → A → ℚ) (st : St S A ℚ X Y) (h : List (Event S A ℚ)) : Nat → Nat → ℝ
  | 0, d => (st.dn[d]?).elim 0 fun nd => nd.heur
  | n + 1, d => (st.dn[d]?).elim 0 fun nd =>
      if nd.kids = [] then nd.heur
      else sgn (isOpponent m nd.time) * sparseMax (cfg.temp : ℝ)
        (fun a => sgn (isOpponent m nd.time) * (find? a nd.kids).elim (cfg.defaultQ : ℝ) fun c =>
          (st.cn[c]?).elim 0 (chanceSoftR env m lr st h (sparseTreeR cfg env m lr st h n)))
        (env.actions nd.state)

/-- Bound of C96 on the error per level: at most `K` successors of a state and an action, at most `n` actions, all values of size at most `M`. -/
noncomputable def sparseError (K n : Nat) (temp M : ℚ) : ℝ := (8 * K + 8) * (unit * M) + 111 * (n * n) * (unit * (M * M / temp))

/-- What C96 assumes of the environment, the manager and the search: rewards, heuristic values and the default value are of size at most `ρ`, at most `K` successors, at
most `n` actions, depth at most `D`; `M` bounds all values and is between `temp` and `2^50 temp`. -/
structure SparseFits (env : Env S A ℚ) (m : Manager S ℚ) (cfg : MentsCfg) (lr : S → A → ℚ) (ρ M : ℚ) (K n D : Nat) (dp : Int) (h : List (Event S A ℚ)) : Prop where
  nodup : ∀ s, (env.actions s).Nodup
  temp : IsDouble cfg.temp ∧ 0 < cfg.temp
  default : |cfg.defaultQ| ≤ ρ
  heur : ∀ s, |heurOf env m s| ≤ ρ
  local_ : ∀ s a, a ∈ env.actions s → IsDouble (lr s a) ∧ |lr s a| ≤ ρ
  succs : ∀ s a, a ∈ env.actions s → (env.succ s a).length ≤ K
  few : K ≤ 2 ^ 30
  acts : ∀ s, (env.actions s).length ≤ n
  small : n ≤ 1000
  depth : (m.maxDepth - dp).toNat ≤ D
  trials : K + trialsBegun h ≤ 2 ^ 50
  one : 1 ≤ M
  above : cfg.temp ≤ M
  below : M ≤ 2 ^ 50 * cfg.temp
  range : (D + 1) * (ρ + cfg.temp / 2 + sparseError K n cfg.temp M) ≤ M

end Verif.Fp
