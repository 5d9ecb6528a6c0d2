import Verif.Model.FpMents
import Verif.Spec.SoftTree
import Verif.Spec.FpExp

/-! # The soft value of a search tree of a search with doubles, in real arithmetic -/

namespace Verif.Fp

open Verif.Search Verif.Backups
open Verif.Ments (sgn softmax softWeight)

variable {S A X Y : Type} [DecidableEq S] [DecidableEq A]

/-- The algorithm keeps MENTS soft values, computed in doubles, in the parts `px` and `py` of its data (it derives from `MentsDNode` and `MentsCNode` and uses their
backups). -/
structure HasFpSoft (alg : Alg S A ℚ X Y) (px : X → SoftF) (py : Y → SoftF) (ex lg : ℚ → ℚ) (cfg : MentsCfg) (lr : S → A → ℚ) : Prop where
  initD : ∀ s dep tim h, px (alg.initD s dep tim h) = softFInitD h
  initC : ∀ s a dep tim, py (alg.initC s a dep tim) = softFInitC cfg
  visitD : ∀ leaf x, px (alg.visitD leaf x) = softFVisit leaf (px x)
  visitC : ∀ y, py (alg.visitC y) = py y
  backupD : ∀ v ctx args, px (alg.backupD v ctx args) = softFBackupD ex lg cfg py v (px v.x)
  backupC : ∀ s a y kids args, py (alg.backupC s a y kids args) = softFBackupC (lr s a) (kids.map fun k => px k.2) (py y)

/-- Soft value of decision node `d`. -/
def softDF (px : X → SoftF) (st : St S A ℚ X Y) (d : Nat) : Option ℚ := (st.dn[d]?).map fun nd => (px nd.x).val

/-- Soft value of chance node `c`. -/
def softCF (py : Y → SoftF) (st : St S A ℚ X Y) (c : Nat) : Option ℚ := (st.cn[c]?).map fun nc => (py nc.y).val

/-- The soft value of a chance node in real arithmetic, given those of the nodes below it: the reward plus their mean weighted by trials. -/
noncomputable def chanceSoftR (env : Env S A ℚ) (m : Manager S ℚ) (lr : S → A → ℚ) (st : St S A ℚ X Y) (h : List (Event S A ℚ)) (below : Nat → ℝ)
    (nc : CNode S A ℚ Y) : ℝ :=
  lr nc.state nc.action + wmean (nc.kids.map fun q => (softWeight env m st h q.2, below q.2))

/-- The soft value of the tree below decision node `d` in real arithmetic, for trees of height at most `n`: the heuristic value of a node without children; otherwise the
soft maximum (for the opponent: minimum) over the actions, tried or not. -/
noncomputable def softTreeR (cfg : MentsCfg) (env : Env S A ℚ) (m : Manager S ℚ) (lr : S → A → ℚ) (st : St S A ℚ X Y) (h : List (Event S A ℚ)) : Nat → Nat → ℝ
  | 0, d => (st.dn[d]?).elim 0 fun nd => nd.heur
  | n + 1, d => (st.dn[d]?).elim 0 fun nd =>
      if nd.kids = [] then nd.heur
      else sgn (isOpponent m nd.time) * softmax (cfg.temp : ℝ)
        (fun a => sgn (isOpponent m nd.time) * (find? a nd.kids).elim (cfg.defaultQ : ℝ) fun c =>
          (st.cn[c]?).elim 0 (chanceSoftR env m lr st h (softTreeR cfg env m lr st h n)))
        (env.actions nd.state)

/-- Bound of C94 on the error per level: at most `K` successors of a state and an action, at most `n` actions, all values of size at most `M`; `α` and `β` are the
relative errors of `exp` and `log`. -/
noncomputable def softError (K n : Nat) (temp M : ℚ) (α β : ℝ) : ℝ :=
  (8 * K + 32) * (unit * M) + temp * (16 * n * unit + 4 * α + 2 * n * β) + tiny

/-- What C94 assumes of library functions. -/
structure GoodMath (ex lg : ℚ → ℚ) (α β : ℝ) : Prop where
  exp : GoodExp ex
  expErr : Accurate ex α
  logErr : AccurateLog lg β
  α : 0 ≤ α ∧ α ≤ 1 / 100
  β : 0 ≤ β ∧ β ≤ 1 / 100

/-- What C94 assumes of the environment, the manager and the search: rewards, heuristic values and the default value are of size at most `ρ`, at most `K` successors, at
most `n` actions, depth at most `D`; `M` bounds all values and is between `temp` and `10^6 temp`. -/
structure SoftFits (env : Env S A ℚ) (m : Manager S ℚ) (cfg : MentsCfg) (lr : S → A → ℚ) (ρ M : ℚ) (K n D : Nat) (α β : ℝ) (dp : Int)
    (h : List (Event S A ℚ)) : Prop where
  temp : IsDouble cfg.temp ∧ 0 < cfg.temp
  low : cfg.low ≤ -10 ^ 6
  default : |cfg.defaultQ| ≤ ρ
  heur : ∀ s, |heurOf env m s| ≤ ρ
  local_ : ∀ s a, a ∈ env.actions s → IsDouble (lr s a) ∧ |lr s a| ≤ ρ
  succs : ∀ s a, a ∈ env.actions s → (env.succ s a).length ≤ K
  few : K ≤ 2 ^ 30
  acts : ∀ s, (env.actions s).length ≤ n
  small : n ≤ 1000
  depth : (m.maxDepth - dp).toNat ≤ D
  trials : K + trialsBegun h ≤ 2 ^ 50
  one : 1 ≤ M
  above : cfg.temp ≤ M
  below : M ≤ 10 ^ 6 * cfg.temp
  range : (D + 1) * (ρ + cfg.temp * Real.log n + softError K n cfg.temp M α β) ≤ M

end Verif.Fp
