import Verif.Spec.Tree
import Verif.Spec.Ments

/-! # The soft value of a search tree -/

namespace Verif.Ments

open Verif.Search Verif.Backups

variable {S A X Y : Type} [DecidableEq S] [DecidableEq A]

/-- The algorithm keeps MENTS soft values (it derives from `MentsDNode` and `MentsCNode` and uses their backups) in the parts `px` and
`py` of its data.  `lr s a` is the chance node's `local_reward`. -/
structure HasSoft (alg : Alg S A ℝ X Y) (px : X → Soft) (py : Y → Soft) (cfg : Cfg S A) (lr : S → A → ℝ) : Prop where
  initD : ∀ s dep tim h, px (alg.initD s dep tim h) = softInitD h
  initC : ∀ s a dep tim, py (alg.initC s a dep tim) = softInitC cfg
  visitD : ∀ leaf x, px (alg.visitD leaf x) = softVisit leaf (px x)
  visitC : ∀ y, py (alg.visitC y) = py y
  backupD : ∀ v ctx args, px (alg.backupD v ctx args) = softBackupD cfg (mentsQ cfg py v) v (px v.x)
  backupC : ∀ s a y kids args, py (alg.backupC s a y kids args) = softBackupC (lr s a) (kids.map fun k => px k.2) (py y)

/-- Soft value of decision node `d`. -/
def softD (px : X → Soft) (st : St S A ℝ X Y) (d : Nat) : Option ℝ := (st.dn[d]?).bind fun nd => (px nd.x).val

/-- Soft value of chance node `c`. -/
def softC (py : Y → Soft) (st : St S A ℝ X Y) (c : Nat) : Option ℝ := (st.cn[c]?).bind fun nc => (py nc.y).val

/-- `+1` for the player, `-1` for the opponent. -/
def sgn (opp : Bool) : ℝ := if opp then -1 else 1

/-- The soft maximum of values `Q a` (from the point of view of the player to move): `temp * log ∑ exp (Q / temp)`. -/
noncomputable def softmax (temp : ℝ) (Q : A → ℝ) (actions : List A) : ℝ :=
  temp * Real.log ((actions.map fun a => Real.exp (Q a / temp)).sum)

/-- The weight of decision node `d` in its parent's mean: the trials that went on from it, and those that ended in it if it is a
leaf. -/
def softWeight {𝕜 : Type} (env : Env S A 𝕜) (m : Manager S 𝕜) (st : St S A 𝕜 X Y) (h : List (Event S A 𝕜)) (d : Nat) : Nat :=
  match st.dn[d]? with
  | none => 0
  | some nd => trialsThrough d h + if isLeaf env m nd then trialsEndedAt d h else 0

/-- Value of an untried action from the point of view of the player to move: the default value or, with a prior, its pseudo Q-value. -/
noncomputable def untriedValue (cfg : Cfg S A) (opp : Bool) (s : S) (a : A) : ℝ :=
  match cfg.prior with
  | none => sgn opp * cfg.defaultQ
  | some f => logWeight ((find? a (f s)).getD 0) + nodeOffset cfg s

/-- The soft value of a chance node, given those of the nodes below it. -/
noncomputable def chanceSoft (env : Env S A ℝ) (m : Manager S ℝ) (lr : S → A → ℝ) (st : St S A ℝ X Y) (h : List (Event S A ℝ)) (below : Nat → ℝ)
    (nc : CNode S A ℝ Y) : ℝ :=
  lr nc.state nc.action + wmean (nc.kids.map fun q => (softWeight env m st h q.2, below q.2))

/-- The soft value of the tree below decision node `d`, for trees of height at most `n`: the heuristic value of a node without children;
otherwise the soft maximum (for the opponent: minimum) over the actions, tried or not. -/
noncomputable def softTree (cfg : Cfg S A) (env : Env S A ℝ) (m : Manager S ℝ) (lr : S → A → ℝ) (st : St S A ℝ X Y) (h : List (Event S A ℝ)) : Nat → Nat → ℝ
  | 0, d => (st.dn[d]?).elim 0 fun nd => nd.heur
  | n + 1, d => (st.dn[d]?).elim 0 fun nd =>
      if nd.kids = [] then nd.heur
      else sgn (isOpponent m nd.time) * softmax cfg.temp
        (fun a => (find? a nd.kids).elim (untriedValue cfg (isOpponent m nd.time) nd.state a) fun c =>
          sgn (isOpponent m nd.time) * (st.cn[c]?).elim 0 (chanceSoft env m lr st h (softTree cfg env m lr st h n)))
        (env.actions nd.state)

end Verif.Ments
