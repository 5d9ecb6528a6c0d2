import Verif.Model.Backups
import Verif.Spec.Search
import Verif.Spec.Returns
import Mathlib.Order.Bounds.Basic

/-! # What the value backups should compute -/

namespace Verif.Backups

open Verif.Search

section
variable {𝕜 : Type} [Field 𝕜]

/-- The mean of values weighted by counts. -/
def wmean (l : List (Nat × 𝕜)) : 𝕜 := (l.map fun p => (p.1 : 𝕜) * p.2).sum / (l.map fun p => (p.1 : 𝕜)).sum

/-- The player's choice among values: the largest; the opponent's: the smallest. -/
def Best [LinearOrder 𝕜] (opp : Bool) (s : Set 𝕜) (v : 𝕜) : Prop := if opp then IsLeast s v else IsGreatest s v

end

section
variable {S A 𝕜 X Y : Type}

/-- The algorithm keeps DP values (it derives from `DPDNode` and `DPCNode`) in the parts `px` and `py` of its data.
`lr s a` is the chance node's `local_reward`. -/
structure HasDp [DecidableEq S] [DecidableEq A] [Field 𝕜] [LinearOrder 𝕜] (alg : Alg S A 𝕜 X Y) (px : X → Dp 𝕜) (py : Y → Dp 𝕜)
    (lr : S → A → 𝕜) : Prop where
  initD : ∀ s dep tim h, px (alg.initD s dep tim h) = dpInitD h
  initC : ∀ s a dep tim, py (alg.initC s a dep tim) = dpInitC
  visitD : ∀ leaf x, px (alg.visitD leaf x) = dpVisit leaf (px x)
  visitC : ∀ y, py (alg.visitC y) = py y
  backupD : ∀ v ctx args, px (alg.backupD v ctx args) = dpBackupD v.opp (v.kids.map fun k => py k.2.2) (px v.x)
  backupC : ∀ s a y kids args, py (alg.backupC s a y kids args) = dpBackupC (lr s a) (kids.map fun k => px k.2) (py y)

/-- The algorithm keeps average returns (it derives from `EmpNode`) in the parts `px` and `py` of its data; `pseudo` is the number of
pseudo trials with the heuristic value. -/
structure HasEmp [DecidableEq S] [DecidableEq A] [Field 𝕜] (alg : Alg S A 𝕜 X Y) (px : X → Emp 𝕜) (py : Y → Emp 𝕜) (pseudo : Nat) : Prop where
  initD : ∀ s dep tim h, px (alg.initD s dep tim h) = { n := pseudo, avg := h }
  initC : ∀ s a dep tim, py (alg.initC s a dep tim) = { n := 0, avg := 0 }
  visitD : ∀ leaf x, px (alg.visitD leaf x) = px x
  visitC : ∀ y, py (alg.visitC y) = py y
  backupD : ∀ v ctx args, px (alg.backupD v ctx args) = empBackup (px v.x) args.retAfter
  backupC : ∀ s a y kids args, py (alg.backupC s a y kids args) = empBackup (py y) args.retAfter

/-- DP value of decision node `d`. -/
def valD (px : X → Dp 𝕜) (st : St S A 𝕜 X Y) (d : Nat) : Option 𝕜 := (st.dn[d]?).bind fun nd => (px nd.x).val

/-- DP value of chance node `c`. -/
def valC (py : Y → Dp 𝕜) (st : St S A 𝕜 X Y) (c : Nat) : Option 𝕜 := (st.cn[c]?).bind fun nc => (py nc.y).val

/-- `num_backups` of decision node `d`. -/
def cntD (px : X → Dp 𝕜) (st : St S A 𝕜 X Y) (d : Nat) : Nat := ((st.dn[d]?).map fun nd => (px nd.x).n).getD 0

/-- The values of the children of decision node `d` that have been backed up (according to history `h`). -/
def backedKids (py : Y → Dp 𝕜) (st : St S A 𝕜 X Y) (h : List (Event S A 𝕜)) [DecidableEq A] (d : Nat) : Set 𝕜 :=
  {q | ∃ a c, childC st d a = some c ∧ returnsC c h ≠ [] ∧ valC py st c = some q}

end

section
variable {S A 𝕜 X Y : Type} [Field 𝕜] [LinearOrder 𝕜]

/-- All rewards and heuristic values of the environment lie between `lo` and `hi`, a range that contains 0. -/
structure Bounded (env : Env S A 𝕜) (m : Manager S 𝕜) (lo hi : 𝕜) : Prop where
  lo0 : lo ≤ 0
  hi0 : 0 ≤ hi
  reward : ∀ s a o, a ∈ env.actions s → o ∈ env.succ s a → lo ≤ env.reward s a o ∧ env.reward s a o ≤ hi
  heur : ∀ s, lo ≤ heurOf env m s ∧ heurOf env m s ≤ hi

/-- `v` is within `n` times the bounds. -/
def Within (lo hi : 𝕜) (n : Nat) (v : 𝕜) : Prop := n * lo ≤ v ∧ v ≤ n * hi

/-- Remaining depth below a node. -/
def remaining (m : Manager S 𝕜) (depth : Int) : Nat := (m.maxDepth - depth).toNat

end

end Verif.Backups
