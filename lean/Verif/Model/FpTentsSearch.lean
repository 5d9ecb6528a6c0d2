import Verif.Model.FpTents
import Verif.Model.FpMents
import Verif.Model.Tents

/-!
# TENTS searches with doubles (src/algorithms/ments/tents/tents_decision_node.cpp)

The search of `Model/Search.lean` over the rationals.  The maps are those of `Model/Tents.lean` with doubles as keys, the chance nodes those of `Model/FpMents.lean`.  Simplified
as there: no prior policy, a constant temperature, no overflow.  `sq x` is the library's `pow(x, 2.0)` and `lg` its `log`.
-/

namespace Verif.Fp

open Verif.Search Verif.Sampling
open Verif.Tents (TXV TErr fillMaps updateMaps atAll put)

variable {S A X : Type} [DecidableEq S] [DecidableEq A]

/-- Data of `TentsDNode` (tents_decision_node.h). -/
abbrev TXF (A : Type) := TXV A ℚ SoftF

/-- `get_soft_q_value_over_temp` (tents_decision_node.cpp:47-51). -/
def qOverTemp (cfg : MentsCfg) (v : View S A X SoftF) (a : A) : ℚ := fdiv (softQ cfg id v a) cfg.temp

/-- The second part of `spmax` (tents_decision_node.cpp:102-114) for the values looked up. -/
def spmaxVals (sq : ℚ → ℚ) (vals : List ℚ) : ℚ :=
  let sum := vals.foldl fadd 0
  let common := fdiv (fmul (1 / 2) (sq (fsub sum 1))) (sq (fl (vals.length : ℚ)))
  vals.foldl (fun s x => fadd s (fsub (fdiv (sq x) 2) common)) (1 / 2)

/-- `spmax` (tents_decision_node.cpp:99-115). -/
def spmaxMaps (sq : ℚ → ℚ) (t : TXF A) : Except TErr ℚ :=
  match atAll t.byAct ((sparseSet t.byVal.reverse).map Prod.snd) with
  | .ok vals => .ok (spmaxVals sq vals)
  | .error e => .error e

/-- What the constructor sees: a node without children. -/
def bareView (env : Env S A ℚ) (m : Manager S ℚ) (s : S) (dep tim : Int) : View S A Unit SoftF :=
  { state := s, depth := dep, time := tim, opp := isOpponent m tim, actions := env.actions s, visits := 0, x := (), kids := [] }

/-- `TentsDNode` constructor (tents_decision_node.cpp:20-42). -/
def tentsFInitD (cfg : MentsCfg) (env : Env S A ℚ) (m : Manager S ℚ) (s : S) (dep tim : Int) (heur : ℚ) : TXF A :=
  let v := bareView env m s dep tim
  let maps := fillMaps (v.actions.map fun a => (a, qOverTemp cfg v a)) ([], [])
  { soft := softFInitD heur, byVal := maps.1, byAct := maps.2 }

/-- `TentsDNode::backup` (tents_decision_node.cpp:175-205, 210-218).  `opp_coeff * temp * spmax()` is evaluated from left to right. -/
def tentsFBackupD (sq : ℚ → ℚ) (cfg : MentsCfg) (v : View S A (Except TErr (TXF A)) SoftF) (ctx : Ctx A ℚ) : Except TErr (TXF A) :=
  match v.x with
  | .error e => .error e
  | .ok t =>
    match find? v.depth ctx.acts with
    | none => .error .noEntry
    | some a =>
      match updateMaps a (qOverTemp cfg v a) t with
      | .error e => .error e
      | .ok t' =>
        match spmaxMaps sq t' with
        | .error e => .error e
        | .ok s => .ok { t' with soft := { n := t.soft.n + 1, val := fmul (fmul (oppSign v.opp) cfg.temp) s } }

/-- The MENTS part of a node (after an exception there is none; the process has died). -/
def softOfF : Except TErr (TXF A) → SoftF
  | .ok t => t.soft
  | .error _ => { n := 0, val := 0 }

/-- The stored values of a node. -/
def byValOfF : Except TErr (TXF A) → List (ℚ × A)
  | .ok t => t.byVal
  | .error _ => []

/-- `MentsDNode::visit` (ments_decision_node.cpp:95-100) of a TENTS node. -/
def tentsFVisit (leaf : Bool) : Except TErr (TXF A) → Except TErr (TXF A)
  | .ok t => .ok { t with soft := softFVisit leaf t.soft }
  | .error e => .error e

/-- Can `select_action` (tents_decision_node.cpp:164-168) return `a`, for some draw and map order? -/
noncomputable def tentsFCanSelect (lg : ℚ → ℚ) (cfg : MentsCfg) (v : View S A (Except TErr (TXF A)) SoftF) (a : A) : Bool :=
  @decide (∃ u iter, 0 ≤ u ∧ u < 1 ∧ IsDouble u ∧ (∀ l, List.Perm (iter l) l) ∧
    selectTents (mentsLambda lg cfg v) iter (qOverTemp cfg v) (byValOfF v.x).reverse v.actions u = .key a) (Classical.propDecidable _)

/-- TENTS with doubles; `TentsCNode` behaves like `MentsCNode` (src/algorithms/ments/tents/tents_chance_node.cpp).  `lr s a` is `local_reward`. -/
noncomputable def tentsF (sq lg : ℚ → ℚ) (cfg : MentsCfg) (env : Env S A ℚ) (m : Manager S ℚ) (lr : S → A → ℚ) :
    Alg S A ℚ (Except TErr (TXF A)) SoftF where
  initVisits := 0
  initD s dep tim h := .ok (tentsFInitD cfg env m s dep tim h)
  initC _ _ _ _ := softFInitC cfg
  visitD := tentsFVisit
  visitC y := y
  canSelect v _ a := tentsFCanSelect lg cfg v a
  selCtx v ctx a := { ctx with acts := put v.depth a ctx.acts }
  backupD v ctx _ := tentsFBackupD sq cfg v ctx
  backupC s a y kids _ := softFBackupC (lr s a) (kids.map fun k => softOfF k.2) y

end Verif.Fp
