import Verif.Model.Memory
import Verif.Spec.Search
import Mathlib.Logic.Relation

/-! # Vocabulary for the ownership of nodes (C82) -/

namespace Verif.Mem

open Verif

section
variable {S A R X Y : Type} [DecidableEq S] [DecidableEq A]

/-- The object exists in the search. -/
def Exists (st : Search.St S A R X Y) : Obj → Prop
  | .mgr => True
  | .d i => i < st.dn.length
  | .c i => i < st.cn.length

/-- The node holds its child, or the manager. -/
inductive Holds (st : Search.St S A R X Y) : Obj → Obj → Prop
  | dc {d c a} (h : Search.childC st d a = some c) : Holds st (.d d) (.c c)
  | cd {c d o} (h : Search.childD st c o = some d) : Holds st (.c c) (.d d)
  | dm {d} (h : d < st.dn.length) : Holds st (.d d) .mgr
  | cm {c} (h : c < st.cn.length) : Holds st (.c c) .mgr

/-- The object can be reached from one of the handles. -/
def Needed (st : Search.St S A R X Y) (hs : List Obj) (x : Obj) : Prop := ∃ y ∈ hs, Relation.ReflTransGen (Holds st) y x

variable [Add R] [Zero R]

/-- The tables of a manager with which trees are built one after the other, each destroyed before the next is begun. -/
inductive History (env : Search.Env S A R) (m : Search.Manager S R) (alg : Search.Alg S A R X Y) : List ((Int × S) × Option Nat) → Prop
  | fresh : History env m alg []
  | next {tb k n s0 dp tm st h s} (hist : History env m alg tb) (tree : Search.Reachable env m alg n s0 dp tm tb st h)
      (destroyed : (poolHandles st).foldlM (drop k) (memOf st (poolHandles st ++ [.mgr])) = .ok s) :
      History env m alg (expire s st.table)

end

end Verif.Mem
