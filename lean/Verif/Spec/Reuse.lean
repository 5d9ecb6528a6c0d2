import Verif.Model.Reuse
import Verif.Spec.Search

/-!
# Vocabulary for searches that go on with an old tree
-/

namespace Verif.Search

variable {S A R X Y : Type} [DecidableEq S] [DecidableEq A]

/-- `d` is the root or below it. -/
def BelowRoot (st : St S A R X Y) (d : Nat) : Prop := d = st.root ∨ Desc st st.root d

/-- Online planning: a search with `k` workers starts at a new root (with an empty transposition table, if any); between its steps, whenever no trial is running, the root
may be moved to itself or to a node below it. -/
inductive Online [Add R] [Zero R] (env : Env S A R) (m : Manager S R) (alg : Alg S A R X Y) (k : Nat) (s0 : S) (dp tm : Int) :
    St S A R X Y → Prop where
  | start : Online env m alg k s0 dp tm (init env m alg k s0 dp tm [])
  | search {st st' w ch e} (h : Online env m alg k s0 dp tm st) (hs : step env m alg st w ch = some (st', e)) :
      Online env m alg k s0 dp tm st'
  | move {st d} (h : Online env m alg k s0 dp tm st) (hq : Quiescent st) (hd : BelowRoot st d) :
      Online env m alg k s0 dp tm (setRoot st d)

/-- A decision node with the numbers of its children replaced. -/
def DNode.renum (g : Nat → Nat) (nd : DNode S A R X) : DNode S A R X := { nd with kids := nd.kids.map fun p => (p.1, g p.2) }

/-- A chance node with the numbers of its children replaced. -/
def CNode.renum (f : Nat → Nat) (nc : CNode S A R Y) : CNode S A R Y := { nc with kids := nc.kids.map fun p => (p.1, f p.2) }

/-- The tree of `σ` is the part of the tree of `st` below `d`: with `f` and `g` telling which decision node and which chance node of `st` corresponds to
one of `σ`, corresponding nodes agree in everything (state, depth, timestep, visit count, heuristic value, data of the algorithm), and their children correspond. -/
structure SameBelow (st : St S A R X Y) (d : Nat) (σ : St S A R X Y) (f g : Nat → Nat) : Prop where
  root : f σ.root = d
  injD : ∀ i j, i < σ.dn.length → j < σ.dn.length → f i = f j → i = j
  injC : ∀ i j, i < σ.cn.length → j < σ.cn.length → g i = g j → i = j
  nodeD : ∀ (i : Nat) nd, σ.dn[i]? = some nd → st.dn[f i]? = some (nd.renum g)
  nodeC : ∀ (i : Nat) nc, σ.cn[i]? = some nc → st.cn[g i]? = some (nc.renum f)

/-- A new search of which one worker begins with a trial that only looks at the root (the trial that creates the node, in mcts mode). -/
def looked [Zero R] (env : Env S A R) (m : Manager S R) (alg : Alg S A R X Y) (k : Nat) (s : S) (dp tm : Int) (w : Nat) : St S A R X Y :=
  { init env m alg k s dp tm [] with ws := (List.replicate k .idle).set w (.sel 0 [] [] true) }

/-- `σ` is a state of a search with `k` workers started at a new node, or, in mcts mode, of such a search of which one trial only looks at the root. -/
def Fresh [Add R] [Zero R] (env : Env S A R) (m : Manager S R) (alg : Alg S A R X Y) (k : Nat) (s : S) (dp tm : Int) (σ : St S A R X Y)
    (h : List (Event S A R)) : Prop :=
  Reachable env m alg k s dp tm [] σ h ∨
    (m.mctsMode = true ∧ ∃ w ls, w < k ∧ execFrom env m alg (looked env m alg k s dp tm w) [] ls = some (σ, h))

/-- Two contexts have the same entries from depth `dp` on. -/
def Ctx.AgreeFrom (dp : Int) (c c' : Ctx A R) : Prop :=
  ∀ k, dp ≤ k → find? k c.acts = find? k c'.acts ∧ find? k c.distrs = find? k c'.distrs

/-- All entries of the context are for depths with `P`. -/
def Ctx.Keys (P : Int → Prop) (c : Ctx A R) : Prop := (∀ p ∈ c.acts, P p.1) ∧ ∀ p ∈ c.distrs, P p.1

/-- The code of a node uses, of what happened in the trial, only what happened from that node on: context entries of its depth and below,
the rewards after it and the return after it. -/
structure Alg.Local (alg : Alg S A R X Y) : Prop where
  select : ∀ v c c' a, Ctx.AgreeFrom v.depth c c' → alg.canSelect v c a = alg.canSelect v c' a
  agree : ∀ v c c' a dp, dp ≤ v.depth → Ctx.AgreeFrom dp c c' → Ctx.AgreeFrom dp (alg.selCtx v c a) (alg.selCtx v c' a)
  keys : ∀ v c a (P : Int → Prop), Ctx.Keys P c → P v.depth → Ctx.Keys P (alg.selCtx v c a)
  backupD : ∀ v c c' b b', Ctx.AgreeFrom v.depth c c' → b.after = b'.after → b.retAfter = b'.retAfter →
    alg.backupD v c b = alg.backupD v c' b'
  backupC : ∀ s a y kids b b', b.after = b'.after → b.retAfter = b'.retAfter → alg.backupC s a y kids b = alg.backupC s a y kids b'

end Verif.Search
