import Verif.Spec.LockLevel
import Verif.Proofs.SearchStep

/-! # What a step at the level of locks does: a case distinction without nested matches -/

namespace Verif.LockLevel

open Verif.Search

set_option linter.unusedSimpArgs false
set_option linter.unusedSectionVars false

variable {S A R X Y : Type} [DecidableEq S] [DecidableEq A] [Add R] [Zero R]

/-- The lock that the block beginning at a position takes. -/
def lkOf : Phase S A R → Option Lk
  | .idle => none
  | .sel cur _ _ _ => some (.d cur)
  | .samp _ _ c _ _ _ => some (.c c)
  | .back nodes _ _ _ _ => nodes.getLast?.map fun p => .c p.2
  | .backD d _ _ _ _ _ => some (.d d)

/-- The object that a mutex belongs to exists. -/
def Valid (f : FSt S A R X Y) : Lk → Prop
  | .d i => i < f.dn.length
  | .c i => i < f.cn.length
  | .t _ => True

/-- The locks a worker holds. -/
def holds : Pc S A R X Y → List Lk
  | .out _ => []
  | .own p | .vis p => (lkOf p).toList
  | .lockD p _ held _ | .readD p _ held _ _ | .relD p _ held => (lkOf p).toList ++ held.map Lk.c
  | .lockC p _ held _ | .readC p _ held _ _ | .relC p _ held => (lkOf p).toList ++ held.map Lk.d
  | .tab p _ j => (lkOf p).toList ++ [.t j]
  | .post _ acts => acts.filterMap fun a => match a with | .rel l => some l | _ => none

/-- Why a worker dies. -/
inductive FCause (env : Env S A R) (m : Manager S R) (f : FSt S A R X Y) (w : Nat) : Err → Prop where
  | outside {p l} (hw : f.ws[w]? = some (.out p)) (hl : lkOf p = some l) (hv : ¬ Valid f l)
      (hb : ∀ nodes before after ret tot, p = .back nodes before after ret tot → ∃ before0 r, before = before0 ++ [r]) : FCause env m f w .dangling
  | empty {nodes d c after ret tot} (hw : f.ws[w]? = some (.out (.back (nodes ++ [(d, c)]) [] after ret tot))) : FCause env m f w .emptyVector
  | lost {pc l} (hw : f.ws[w]? = some pc) (hl : l ∈ holds pc) (hv : ¬ Valid f l) : FCause env m f w .dangling
  | kidD {p snaps held k todo} (hw : f.ws[w]? = some (.lockD p snaps held (k :: todo))) (hv : ¬ k < f.cn.length) : FCause env m f w .dangling
  | kidC {p snaps held k todo} (hw : f.ws[w]? = some (.lockC p snaps held (k :: todo))) (hv : ¬ k < f.dn.length) : FCause env m f w .dangling
  | readD {p snaps held acc a k todo} (hw : f.ws[w]? = some (.readD p snaps held acc ((a, k) :: todo))) (hv : ¬ k < f.cn.length) :
      FCause env m f w .dangling
  | readC {p snaps held acc o k todo} (hw : f.ws[w]? = some (.readC p snaps held acc ((o, k) :: todo))) (hv : ¬ k < f.dn.length) :
      FCause env m f w .dangling
  | noMutex {cur a c path rs new nc o} (hw : f.ws[w]? = some (.vis (.samp cur a c path rs new))) (hc : f.cn[c]? = some nc)
      (ho : o ∈ env.succ nc.state nc.action)
      (hf : find? o nc.kids = none) (ht : m.useTable = true) (hm : m.numMutexes = 0) : FCause env m f w .noMutex
  | weak {cur a c path rs new nc o j} (hw : f.ws[w]? = some (.tab (.samp cur a c path rs new) o j)) (hc : f.cn[c]? = some nc)
      (hx : find? (nc.time, o) f.table = some none) : FCause env m f w .badWeakPtr
  | cur {pc cur a c path rs new} (hw : f.ws[w]? = some pc)
      (hpc : pc = .vis (.samp cur a c path rs new) ∨ ∃ o j, pc = .tab (.samp cur a c path rs new) o j)
      (hd : f.dn[cur]? = none) : FCause env m f w .dangling

/-- The effect of one step. -/
inductive FEff (env : Env S A R) (m : Manager S R) (hash : Int × S → Nat) (alg : Alg S A R X Y) (code : Code S A R X Y)
    (f : FSt S A R X Y) (w : Nat) : Option (Event S A R) → FSt S A R X Y → Prop where
  | crash {e} (h : FCause env m f w e) : FEff env m hash alg code f w (some (.crash w e)) { f with crashed := some e }
  | began (hw : f.ws[w]? = some (.out .idle)) :
      FEff env m hash alg code f w (some (.began w))
        { f with ws := f.ws.set w (.out (.sel f.root [] [] false)), ctxs := f.ctxs.set w {} }
  | completed {before after ret tot} (hw : f.ws[w]? = some (.out (.back [] before after ret tot))) :
      FEff env m hash alg code f w (some (.completed w)) { f with ws := f.ws.set w (.out .idle) }
  | enter {p l} (hw : f.ws[w]? = some (.out p)) (hl : lkOf p = some l) (hv : Valid f l) (hf : f.lock l = none) :
      FEff env m hash alg code f w none ((f.setLock l (some w)).setW w (.own p))
  | visit {cur path rs new nd} (hw : f.ws[w]? = some (.own (.sel cur path rs new))) (hd : f.dn[cur]? = some nd)
      (hl : isLeaf env m nd = false) (hm : (m.mctsMode && new) = false) :
      FEff env m hash alg code f w none
        { f with dn := f.dn.set cur { nd with visits := nd.visits + 1, x := alg.visitD false nd.x },
                 ws := f.ws.set w (.vis (.sel cur path rs new)) }
  | ended {cur path rs new nd} (hw : f.ws[w]? = some (.own (.sel cur path rs new))) (hd : f.dn[cur]? = some nd)
      (hs : isLeaf env m nd = true ∨ (m.mctsMode && new) = true) :
      FEff env m hash alg code f w (some (.ended w cur nd.heur))
        { f with dn := f.dn.set cur { nd with visits := nd.visits + 1, x := alg.visitD (isLeaf env m nd) nd.x },
                 ws := f.ws.set w (.post (.back path rs [nd.heur] nd.heur (total (rs ++ [nd.heur]))) [.rel (.d cur)]) }
  | selOld {pc cur path rs new nd ks held a c} (hw : f.ws[w]? = some pc) (hd : f.dn[cur]? = some nd)
      (hpc : (pc = .vis (.sel cur path rs new) ∧ ks = [] ∧ held = [] ∧
          code.selBlind (ownView env m nd []) (nd.kids.map fun k => k.1) (f.ctxOf w) a = true) ∨
        ∃ snaps, pc = .readD (.sel cur path rs new) snaps held ks [] ∧ alg.canSelect (ownView env m nd ks) (f.ctxOf w) a = true)
      (hf : find? a nd.kids = some c) :
      FEff env m hash alg code f w (some (.selected w cur a c))
        { f with ws := f.ws.set w (.post (.samp cur a c path rs new) (held.map (fun k => Act.rel (.c k)) ++ [.rel (.d cur)])),
                 ctxs := f.ctxs.set w (alg.selCtx (ownView env m nd ks) (f.ctxOf w) a) }
  | selNew {pc cur path rs new nd ks held a} (hw : f.ws[w]? = some pc) (hd : f.dn[cur]? = some nd)
      (hpc : (pc = .vis (.sel cur path rs new) ∧ ks = [] ∧ held = [] ∧
          code.selBlind (ownView env m nd []) (nd.kids.map fun k => k.1) (f.ctxOf w) a = true) ∨
        ∃ snaps, pc = .readD (.sel cur path rs new) snaps held ks [] ∧ alg.canSelect (ownView env m nd ks) (f.ctxOf w) a = true)
      (hf : find? a nd.kids = none) :
      FEff env m hash alg code f w (some (.selected w cur a f.cn.length))
        { f with cn := f.cn ++ [newC alg nd a],
                 ws := f.ws.set w (.post (.samp cur a f.cn.length path rs new)
                   (held.map (fun k => Act.rel (.c k)) ++ [.kidD cur a f.cn.length, .rel (.d cur)])),
                 ctxs := f.ctxs.set w (alg.selCtx (ownView env m nd ks) (f.ctxOf w) a) }
  | startSel {cur path rs new nd ks} (hw : f.ws[w]? = some (.vis (.sel cur path rs new))) (hd : f.dn[cur]? = some nd)
      (hk : ks.Perm (nd.kids.map fun k => k.2)) :
      FEff env m hash alg code f w none { f with ws := f.ws.set w (.lockD (.sel cur path rs new) [] [] ks) }
  | startD {pc d nodes before after ret tot nd snaps ks} (hw : f.ws[w]? = some pc) (hd : f.dn[d]? = some nd)
      (hpc : (pc = .own (.backD d nodes before after ret tot) ∧ snaps = [] ∧ code.nD ≠ 0) ∨
        pc = .relD (.backD d nodes before after ret tot) snaps [])
      (hk : ks.Perm ((nd.kids.filter fun k => code.readsD (ownView env m nd []) (f.ctxOf w) k.1).map fun k => k.2)) :
      FEff env m hash alg code f w none { f with ws := f.ws.set w (.lockD (.backD d nodes before after ret tot) snaps [] ks) }
  | lockD {p snaps held k todo} (hw : f.ws[w]? = some (.lockD p snaps held (k :: todo))) (hv : k < f.cn.length)
      (hf : f.lock (.c k) = none) :
      FEff env m hash alg code f w none ((f.setLock (.c k) (some w)).setW w (.lockD p snaps (held ++ [k]) todo))
  | readySel {cur path rs new nd snaps held} (hw : f.ws[w]? = some (.lockD (.sel cur path rs new) snaps held [])) (hd : f.dn[cur]? = some nd) :
      FEff env m hash alg code f w none { f with ws := f.ws.set w (.readD (.sel cur path rs new) snaps held [] nd.kids) }
  | readyD {d nodes before after ret tot nd snaps held} (hw : f.ws[w]? = some (.lockD (.backD d nodes before after ret tot) snaps held []))
      (hd : f.dn[d]? = some nd) :
      FEff env m hash alg code f w none { f with ws := f.ws.set w (.readD (.backD d nodes before after ret tot) snaps held []
        (nd.kids.filter fun k => code.readsD (ownView env m nd []) (f.ctxOf w) k.1)) }
  | readD {p snaps held acc a k todo nc} (hw : f.ws[w]? = some (.readD p snaps held acc ((a, k) :: todo))) (hc : f.cn[k]? = some nc) :
      FEff env m hash alg code f w none { f with ws := f.ws.set w (.readD p snaps held (acc ++ [(a, nc.visits, nc.y)]) todo) }
  | snapD {d nodes before after ret tot nd snaps held acc}
      (hw : f.ws[w]? = some (.readD (.backD d nodes before after ret tot) snaps held acc [])) (hd : f.dn[d]? = some nd)
      (hn : snaps.length + 1 ≠ code.nD) :
      FEff env m hash alg code f w none { f with ws := f.ws.set w (.relD (.backD d nodes before after ret tot) (snaps ++ [acc]) held) }
  | relD {p snaps k held} (hw : f.ws[w]? = some (.relD p snaps (k :: held))) :
      FEff env m hash alg code f w none ((f.setLock (.c k) none).setW w (.relD p snaps held))
  | backedD {pc d nodes before after ret tot nd snaps held} (hw : f.ws[w]? = some pc) (hd : f.dn[d]? = some nd)
      (hpc : (pc = .own (.backD d nodes before after ret tot) ∧ snaps = [] ∧ held = [] ∧ code.nD = 0) ∨
        ∃ sn acc, pc = .readD (.backD d nodes before after ret tot) sn held acc [] ∧ snaps = sn ++ [acc] ∧ sn.length + 1 = code.nD) :
      FEff env m hash alg code f w (some (.backedD w d ⟨before, after, ret, tot⟩))
        { f with ws := f.ws.set w (.post (.back nodes before after ret tot) (held.map (fun k => Act.rel (.c k)) ++
            [.setX d (code.resD (ownView env m nd []) snaps (f.ctxOf w) ⟨before, after, ret, tot⟩), .rel (.d d)])) }
  | visitC {cur a c path rs new nc} (hw : f.ws[w]? = some (.own (.samp cur a c path rs new))) (hc : f.cn[c]? = some nc) :
      FEff env m hash alg code f w none
        { f with cn := f.cn.set c { nc with visits := nc.visits + 1, y := alg.visitC nc.y },
                 ws := f.ws.set w (.vis (.samp cur a c path rs new)) }
  | stepOld {cur a c path rs new nc nd o d'} (hw : f.ws[w]? = some (.vis (.samp cur a c path rs new))) (hc : f.cn[c]? = some nc)
      (hd : f.dn[cur]? = some nd) (ho : o ∈ env.succ nc.state nc.action) (hf : find? o nc.kids = some d') :
      FEff env m hash alg code f w (some (.stepped w cur a c o d' (env.reward nd.state a o) false))
        { f with ws := f.ws.set w (.post (.sel d' (path ++ [(cur, c)]) (rs ++ [env.reward nd.state a o]) new) [.rel (.c c)]) }
  | stepNew {cur a c path rs new nc nd o} (hw : f.ws[w]? = some (.vis (.samp cur a c path rs new))) (hc : f.cn[c]? = some nc)
      (hd : f.dn[cur]? = some nd) (ho : o ∈ env.succ nc.state nc.action) (hf : find? o nc.kids = none) (hu : m.useTable = false) :
      FEff env m hash alg code f w (some (.stepped w cur a c o f.dn.length (env.reward nd.state a o) true))
        { f with dn := f.dn ++ [newD env m alg o (nc.depth + 1) (nc.time + 1)],
                 ws := f.ws.set w (.post (.sel f.dn.length (path ++ [(cur, c)]) (rs ++ [env.reward nd.state a o]) true)
                   [.kidC c o f.dn.length, .rel (.c c)]) }
  | wantTable {cur a c path rs new nc o} (hw : f.ws[w]? = some (.vis (.samp cur a c path rs new))) (hc : f.cn[c]? = some nc)
      (ho : o ∈ env.succ nc.state nc.action) (hf : find? o nc.kids = none) (hu : m.useTable = true) (hm : m.numMutexes ≠ 0)
      (hl : f.lock (.t (mutexIndex m.numMutexes (hash (nc.time, o)))) = none) :
      FEff env m hash alg code f w none
        ((f.setLock (.t (mutexIndex m.numMutexes (hash (nc.time, o)))) (some w)).setW w
          (.tab (.samp cur a c path rs new) o (mutexIndex m.numMutexes (hash (nc.time, o)))))
  | tabHit {cur a c path rs new nc nd o j i} (hw : f.ws[w]? = some (.tab (.samp cur a c path rs new) o j)) (hc : f.cn[c]? = some nc)
      (hd : f.dn[cur]? = some nd) (ht : find? (nc.time, o) f.table = some (some i)) :
      FEff env m hash alg code f w (some (.stepped w cur a c o i (env.reward nd.state a o) true))
        { f with ws := f.ws.set w (.post (.sel i (path ++ [(cur, c)]) (rs ++ [env.reward nd.state a o]) true)
                   [.kidC c o i, .rel (.t j), .rel (.c c)]) }
  | tabMiss {cur a c path rs new nc nd o j} (hw : f.ws[w]? = some (.tab (.samp cur a c path rs new) o j)) (hc : f.cn[c]? = some nc)
      (hd : f.dn[cur]? = some nd) (ht : find? (nc.time, o) f.table = none) :
      FEff env m hash alg code f w (some (.stepped w cur a c o f.dn.length (env.reward nd.state a o) true))
        { f with dn := f.dn ++ [newD env m alg o (nc.depth + 1) (nc.time + 1)],
                 ws := f.ws.set w (.post (.sel f.dn.length (path ++ [(cur, c)]) (rs ++ [env.reward nd.state a o]) true)
                   [.kidC c o f.dn.length, .ins (nc.time, o) f.dn.length, .rel (.t j), .rel (.c c)]) }
  | startC {pc nodes d c before r after ret tot nc snaps ks} (hw : f.ws[w]? = some pc) (hc : f.cn[c]? = some nc)
      (hpc : (pc = .own (.back (nodes ++ [(d, c)]) (before ++ [r]) after ret tot) ∧ snaps = [] ∧ code.nC ≠ 0) ∨
        pc = .relC (.back (nodes ++ [(d, c)]) (before ++ [r]) after ret tot) snaps [])
      (hk : ks.Perm (nc.kids.map fun k => k.2)) :
      FEff env m hash alg code f w none
        { f with ws := f.ws.set w (.lockC (.back (nodes ++ [(d, c)]) (before ++ [r]) after ret tot) snaps [] ks) }
  | lockC {p snaps held k todo} (hw : f.ws[w]? = some (.lockC p snaps held (k :: todo))) (hv : k < f.dn.length)
      (hf : f.lock (.d k) = none) :
      FEff env m hash alg code f w none ((f.setLock (.d k) (some w)).setW w (.lockC p snaps (held ++ [k]) todo))
  | readyC {nodes d c before r after ret tot nc snaps held}
      (hw : f.ws[w]? = some (.lockC (.back (nodes ++ [(d, c)]) (before ++ [r]) after ret tot) snaps held [])) (hc : f.cn[c]? = some nc) :
      FEff env m hash alg code f w none
        { f with ws := f.ws.set w (.readC (.back (nodes ++ [(d, c)]) (before ++ [r]) after ret tot) snaps held [] nc.kids) }
  | readC {p snaps held acc o k todo nd} (hw : f.ws[w]? = some (.readC p snaps held acc ((o, k) :: todo))) (hd : f.dn[k]? = some nd) :
      FEff env m hash alg code f w none { f with ws := f.ws.set w (.readC p snaps held (acc ++ [(o, nd.x)]) todo) }
  | snapC {nodes d c before r after ret tot nc snaps held acc}
      (hw : f.ws[w]? = some (.readC (.back (nodes ++ [(d, c)]) (before ++ [r]) after ret tot) snaps held acc [])) (hc : f.cn[c]? = some nc)
      (hn : snaps.length + 1 ≠ code.nC) :
      FEff env m hash alg code f w none
        { f with ws := f.ws.set w (.relC (.back (nodes ++ [(d, c)]) (before ++ [r]) after ret tot) (snaps ++ [acc]) held) }
  | relC {p snaps k held} (hw : f.ws[w]? = some (.relC p snaps (k :: held))) :
      FEff env m hash alg code f w none ((f.setLock (.d k) none).setW w (.relC p snaps held))
  | backedC {pc nodes d c before r after ret tot nc snaps held} (hw : f.ws[w]? = some pc) (hc : f.cn[c]? = some nc)
      (hpc : (pc = .own (.back (nodes ++ [(d, c)]) (before ++ [r]) after ret tot) ∧ snaps = [] ∧ held = [] ∧ code.nC = 0) ∨
        ∃ sn acc, pc = .readC (.back (nodes ++ [(d, c)]) (before ++ [r]) after ret tot) sn held acc [] ∧ snaps = sn ++ [acc] ∧
          sn.length + 1 = code.nC) :
      FEff env m hash alg code f w (some (.backedC w c ⟨before, after ++ [r], ret + r, tot⟩))
        { f with ws := f.ws.set w (.post (.backD d nodes before (after ++ [r]) (ret + r) tot) (held.map (fun k => Act.rel (.d k)) ++
            [.setY c (code.resC nc.state nc.action nc.y snaps ⟨before, after ++ [r], ret + r, tot⟩), .rel (.c c)])) }
  | post {next act acts} (hw : f.ws[w]? = some (.post next (act :: acts))) :
      FEff env m hash alg code f w none ((doAct f act).setW w (.post next acts))
  | leave {next} (hw : f.ws[w]? = some (.post next [])) :
      FEff env m hash alg code f w none { f with ws := f.ws.set w (.out next) }

theorem acquire_eq {f f' : FSt S A R X Y} {w : Nat} {l : Lk} {p : Pc S A R X Y} {e : Option (Event S A R)}
    (h : acquire f w l p = some (f', e)) : f.lock l = none ∧ f' = (f.setLock l (some w)).setW w p ∧ e = none := by
  unfold acquire at h
  split at h
  · simp [tau] at h; exact ⟨by assumption, h.1.symm, h.2.symm⟩
  · simp at h

theorem getLast?_split {α : Type} {l : List α} {a : α} (h : l.getLast? = some a) : l = l.dropLast ++ [a] := by
  rcases getLast?_cases l with rfl | ⟨l', b, rfl⟩
  · simp at h
  · simp at h; simp [h]

theorem fstep_eff {env : Env S A R} {m : Manager S R} {hash : Int × S → Nat} {alg : Alg S A R X Y} {code : Code S A R X Y}
    {f f' : FSt S A R X Y} {w : Nat} {ch : FChoice S A} {e : Option (Event S A R)}
    (h : fstep env m hash alg code f w ch = some (f', e)) :
    f.crashed = none ∧ FEff env m hash alg code f w e f' := by
  unfold fstep at h
  split at h
  · simp at h
  rename_i hcr
  refine ⟨by simpa using hcr, ?_⟩
  have lt_of_none {α : Type} {l : List α} {i : Nat} (h : l[i]? = none) : ¬ i < l.length := by simpa using h
  split at h
  · -- began
    rename_i hw
    simp [FSt.setW] at h; obtain ⟨rfl, rfl⟩ := h
    exact .began hw
  · -- out sel
    rename_i cur path rs new hw
    split at h
    · obtain ⟨h1, rfl, rfl⟩ := acquire_eq h
      exact .enter hw rfl (by assumption) h1
    · simp [fcrash] at h; obtain ⟨rfl, rfl⟩ := h
      exact .crash (.outside hw rfl (by assumption) (by simp))
  · -- out samp
    rename_i cur a c path rs new hw
    split at h
    · obtain ⟨h1, rfl, rfl⟩ := acquire_eq h
      exact .enter hw rfl (by assumption) h1
    · simp [fcrash] at h; obtain ⟨rfl, rfl⟩ := h
      exact .crash (.outside hw rfl (by assumption) (by simp))
  · -- out back
    rename_i nodes before after ret tot hw
    split at h
    · rename_i hn
      simp at hn; subst hn
      simp [FSt.setW] at h; obtain ⟨rfl, rfl⟩ := h
      exact .completed hw
    · rename_i d c hn
      split at h
      · rename_i hb
        simp at hb; subst hb
        simp [fcrash] at h; obtain ⟨rfl, rfl⟩ := h
        rw [getLast?_split hn] at hw
        exact .crash (.empty hw)
      · rename_i r hb
        split at h
        · obtain ⟨h1, rfl, rfl⟩ := acquire_eq h
          exact .enter hw (by simp [lkOf, hn]) (by assumption) h1
        · simp [fcrash] at h; obtain ⟨rfl, rfl⟩ := h
          refine .crash (.outside hw (l := .c c) (by simp [lkOf, hn]) (by assumption) ?_)
          intro _ _ _ _ _ he
          cases he
          exact ⟨_, _, getLast?_split hb⟩
  · -- out backD
    rename_i d nodes before after ret tot hw
    split at h
    · obtain ⟨h1, rfl, rfl⟩ := acquire_eq h
      exact .enter hw rfl (by assumption) h1
    · simp [fcrash] at h; obtain ⟨rfl, rfl⟩ := h
      exact .crash (.outside hw rfl (by assumption) (by simp))
  · -- own sel
    rename_i cur path rs new hw
    split at h
    · rename_i hd
      simp [fcrash] at h; obtain ⟨rfl, rfl⟩ := h
      exact .crash (.lost hw (l := .d cur) (by simp [holds, lkOf]) (lt_of_none hd))
    · rename_i nd hd
      split at h
      · rename_i hs
        obtain ⟨hl, hm⟩ := (shouldContinue_iff ..).1 hs
        simp [tau, FSt.setW] at h; obtain ⟨rfl, rfl⟩ := h
        exact .visit hw hd hl hm
      · rename_i hs
        simp [FSt.setW] at h; obtain ⟨rfl, rfl⟩ := h
        refine .ended hw hd ?_
        rw [shouldContinue_iff] at hs
        cases h1 : isLeaf env m nd <;> cases h2 : (m.mctsMode && new) <;> simp_all
  · -- vis sel, act
    rename_i cur path rs new a hw
    split at h
    · rename_i hd
      simp [fcrash] at h; obtain ⟨rfl, rfl⟩ := h
      exact .crash (.lost hw (l := .d cur) (by simp [holds, lkOf]) (lt_of_none hd))
    · rename_i nd hd
      split at h
      · rename_i hs
        unfold outcomeSel at h
        dsimp only at h
        split at h
        · rename_i c hf
          simp [FSt.setW] at h; obtain ⟨rfl, rfl⟩ := h
          exact .selOld (held := []) hw hd (.inl ⟨rfl, rfl, rfl, hs⟩) hf
        · rename_i hf
          simp [FSt.setW] at h; obtain ⟨rfl, rfl⟩ := h
          exact .selNew (held := []) hw hd (.inl ⟨rfl, rfl, rfl, hs⟩) hf
      · simp at h
  · -- vis sel, order
    rename_i cur path rs new ks hw
    split at h
    · rename_i hd
      simp [fcrash] at h; obtain ⟨rfl, rfl⟩ := h
      exact .crash (.lost hw (l := .d cur) (by simp [holds, lkOf]) (lt_of_none hd))
    · rename_i nd hd
      split at h
      · simp [tau, FSt.setW] at h; obtain ⟨rfl, rfl⟩ := h
        exact .startSel hw hd (by assumption)
      · simp at h
  · -- lockD cons
    rename_i p snaps held k todo hw
    split at h
    · obtain ⟨h1, rfl, rfl⟩ := acquire_eq h
      exact .lockD hw (by assumption) h1
    · simp [fcrash] at h; obtain ⟨rfl, rfl⟩ := h
      exact .crash (.kidD hw (by assumption))
  · -- lockD nil
    rename_i p snaps held hw
    split at h
    · rename_i cur path rs new
      split at h
      · rename_i hd
        simp [fcrash] at h; obtain ⟨rfl, rfl⟩ := h
        exact .crash (.lost hw (l := .d cur) (by simp [holds, lkOf]) (lt_of_none hd))
      · rename_i nd hd
        simp [tau, FSt.setW, kidsToRead] at h; obtain ⟨rfl, rfl⟩ := h
        exact .readySel hw hd
    · rename_i d nodes before after ret tot
      split at h
      · rename_i hd
        simp [fcrash] at h; obtain ⟨rfl, rfl⟩ := h
        exact .crash (.lost hw (l := .d d) (by simp [holds, lkOf]) (lt_of_none hd))
      · rename_i nd hd
        simp only [tau, FSt.setW, kidsToRead, Option.some.injEq, Prod.mk.injEq] at h; obtain ⟨rfl, rfl⟩ := h
        exact .readyD hw hd
    · simp at h
  · -- readD cons
    rename_i p snaps held acc a k todo hw
    split at h
    · rename_i hd
      simp [fcrash] at h; obtain ⟨rfl, rfl⟩ := h
      exact .crash (.readD hw (lt_of_none hd))
    · rename_i nc hc
      simp only [tau, FSt.setW, Option.some.injEq, Prod.mk.injEq] at h; obtain ⟨rfl, rfl⟩ := h
      exact .readD hw hc
  · -- readD sel nil
    rename_i cur path rs new snaps held acc a hw
    split at h
    · rename_i hd
      simp [fcrash] at h; obtain ⟨rfl, rfl⟩ := h
      exact .crash (.lost hw (l := .d cur) (by simp [holds, lkOf]) (lt_of_none hd))
    · rename_i nd hd
      split at h
      · rename_i hs
        unfold outcomeSel at h
        dsimp only at h
        split at h
        · rename_i c hf
          simp only [FSt.setW, Option.some.injEq, Prod.mk.injEq] at h; obtain ⟨rfl, rfl⟩ := h
          exact .selOld hw hd (.inr ⟨_, rfl, hs⟩) hf
        · rename_i hf
          simp only [FSt.setW, Option.some.injEq, Prod.mk.injEq] at h; obtain ⟨rfl, rfl⟩ := h
          exact .selNew hw hd (.inr ⟨_, rfl, hs⟩) hf
      · simp at h
  · -- own samp
    rename_i cur a c path rs new hw
    split at h
    · rename_i hd
      simp [fcrash] at h; obtain ⟨rfl, rfl⟩ := h
      exact .crash (.lost hw (l := .c c) (by simp [holds, lkOf]) (lt_of_none hd))
    · rename_i nc hc
      simp only [tau, FSt.setW, Option.some.injEq, Prod.mk.injEq] at h; obtain ⟨rfl, rfl⟩ := h
      exact .visitC hw hc
  · -- vis samp
    rename_i cur a c path rs new o hw
    split at h
    · rename_i hd
      simp [fcrash] at h; obtain ⟨rfl, rfl⟩ := h
      exact .crash (.lost hw (l := .c c) (by simp [holds, lkOf]) (lt_of_none hd))
    · rename_i nc hc
      split at h
      · rename_i ho
        split at h
        · rename_i d' hf
          unfold outcomeSamp at h
          split at h
          · rename_i hd
            simp [fcrash] at h; obtain ⟨rfl, rfl⟩ := h
            exact .crash (.cur hw (.inl rfl) hd)
          · rename_i nd hd
            simp [FSt.setW] at h; obtain ⟨rfl, rfl⟩ := h
            exact .stepOld hw hc hd ho hf
        · rename_i hf
          split at h
          · rename_i hu
            split at h
            · rename_i hm
              simp [fcrash] at h; obtain ⟨rfl, rfl⟩ := h
              exact .crash (.noMutex hw hc ho hf hu hm)
            · rename_i hm
              obtain ⟨h1, rfl, rfl⟩ := acquire_eq h
              exact .wantTable hw hc ho hf hu hm h1
          · rename_i hu
            unfold outcomeSamp at h
            split at h
            · rename_i hd
              simp [fcrash] at h; obtain ⟨rfl, rfl⟩ := h
              exact .crash (.cur hw (.inl rfl) hd)
            · rename_i nd hd
              simp [FSt.setW] at h; obtain ⟨rfl, rfl⟩ := h
              exact .stepNew hw hc hd ho hf (by simpa using hu)
      · simp at h
  · -- tab
    rename_i cur a c path rs new o j hw
    split at h
    · rename_i hd
      simp [fcrash] at h; obtain ⟨rfl, rfl⟩ := h
      exact .crash (.lost hw (l := .c c) (by simp [holds, lkOf]) (lt_of_none hd))
    · rename_i nc hc
      split at h
      · rename_i i ht
        unfold outcomeSamp at h
        split at h
        · rename_i hd
          simp [fcrash] at h; obtain ⟨rfl, rfl⟩ := h
          exact .crash (.cur hw (.inr ⟨_, _, rfl⟩) hd)
        · rename_i nd hd
          simp [FSt.setW] at h; obtain ⟨rfl, rfl⟩ := h
          exact .tabHit hw hc hd ht
      · rename_i ht
        simp [fcrash] at h; obtain ⟨rfl, rfl⟩ := h
        exact .crash (.weak hw hc ht)
      · rename_i ht
        unfold outcomeSamp at h
        split at h
        · rename_i hd
          simp [fcrash] at h; obtain ⟨rfl, rfl⟩ := h
          exact .crash (.cur hw (.inr ⟨_, _, rfl⟩) hd)
        · rename_i nd hd
          simp [FSt.setW] at h; obtain ⟨rfl, rfl⟩ := h
          exact .tabMiss hw hc hd ht
  · -- own back
    rename_i nodes before after ret tot hw
    split at h
    · rename_i d c r hn hb
      rw [getLast?_split hn, getLast?_split hb] at hw
      split at h
      · rename_i hd
        simp [fcrash] at h; obtain ⟨rfl, rfl⟩ := h
        exact .crash (.lost hw (l := .c c) (by simp [holds, lkOf]) (lt_of_none hd))
      · rename_i nc hc
        split at h
        · simp only [outcomeBackC, FSt.setW, Option.some.injEq, Prod.mk.injEq] at h; obtain ⟨rfl, rfl⟩ := h
          exact .backedC (held := []) hw hc (.inl ⟨rfl, rfl, rfl, by assumption⟩)
        · simp at h
      · rename_i nc ks hc
        split at h
        · rename_i hk
          simp only [tau, FSt.setW, Option.some.injEq, Prod.mk.injEq] at h; obtain ⟨rfl, rfl⟩ := h
          rw [getLast?_split hn, getLast?_split hb]
          exact .startC hw hc (.inl ⟨rfl, rfl, hk.1⟩) hk.2
        · simp at h
      · simp at h
    · simp at h
  · -- lockC cons
    rename_i p snaps held k todo hw
    split at h
    · obtain ⟨h1, rfl, rfl⟩ := acquire_eq h
      exact .lockC hw (by assumption) h1
    · simp [fcrash] at h; obtain ⟨rfl, rfl⟩ := h
      exact .crash (.kidC hw (by assumption))
  · -- lockC nil
    rename_i nodes before after ret tot snaps held hw
    split at h
    · rename_i d c r hn hb
      rw [getLast?_split hn, getLast?_split hb] at hw
      split at h
      · rename_i hd
        simp [fcrash] at h; obtain ⟨rfl, rfl⟩ := h
        exact .crash (.lost hw (l := .c c) (by simp [holds, lkOf]) (lt_of_none hd))
      · rename_i nc hc
        simp only [tau, FSt.setW, Option.some.injEq, Prod.mk.injEq] at h; obtain ⟨rfl, rfl⟩ := h
        rw [getLast?_split hn, getLast?_split hb]
        exact .readyC hw hc
    · simp at h
  · -- readC cons
    rename_i p snaps held acc o k todo hw
    split at h
    · rename_i hd
      simp [fcrash] at h; obtain ⟨rfl, rfl⟩ := h
      exact .crash (.readC hw (lt_of_none hd))
    · rename_i nd hd
      simp only [tau, FSt.setW, Option.some.injEq, Prod.mk.injEq] at h; obtain ⟨rfl, rfl⟩ := h
      exact .readC hw hd
  · -- readC nil
    rename_i nodes before after ret tot snaps held acc hw
    split at h
    · rename_i d c r hn hb
      rw [getLast?_split hn, getLast?_split hb] at hw
      split at h
      · rename_i hd
        simp [fcrash] at h; obtain ⟨rfl, rfl⟩ := h
        exact .crash (.lost hw (l := .c c) (by simp [holds, lkOf]) (lt_of_none hd))
      · rename_i nc hc
        split at h
        · simp only [outcomeBackC, FSt.setW, Option.some.injEq, Prod.mk.injEq] at h; obtain ⟨rfl, rfl⟩ := h
          exact .backedC hw hc (.inr ⟨_, _, rfl, rfl, by assumption⟩)
        · simp only [tau, FSt.setW, Option.some.injEq, Prod.mk.injEq] at h; obtain ⟨rfl, rfl⟩ := h
          rw [getLast?_split hn, getLast?_split hb]
          exact .snapC hw hc (by assumption)
    · simp at h
  · -- relC cons
    rename_i p snaps k held hw
    simp only [tau, Option.some.injEq, Prod.mk.injEq] at h; obtain ⟨rfl, rfl⟩ := h
    exact .relC hw
  · -- relC nil
    rename_i nodes before after ret tot snaps ks hw
    split at h
    · rename_i d c r hn hb
      rw [getLast?_split hn, getLast?_split hb] at hw
      split at h
      · rename_i hd
        simp [fcrash] at h; obtain ⟨rfl, rfl⟩ := h
        exact .crash (.lost hw (l := .c c) (by simp [holds, lkOf]) (lt_of_none hd))
      · rename_i nc hc
        split at h
        · rename_i hk
          simp only [tau, FSt.setW, Option.some.injEq, Prod.mk.injEq] at h; obtain ⟨rfl, rfl⟩ := h
          rw [getLast?_split hn, getLast?_split hb]
          exact .startC hw hc (.inr rfl) hk
        · simp at h
    · simp at h
  · -- own backD
    rename_i d nodes before after ret tot hw
    split at h
    · rename_i hd
      simp [fcrash] at h; obtain ⟨rfl, rfl⟩ := h
      exact .crash (.lost hw (l := .d d) (by simp [holds, lkOf]) (lt_of_none hd))
    · rename_i nd hd
      split at h
      · simp only [outcomeBackD, FSt.setW, Option.some.injEq, Prod.mk.injEq] at h; obtain ⟨rfl, rfl⟩ := h
        exact .backedD (held := []) hw hd (.inl ⟨rfl, rfl, rfl, by assumption⟩)
      · simp at h
    · rename_i nd ks hd
      split at h
      · rename_i hk
        simp only [tau, FSt.setW, Option.some.injEq, Prod.mk.injEq] at h; obtain ⟨rfl, rfl⟩ := h
        exact .startD hw hd (.inl ⟨rfl, rfl, hk.1⟩) hk.2
      · simp at h
    · simp at h
  · -- readD backD nil
    rename_i d nodes before after ret tot snaps held acc hw
    split at h
    · rename_i hd
      simp [fcrash] at h; obtain ⟨rfl, rfl⟩ := h
      exact .crash (.lost hw (l := .d d) (by simp [holds, lkOf]) (lt_of_none hd))
    · rename_i nd hd
      split at h
      · simp only [outcomeBackD, FSt.setW, Option.some.injEq, Prod.mk.injEq] at h; obtain ⟨rfl, rfl⟩ := h
        exact .backedD hw hd (.inr ⟨_, _, rfl, rfl, by assumption⟩)
      · simp only [tau, FSt.setW, Option.some.injEq, Prod.mk.injEq] at h; obtain ⟨rfl, rfl⟩ := h
        exact .snapD hw hd (by assumption)
  · -- relD cons
    rename_i p snaps k held hw
    simp only [tau, Option.some.injEq, Prod.mk.injEq] at h; obtain ⟨rfl, rfl⟩ := h
    exact .relD hw
  · -- relD nil
    rename_i d nodes before after ret tot snaps ks hw
    split at h
    · rename_i hd
      simp [fcrash] at h; obtain ⟨rfl, rfl⟩ := h
      exact .crash (.lost hw (l := .d d) (by simp [holds, lkOf]) (lt_of_none hd))
    · rename_i nd hd
      split at h
      · rename_i hk
        simp only [tau, FSt.setW, Option.some.injEq, Prod.mk.injEq] at h; obtain ⟨rfl, rfl⟩ := h
        exact .startD hw hd (.inr rfl) hk
      · simp at h
  · -- post cons
    rename_i next act acts hw
    simp only [tau, Option.some.injEq, Prod.mk.injEq] at h; obtain ⟨rfl, rfl⟩ := h
    exact .post hw
  · -- post nil
    rename_i next hw
    simp only [tau, FSt.setW, Option.some.injEq, Prod.mk.injEq] at h; obtain ⟨rfl, rfl⟩ := h
    exact .leave hw
  · simp at h

end Verif.LockLevel
