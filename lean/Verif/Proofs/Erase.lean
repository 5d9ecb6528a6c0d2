import Verif.Model.Search
import Verif.Spec.Search

/-! # The tree and the history do not depend on the data the algorithm keeps

If an algorithm may select every valid action, its runs are those of the algorithm without data (used to evaluate concrete runs of
algorithms with real-valued data). -/

namespace Verif.Search

variable {S A R X Y : Type} [DecidableEq S] [DecidableEq A]

def DNode.erase (d : DNode S A R X) : DNode S A R Unit := ⟨d.state, d.depth, d.time, d.visits, d.heur, d.kids, ()⟩
def CNode.erase (c : CNode S A R Y) : CNode S A R Unit := ⟨c.state, c.action, c.depth, c.time, c.visits, c.kids, ()⟩
def St.erase (st : St S A R X Y) : St S A R Unit Unit :=
  { root := st.root, dn := st.dn.map DNode.erase, cn := st.cn.map CNode.erase, table := st.table, ws := st.ws,
    ctxs := st.ctxs.map fun _ => {}, crashed := st.crashed }

/-- The algorithm without data that may select any valid action. -/
def free (S A R : Type) [DecidableEq A] (iv : Nat) : Alg S A R Unit Unit where
  initVisits := iv
  initD _ _ _ _ := ()
  initC _ _ _ _ := ()
  visitD _ x := x
  visitC y := y
  canSelect v _ a := decide (a ∈ v.actions)
  backupD v _ _ := v.x
  backupC _ _ y _ _ := y

variable [Add R] [Zero R] {env : Env S A R} {m : Manager S R} {alg : Alg S A R X Y}

theorem init_erase (env : Env S A R) (m : Manager S R) (alg : Alg S A R X Y) (k : Nat) (s0 : S) (dp tm : Int)
    (tb : List ((Int × S) × Option Nat)) :
    (init env m alg k s0 dp tm tb).erase = init env m (free S A R alg.initVisits) k s0 dp tm tb := by
  simp [init, St.erase, newD, DNode.erase, free]

/-- It is enough that the algorithm may select every valid action in this state. -/
theorem step_erase_at (st : St S A R X Y) (w : Nat) (ch : Choice S A)
    (hsel : ∀ cur path rs new nd a, st.ws[w]? = some (.sel cur path rs new) → st.dn[cur]? = some nd → shouldContinue env m nd new = true →
      alg.canSelect (viewOf env m st { nd with visits := nd.visits + 1, x := alg.visitD false nd.x }) (st.ctxOf w) a =
        decide (a ∈ env.actions nd.state)) :
    step env m (free S A R alg.initVisits) st.erase w ch = (step env m alg st w ch).map fun p => (p.1.erase, p.2) := by
  have hset : ∀ {n : Nat} {nd : DNode S A R X}, (st.dn.set n nd).map DNode.erase = (st.dn.map DNode.erase).set n nd.erase := by
    intro n nd; rw [List.map_set]
  have hsetC : ∀ {n : Nat} {nd : CNode S A R Y}, (st.cn.set n nd).map CNode.erase = (st.cn.map CNode.erase).set n nd.erase := by
    intro n nd; rw [List.map_set]
  have hg : ∀ o : Option (Ctx A R), (o.map fun _ => ({} : Ctx A R)).getD {} = {} := by intro o; cases o <;> rfl
  unfold step
  have e1 : st.erase.crashed = st.crashed := rfl
  have e2 : st.erase.ws = st.ws := rfl
  rw [e1, e2]
  by_cases hc : st.crashed.isSome
  · simp [hc]
  · rw [if_neg hc, if_neg hc]
    cases hw : st.ws[w]? with
    | none => rfl
    | some p =>
      cases p with
      | idle =>
        cases ch <;> simp [St.setCtx, St.setW, St.erase, List.map_set]
      | sel cur path rewards new =>
        have e3 : st.erase.dn[cur]? = (st.dn[cur]?).map DNode.erase := by simp [St.erase]
        dsimp only
        rw [e3]
        cases hd : st.dn[cur]? with
        | none => simp [crash, St.erase]
        | some nd =>
          have e4 : shouldContinue env m nd.erase new = shouldContinue env m nd new := rfl
          have hlt : cur < st.dn.length := (List.getElem?_eq_some_iff.1 hd).1
          simp only [Option.map_some, e4]
          split
          next hcont =>
            cases ch with
            | act a =>
              simp only [blockD]
              rw [hsel cur path rewards new nd a hw hd hcont]
              have e5 : (free S A R alg.initVisits).canSelect
                  (viewOf env m st.erase { nd.erase with visits := nd.erase.visits + 1, x := (free S A R alg.initVisits).visitD false nd.erase.x })
                  (st.erase.ctxOf w) a = decide (a ∈ env.actions nd.state) := rfl
              rw [e5]
              by_cases ha : a ∈ env.actions nd.state
              · simp only [ha, decide_true, if_true, createC]
                have e7 : nd.erase.kids = nd.kids := rfl
                simp only [e7]
                cases hf : find? a nd.kids with
                | some c =>
                  simp [St.erase, hlt, hf, e7, St.setCtx, St.setW, List.map_set, DNode.erase, free, St.ctxOf, hg]
                | none =>
                  have hfa : ∀ (l : List (A × Nat)) n, find? a l = none → find? a (l ++ [(a, n)]) = some n := by
                    intro l n
                    induction l with
                    | nil => intro _; simp [find?]
                    | cons q l ih =>
                      obtain ⟨k, v⟩ := q
                      simp only [find?, List.cons_append]
                      split
                      · simp
                      · exact ih
                  simp [St.erase, hlt, e7, St.setCtx, St.setW, List.map_set, DNode.erase, free, CNode.erase, newC, hfa _ _ hf, St.ctxOf, hg]
              · simp [ha]
            | go => rfl
            | obs o => rfl
          · cases ch with
            | go =>
              simp [blockEnd, St.setW, St.erase, List.map_set, DNode.erase, free]
            | act a => rfl
            | obs o => rfl
      | samp cur a c path rewards new =>
        cases ch with
        | obs o =>
          dsimp only
          unfold blockC
          have e3 : st.erase.dn[cur]? = (st.dn[cur]?).map DNode.erase := by simp [St.erase]
          have e4 : st.erase.cn[c]? = (st.cn[c]?).map CNode.erase := by simp [St.erase]
          rw [e3, e4]
          cases hcn : st.cn[c]? with
          | none => simp [crash, St.erase]
          | some nc =>
            have hlt : c < st.cn.length := (List.getElem?_eq_some_iff.1 hcn).1
            cases hd : st.dn[cur]? with
            | none => simp [crash, St.erase]
            | some nd =>
              simp only [Option.map_some]
              have e5 : nc.erase.state = nc.state := rfl
              have e6 : nc.erase.action = nc.action := rfl
              rw [e5, e6]
              by_cases ho : o ∈ env.succ nc.state nc.action
              · rw [if_pos ho, if_pos ho]
                unfold createD
                have e7 : nc.erase.kids = nc.kids := rfl
                have e8 : st.erase.table = st.table := rfl
                have e9 : nc.erase.time = nc.time := rfl
                have e10 : st.erase.dn.length = st.dn.length := by simp [St.erase]
                have hfa : ∀ (l : List (S × Nat)) n, find? o l = none → find? o (l ++ [(o, n)]) = some n := by
                  intro l n
                  induction l with
                  | nil => intro _; simp [find?]
                  | cons q l ih =>
                    obtain ⟨k, v⟩ := q
                    simp only [find?, List.cons_append]
                    split
                    · simp
                    · exact ih
                simp only [e7, e8, e9, e10]
                cases hf : find? o nc.kids with
                | some d' =>
                  simp [St.erase, hlt, hf, St.setW, List.map_set, CNode.erase, DNode.erase, free]
                | none =>
                  by_cases hu : m.useTable
                  · by_cases hm : m.numMutexes = 0
                    · simp [crash, St.erase, hu, hm]
                    · cases ht : find? (nc.time, o) st.table with
                      | none => simp [hu, hm, St.erase, hlt, St.setW, List.map_set, CNode.erase, DNode.erase, free, newD, hfa _ _ hf]
                      | some oi =>
                        cases oi with
                        | none => simp [hu, hm, crash, St.erase]
                        | some i => simp [hu, hm, St.erase, hlt, St.setW, List.map_set, CNode.erase, DNode.erase, free, newD, hfa _ _ hf]
                  · simp [hu, St.erase, hlt, St.setW, List.map_set, CNode.erase, DNode.erase, free, newD, hfa _ _ hf]
              · rw [if_neg ho, if_neg ho]
                rfl
        | go => rfl
        | act a => rfl
      | back nodes before after ret tot =>
        cases ch with
        | go =>
          dsimp only
          unfold blockBackC
          cases hl : nodes.getLast? with
          | none => simp [St.setW, St.erase]
          | some p =>
            obtain ⟨d, c⟩ := p
            cases hb : before.getLast? with
            | none => simp [crash, St.erase]
            | some r =>
              have e4 : st.erase.cn[c]? = (st.cn[c]?).map CNode.erase := by simp [St.erase]
              simp only
              rw [e4]
              cases hcn : st.cn[c]? with
              | none => simp [crash, St.erase]
              | some nc => simp [St.setW, St.erase, List.map_set, CNode.erase, free]
        | act a => rfl
        | obs o => rfl
      | backD d nodes before after ret tot =>
        cases ch with
        | go =>
          dsimp only
          unfold blockBackD
          have e3 : st.erase.dn[d]? = (st.dn[d]?).map DNode.erase := by simp [St.erase]
          rw [e3]
          cases hd : st.dn[d]? with
          | none => simp [crash, St.erase]
          | some nd => simp [St.setW, St.erase, List.map_set, DNode.erase, free, viewOf]
        | act a => rfl
        | obs o => rfl

theorem step_erase (hsel : ∀ v ctx a, alg.canSelect v ctx a = decide (a ∈ v.actions)) (st : St S A R X Y) (w : Nat) (ch : Choice S A) :
    step env m (free S A R alg.initVisits) st.erase w ch = (step env m alg st w ch).map fun p => (p.1.erase, p.2) :=
  step_erase_at st w ch fun _ _ _ _ _ _ _ _ _ => hsel _ _ _

theorem exec_erase (hsel : ∀ v ctx a, alg.canSelect v ctx a = decide (a ∈ v.actions)) (ls : List (Nat × Choice S A)) :
    ∀ (st : St S A R X Y) h, execFrom env m (free S A R alg.initVisits) st.erase h ls =
      (execFrom env m alg st h ls).map fun p => (p.1.erase, p.2) := by
  induction ls with
  | nil => intro st h; rfl
  | cons l ls ih =>
    obtain ⟨w, ch⟩ := l
    intro st h
    simp only [execFrom]
    rw [step_erase hsel]
    cases step env m alg st w ch with
    | none => rfl
    | some p => simp only [Option.map_some]; exact ih p.1 _

/-- Evaluate a schedule without data and check a decidable property of the outcome. -/
theorem run_erase (hsel : ∀ v ctx a, alg.canSelect v ctx a = decide (a ∈ v.actions)) (k : Nat) (s0 : S) (dp tm : Int)
    (ls : List (Nat × Choice S A)) (P : St S A R Unit Unit → List (Event S A R) → Prop)
    (h : ∃ p, execFrom env m (free S A R alg.initVisits) (init env m (free S A R alg.initVisits) k s0 dp tm []) [] ls = some p ∧ P p.1 p.2) :
    ∃ st h, Reachable env m alg k s0 dp tm [] st h ∧ P st.erase h := by
  obtain ⟨p, h1, h2⟩ := h
  rw [← init_erase, exec_erase hsel] at h1
  obtain ⟨q, h3, h4⟩ := Option.map_eq_some_iff.1 h1
  exact ⟨q.1, q.2, ⟨ls, h3⟩, by rw [← h4] at h2; exact h2⟩

end Verif.Search
