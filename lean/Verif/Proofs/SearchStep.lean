import Verif.Proofs.SearchHeap

/-! # What a step does: a case distinction without nested matches -/

namespace Verif.Search

set_option linter.unusedSimpArgs false
set_option linter.unusedSectionVars false

variable {S A R X Y : Type} [DecidableEq S] [DecidableEq A] [Add R] [Zero R]

/-- Why a worker dies. -/
inductive Cause (m : Manager S R) (st : St S A R X Y) (w : Nat) : Err → Prop where
  | sel {cur path rs new} (hw : st.ws[w]? = some (.sel cur path rs new)) (h : st.dn[cur]? = none) : Cause m st w .dangling
  | samp {cur a c path rs new} (hw : st.ws[w]? = some (.samp cur a c path rs new))
      (h : st.cn[c]? = none ∨ st.dn[cur]? = none) : Cause m st w .dangling
  | noMutex {cur a c path rs new nc o} (hw : st.ws[w]? = some (.samp cur a c path rs new)) (hc : st.cn[c]? = some nc)
      (hf : find? o nc.kids = none) (ht : m.useTable = true) (hm : m.numMutexes = 0) : Cause m st w .noMutex
  | weak {cur a c path rs new nc o} (hw : st.ws[w]? = some (.samp cur a c path rs new)) (hc : st.cn[c]? = some nc)
      (hf : find? o nc.kids = none) (ht : m.useTable = true) (hx : find? (nc.time, o) st.table = some none) :
      Cause m st w .badWeakPtr
  | backV {nodes before after ret tot} (hw : st.ws[w]? = some (.back nodes before after ret tot)) (h1 : nodes ≠ [])
      (h2 : before = []) : Cause m st w .emptyVector
  | backC {nodes before after ret tot d c} (hw : st.ws[w]? = some (.back nodes before after ret tot))
      (h1 : nodes.getLast? = some (d, c)) (h2 : st.cn[c]? = none) : Cause m st w .dangling
  | backD {d nodes before after ret tot} (hw : st.ws[w]? = some (.backD d nodes before after ret tot))
      (h2 : st.dn[d]? = none) : Cause m st w .dangling

/-- The effect of one step, block by block. -/
inductive Eff (env : Env S A R) (m : Manager S R) (alg : Alg S A R X Y) (st : St S A R X Y) (w : Nat) :
    Event S A R → St S A R X Y → Prop where
  | crash {e} (h : Cause m st w e) : Eff env m alg st w (.crash w e) { st with crashed := some e }
  | began (hw : st.ws[w]? = some .idle) :
      Eff env m alg st w (.began w) { st with ws := st.ws.set w (.sel st.root [] [] false), ctxs := st.ctxs.set w {} }
  | selOld {cur path rs new nd a c} (hw : st.ws[w]? = some (.sel cur path rs new)) (hd : st.dn[cur]? = some nd)
      (hl : isLeaf env m nd = false) (hm : (m.mctsMode && new) = false)
      (ha : alg.canSelect (viewOf env m st { nd with visits := nd.visits + 1, x := alg.visitD false nd.x }) (st.ctxOf w) a = true) (hf : find? a nd.kids = some c) :
      Eff env m alg st w (.selected w cur a c)
        { st with dn := st.dn.set cur { nd with visits := nd.visits + 1, x := alg.visitD false nd.x },
                  ws := st.ws.set w (.samp cur a c path rs new),
                  ctxs := st.ctxs.set w (alg.selCtx (viewOf env m st { nd with visits := nd.visits + 1, x := alg.visitD false nd.x }) (st.ctxOf w) a) }
  | selNew {cur path rs new nd a} (hw : st.ws[w]? = some (.sel cur path rs new)) (hd : st.dn[cur]? = some nd)
      (hl : isLeaf env m nd = false) (hm : (m.mctsMode && new) = false)
      (ha : alg.canSelect (viewOf env m st { nd with visits := nd.visits + 1, x := alg.visitD false nd.x }) (st.ctxOf w) a = true) (hf : find? a nd.kids = none) :
      Eff env m alg st w (.selected w cur a st.cn.length)
        { st with dn := st.dn.set cur { nd with visits := nd.visits + 1, x := alg.visitD false nd.x,
                                                kids := nd.kids ++ [(a, st.cn.length)] },
                  cn := st.cn ++ [newC alg nd a],
                  ws := st.ws.set w (.samp cur a st.cn.length path rs new),
                  ctxs := st.ctxs.set w (alg.selCtx (viewOf env m st { nd with visits := nd.visits + 1, x := alg.visitD false nd.x }) (st.ctxOf w) a) }
  | ended {cur path rs new nd} (hw : st.ws[w]? = some (.sel cur path rs new)) (hd : st.dn[cur]? = some nd)
      (hs : isLeaf env m nd = true ∨ (m.mctsMode && new) = true) :
      Eff env m alg st w (.ended w cur nd.heur)
        { st with dn := st.dn.set cur { nd with visits := nd.visits + 1, x := alg.visitD (isLeaf env m nd) nd.x },
                  ws := st.ws.set w (.back path rs [nd.heur] nd.heur (total (rs ++ [nd.heur]))) }
  | stepOld {cur a c path rs new nc nd o d'} (hw : st.ws[w]? = some (.samp cur a c path rs new))
      (hc : st.cn[c]? = some nc) (hd : st.dn[cur]? = some nd) (ho : o ∈ env.succ nc.state nc.action)
      (hf : find? o nc.kids = some d') :
      Eff env m alg st w (.stepped w cur a c o d' (env.reward nd.state a o) false)
        { st with cn := st.cn.set c { nc with visits := nc.visits + 1, y := alg.visitC nc.y },
                  ws := st.ws.set w (.sel d' (path ++ [(cur, c)]) (rs ++ [env.reward nd.state a o]) new) }
  | stepNew {cur a c path rs new nc nd o} {tb} (hw : st.ws[w]? = some (.samp cur a c path rs new))
      (hc : st.cn[c]? = some nc) (hd : st.dn[cur]? = some nd) (ho : o ∈ env.succ nc.state nc.action)
      (hf : find? o nc.kids = none)
      (ht : (m.useTable = false ∧ tb = st.table) ∨ (m.useTable = true ∧ find? (nc.time, o) st.table = none ∧
        tb = st.table ++ [((nc.time, o), some st.dn.length)])) :
      Eff env m alg st w (.stepped w cur a c o st.dn.length (env.reward nd.state a o) true)
        { st with cn := st.cn.set c { nc with visits := nc.visits + 1, y := alg.visitC nc.y,
                                              kids := nc.kids ++ [(o, st.dn.length)] },
                  dn := st.dn ++ [newD env m alg o (nc.depth + 1) (nc.time + 1)],
                  table := tb,
                  ws := st.ws.set w (.sel st.dn.length (path ++ [(cur, c)]) (rs ++ [env.reward nd.state a o]) true) }
  | stepHit {cur a c path rs new nc nd o d'} (hw : st.ws[w]? = some (.samp cur a c path rs new))
      (hc : st.cn[c]? = some nc) (hd : st.dn[cur]? = some nd) (ho : o ∈ env.succ nc.state nc.action)
      (hf : find? o nc.kids = none) (hu : m.useTable = true) (ht : find? (nc.time, o) st.table = some (some d')) :
      Eff env m alg st w (.stepped w cur a c o d' (env.reward nd.state a o) true)
        { st with cn := st.cn.set c { nc with visits := nc.visits + 1, y := alg.visitC nc.y,
                                              kids := nc.kids ++ [(o, d')] },
                  ws := st.ws.set w (.sel d' (path ++ [(cur, c)]) (rs ++ [env.reward nd.state a o]) true) }
  | completed {before after ret tot} (hw : st.ws[w]? = some (.back [] before after ret tot)) :
      Eff env m alg st w (.completed w) { st with ws := st.ws.set w .idle }
  | backedC {nodes d c before r after ret tot nc} (hw : st.ws[w]? = some (.back (nodes ++ [(d, c)]) (before ++ [r]) after ret tot))
      (hc : st.cn[c]? = some nc) :
      Eff env m alg st w (.backedC w c ⟨before, after ++ [r], ret + r, tot⟩)
        { st with cn := st.cn.set c { nc with y := alg.backupC nc.state nc.action nc.y (kidsX st nc)
                                                    ⟨before, after ++ [r], ret + r, tot⟩ },
                  ws := st.ws.set w (.backD d nodes before (after ++ [r]) (ret + r) tot) }
  | backedD {d nodes before after ret tot nd} (hw : st.ws[w]? = some (.backD d nodes before after ret tot))
      (hd : st.dn[d]? = some nd) :
      Eff env m alg st w (.backedD w d ⟨before, after, ret, tot⟩)
        { st with dn := st.dn.set d { nd with x := alg.backupD (viewOf env m st nd) (st.ctxOf w) ⟨before, after, ret, tot⟩ },
                  ws := st.ws.set w (.back nodes before after ret tot) }

theorem shouldContinue_iff (env : Env S A R) (m : Manager S R) (nd : DNode S A R X) (new : Bool) :
    shouldContinue env m nd new = true ↔ isLeaf env m nd = false ∧ (m.mctsMode && new) = false := by
  unfold shouldContinue
  cases isLeaf env m nd <;> cases (m.mctsMode && new) <;> simp

theorem getLast?_cases {α : Type} (l : List α) : l = [] ∨ ∃ l' a, l = l' ++ [a] := by
  rcases List.eq_nil_or_concat l with h | ⟨l', a, h⟩
  · exact .inl h
  · exact .inr ⟨l', a, by simpa using h⟩

theorem step_eff {env : Env S A R} {m : Manager S R} {alg : Alg S A R X Y} {st st' : St S A R X Y} {w : Nat}
    {ch : Choice S A} {e : Event S A R} (h : step env m alg st w ch = some (st', e)) :
    st.crashed = none ∧ Eff env m alg st w e st' := by
  unfold step at h
  split at h
  · simp at h
  rename_i hcr
  refine ⟨by simpa using hcr, ?_⟩
  split at h
  · simp at h
  · -- idle
    rename_i hw
    split at h
    · simp at h; obtain ⟨rfl, rfl⟩ := h
      exact .began hw
    · simp at h
  · -- sel
    rename_i cur path rs new hw
    split at h
    · rename_i hd
      simp [crash] at h; obtain ⟨rfl, rfl⟩ := h
      exact .crash (.sel hw hd)
    · rename_i nd hd
      have hlt := (List.getElem?_eq_some_iff.1 hd).1
      split at h
      · rename_i hs
        obtain ⟨hl, hm⟩ := (shouldContinue_iff ..).1 hs
        split at h
        · rename_i a
          unfold blockD at h
          dsimp only at h
          split at h
          · rename_i ha
            cases hf : find? a nd.kids with
            | some c =>
              simp [createC, hf, hlt] at h
              obtain ⟨rfl, rfl⟩ := h
              exact .selOld hw hd hl hm ha hf
            | none =>
              simp [createC, hf, hlt, find?_append] at h
              obtain ⟨rfl, rfl⟩ := h
              exact .selNew hw hd hl hm ha hf
          · simp at h
        · simp at h
      · rename_i hs
        split at h
        · unfold blockEnd at h
          simp at h
          obtain ⟨rfl, rfl⟩ := h
          refine .ended (new := new) hw hd ?_
          rw [shouldContinue_iff] at hs
          cases h1 : isLeaf env m nd <;> cases h2 : (m.mctsMode && new) <;> simp_all
        · simp at h
  · -- samp
    rename_i cur a c path rs new hw
    split at h
    · rename_i o
      unfold blockC at h
      split at h
      · rename_i nc nd hc hd
        have hlt := (List.getElem?_eq_some_iff.1 hc).1
        split at h
        · rename_i ho
          unfold createD at h
          cases hf : find? o nc.kids with
          | some d' =>
            simp [hf, hlt] at h
            obtain ⟨rfl, rfl⟩ := h
            exact .stepOld hw hc hd ho hf
          | none =>
            simp only [hf] at h
            by_cases hu : m.useTable = true
            · by_cases hm : m.numMutexes = 0
              · simp [hu, hm, crash] at h
                obtain ⟨rfl, rfl⟩ := h
                exact .crash (.noMutex hw hc hf hu hm)
              · cases ht : find? (nc.time, o) st.table with
                | none =>
                  simp [hu, hm, ht, hlt, find?_append, hf] at h
                  obtain ⟨rfl, rfl⟩ := h
                  exact .stepNew (new := new) hw hc hd ho hf (.inr ⟨hu, ht, rfl⟩)
                | some v =>
                  cases v with
                  | none =>
                    simp [hu, hm, ht, crash] at h
                    obtain ⟨rfl, rfl⟩ := h
                    exact .crash (.weak hw hc hf hu ht)
                  | some d' =>
                    simp [hu, hm, ht, hlt, find?_append, hf] at h
                    obtain ⟨rfl, rfl⟩ := h
                    exact .stepHit (new := new) hw hc hd ho hf hu ht
            · simp [hu, hlt, find?_append, hf] at h
              obtain ⟨rfl, rfl⟩ := h
              exact .stepNew (new := new) hw hc hd ho hf (.inl ⟨by simpa using hu, rfl⟩)
        · simp at h
      · rename_i hno
        simp [crash] at h
        obtain ⟨rfl, rfl⟩ := h
        refine .crash (.samp hw ?_)
        cases h1 : st.cn[c]? with
        | none => exact .inl rfl
        | some nc =>
          cases h2 : st.dn[cur]? with
          | none => exact .inr rfl
          | some nd => exact absurd h2 (fun _ => hno nc nd h1 h2)
    · simp at h
  · -- back
    rename_i nodes before after ret tot hw
    split at h
    · unfold blockBackC at h
      rcases getLast?_cases nodes with rfl | ⟨nodes, ⟨d, c⟩, rfl⟩
      · simp at h; obtain ⟨rfl, rfl⟩ := h
        exact .completed hw
      · rcases getLast?_cases before with rfl | ⟨before, r, rfl⟩
        · simp [crash] at h; obtain ⟨rfl, rfl⟩ := h
          exact .crash (.backV hw (by simp) rfl)
        · simp at h
          split at h
          · rename_i hc
            simp [crash] at h; obtain ⟨rfl, rfl⟩ := h
            exact .crash (.backC hw (by simp; rfl) hc)
          · rename_i nc hc
            simp at h; obtain ⟨rfl, rfl⟩ := h
            exact .backedC hw hc
    · simp at h
  · -- backD
    rename_i d nodes before after ret tot hw
    split at h
    · unfold blockBackD at h
      simp only at h
      split at h
      · rename_i hd
        simp [crash] at h; obtain ⟨rfl, rfl⟩ := h
        exact .crash (.backD hw hd)
      · rename_i nd hd
        simp at h; obtain ⟨rfl, rfl⟩ := h
        exact .backedD hw hd
    · simp at h

end Verif.Search
