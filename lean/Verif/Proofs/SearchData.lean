import Verif.Proofs.SearchMore

/-! # How one step changes one node, and counting backups -/

namespace Verif.Search

set_option linter.unusedSimpArgs false
set_option linter.unusedSectionVars false

variable {S A R X Y : Type} [DecidableEq S] [DecidableEq A]

/-- The event does something to decision node `d`. -/
def Event.touchesD (d : Nat) : Event S A R → Bool
  | .selected _ d' _ _ => d' == d
  | .ended _ d' _ => d' == d
  | .backedD _ d' _ => d' == d
  | _ => false

/-- The event does something to chance node `c`. -/
def Event.touchesC (c : Nat) : Event S A R → Bool
  | .stepped _ _ _ c' _ _ _ _ => c' == c
  | .backedC _ c' _ => c' == c
  | _ => false

section
variable [Add R] [Zero R]

/-- How decision node `d` changes. -/
inductive DChg (env : Env S A R) (m : Manager S R) (alg : Alg S A R X Y) (st : St S A R X Y) (d : Nat) (nd : DNode S A R X) :
    Event S A R → DNode S A R X → Prop where
  | same {e} (he : e.touchesD d = false) : DChg env m alg st d nd e nd
  | selOld {w a c} (hl : isLeaf env m nd = false)
      (ha : alg.canSelect (viewOf env m st { nd with visits := nd.visits + 1, x := alg.visitD false nd.x }) (st.ctxOf w) a = true)
      (hf : find? a nd.kids = some c) :
      DChg env m alg st d nd (.selected w d a c) { nd with visits := nd.visits + 1, x := alg.visitD false nd.x }
  | selNew {w a} (hl : isLeaf env m nd = false)
      (ha : alg.canSelect (viewOf env m st { nd with visits := nd.visits + 1, x := alg.visitD false nd.x }) (st.ctxOf w) a = true)
      (hf : find? a nd.kids = none) :
      DChg env m alg st d nd (.selected w d a st.cn.length)
        { nd with visits := nd.visits + 1, x := alg.visitD false nd.x, kids := nd.kids ++ [(a, st.cn.length)] }
  | ended {w} : DChg env m alg st d nd (.ended w d nd.heur)
      { nd with visits := nd.visits + 1, x := alg.visitD (isLeaf env m nd) nd.x }
  | backed {w args} : DChg env m alg st d nd (.backedD w d args) { nd with x := alg.backupD (viewOf env m st nd) (st.ctxOf w) args }

/-- How chance node `c` changes. -/
inductive CChg (env : Env S A R) (alg : Alg S A R X Y) (st : St S A R X Y) (c : Nat) (nc : CNode S A R Y) :
    Event S A R → CNode S A R Y → Prop where
  | same {e} (he : e.touchesC c = false) : CChg env alg st c nc e nc
  | stepped {w d a o d' r g kids'} (ho : o ∈ env.succ nc.state nc.action)
      (hk : (g = false ∧ find? o nc.kids = some d' ∧ kids' = nc.kids) ∨
            (g = true ∧ find? o nc.kids = none ∧ kids' = nc.kids ++ [(o, d')])) :
      CChg env alg st c nc (.stepped w d a c o d' r g) { nc with visits := nc.visits + 1, y := alg.visitC nc.y, kids := kids' }
  | backed {w args} : CChg env alg st c nc (.backedC w c args)
      { nc with y := alg.backupC nc.state nc.action nc.y (kidsX st nc) args }

theorem touchesD_ne {d d' : Nat} (h : d' ≠ d) : (d == d') = false := by simp [Ne.symm h]

theorem dn_chg {env : Env S A R} {m : Manager S R} {alg : Alg S A R X Y} {st st' : St S A R X Y} {w : Nat} {e : Event S A R}
    (E : Eff env m alg st w e st') {d : Nat} {nd' : DNode S A R X} (hd : st'.dn[d]? = some nd') :
    (∃ nd, st.dn[d]? = some nd ∧ DChg env m alg st d nd e nd') ∨
    (d = st.dn.length ∧ e.touchesD d = false ∧ ∃ s dep tim, nd' = newD env m alg s dep tim) := by
  cases E with
  | crash hc => exact .inl ⟨_, hd, .same rfl⟩
  | began hw => exact .inl ⟨_, hd, .same rfl⟩
  | @selOld cur path rs new nd a c hw hd' hl hm ha hf =>
    rcases set_cases hd with ⟨rfl, rfl⟩ | ⟨hne, hd⟩
    · exact .inl ⟨nd, hd', .selOld hl ha hf⟩
    · exact .inl ⟨_, hd, .same (by simp [Event.touchesD, Ne.symm hne])⟩
  | @selNew cur path rs new nd a hw hd' hl hm ha hf =>
    rcases set_cases hd with ⟨rfl, rfl⟩ | ⟨hne, hd⟩
    · exact .inl ⟨nd, hd', .selNew hl ha hf⟩
    · exact .inl ⟨_, hd, .same (by simp [Event.touchesD, Ne.symm hne])⟩
  | @ended cur path rs new nd hw hd' hs =>
    rcases set_cases hd with ⟨rfl, rfl⟩ | ⟨hne, hd⟩
    · exact .inl ⟨nd, hd', .ended⟩
    · exact .inl ⟨_, hd, .same (by simp [Event.touchesD, Ne.symm hne])⟩
  | @stepOld cur a c path rs new nc nd o d' hw hc hd' ho hf => exact .inl ⟨_, hd, .same rfl⟩
  | @stepNew cur a c path rs new nc nd o tb hw hc hd' ho hf ht =>
    rcases snoc_cases hd with ⟨_, hd⟩ | ⟨rfl, rfl⟩
    · exact .inl ⟨_, hd, .same rfl⟩
    · exact .inr ⟨rfl, rfl, _, _, _, rfl⟩
  | @stepHit cur a c path rs new nc nd o d' hw hc hd' ho hf hu ht => exact .inl ⟨_, hd, .same rfl⟩
  | completed hw => exact .inl ⟨_, hd, .same rfl⟩
  | @backedC nodes d c before r after ret tot nc hw hc => exact .inl ⟨_, hd, .same rfl⟩
  | @backedD cur nodes before after ret tot nd hw hd' =>
    rcases set_cases hd with ⟨rfl, rfl⟩ | ⟨hne, hd⟩
    · exact .inl ⟨nd, hd', .backed⟩
    · exact .inl ⟨_, hd, .same (by simp [Event.touchesD, Ne.symm hne])⟩

theorem cn_chg {env : Env S A R} {m : Manager S R} {alg : Alg S A R X Y} {st st' : St S A R X Y} {w : Nat} {e : Event S A R}
    (E : Eff env m alg st w e st') {c : Nat} {nc' : CNode S A R Y} (hc : st'.cn[c]? = some nc') :
    (∃ nc, st.cn[c]? = some nc ∧ CChg env alg st c nc e nc') ∨
    (c = st.cn.length ∧ e.touchesC c = false ∧ ∃ nd a, nc' = newC alg nd a) := by
  cases E with
  | crash hc' => exact .inl ⟨_, hc, .same rfl⟩
  | began hw => exact .inl ⟨_, hc, .same rfl⟩
  | @selOld cur path rs new nd a c hw hd' hl hm ha hf => exact .inl ⟨_, hc, .same rfl⟩
  | @selNew cur path rs new nd a hw hd' hl hm ha hf =>
    rcases snoc_cases hc with ⟨_, hc⟩ | ⟨rfl, rfl⟩
    · exact .inl ⟨_, hc, .same rfl⟩
    · exact .inr ⟨rfl, rfl, _, _, rfl⟩
  | @ended cur path rs new nd hw hd' hs => exact .inl ⟨_, hc, .same rfl⟩
  | @stepOld cur a c path rs new nc nd o d' hw hc' hd' ho hf =>
    rcases set_cases hc with ⟨rfl, rfl⟩ | ⟨hne, hc⟩
    · exact .inl ⟨nc, hc', .stepped ho (.inl ⟨rfl, hf, rfl⟩)⟩
    · exact .inl ⟨_, hc, .same (by simp [Event.touchesC, Ne.symm hne])⟩
  | @stepNew cur a c path rs new nc nd o tb hw hc' hd' ho hf ht =>
    rcases set_cases hc with ⟨rfl, rfl⟩ | ⟨hne, hc⟩
    · exact .inl ⟨nc, hc', .stepped ho (.inr ⟨rfl, hf, rfl⟩)⟩
    · exact .inl ⟨_, hc, .same (by simp [Event.touchesC, Ne.symm hne])⟩
  | @stepHit cur a c path rs new nc nd o d' hw hc' hd' ho hf hu ht =>
    rcases set_cases hc with ⟨rfl, rfl⟩ | ⟨hne, hc⟩
    · exact .inl ⟨nc, hc', .stepped ho (.inr ⟨rfl, hf, rfl⟩)⟩
    · exact .inl ⟨_, hc, .same (by simp [Event.touchesC, Ne.symm hne])⟩
  | completed hw => exact .inl ⟨_, hc, .same rfl⟩
  | @backedC nodes d c before r after ret tot nc hw hc' =>
    rcases set_cases hc with ⟨rfl, rfl⟩ | ⟨hne, hc⟩
    · exact .inl ⟨nc, hc', .backed⟩
    · exact .inl ⟨_, hc, .same (by simp [Event.touchesC, Ne.symm hne])⟩
  | @backedD cur nodes before after ret tot nd hw hd' => exact .inl ⟨_, hc, .same rfl⟩

/-- Events only touch nodes that exist. -/
structure Touch (st : St S A R X Y) (h : List (Event S A R)) : Prop where
  d : ∀ e ∈ h, ∀ d, e.touchesD d = true → d < st.dn.length
  c : ∀ e ∈ h, ∀ c, e.touchesC c = true → c < st.cn.length

theorem touch_eff {env : Env S A R} {m : Manager S R} {alg : Alg S A R X Y} {st st' : St S A R X Y} {w : Nat} {e : Event S A R}
    {h : List (Event S A R)} (T : Touch st h) (E : Eff env m alg st w e st') : Touch st' (e :: h) := by
  have h1 : st.dn.length ≤ st'.dn.length := by cases E <;> simp
  have h2 : st.cn.length ≤ st'.cn.length := by cases E <;> simp
  constructor
  · intro e' he d ht
    rcases List.mem_cons.1 he with rfl | he
    · cases E <;> simp [Event.touchesD] at ht <;> subst ht <;> rename_i hd _ _ <;>
        first | (exact Nat.lt_of_lt_of_le (List.getElem?_eq_some_iff.1 ‹_›).1 h1)
    · exact Nat.lt_of_lt_of_le (T.d e' he d ht) h1
  · intro e' he c ht
    rcases List.mem_cons.1 he with rfl | he
    · cases E <;> simp [Event.touchesC] at ht <;> subst ht <;>
        first | (exact Nat.lt_of_lt_of_le (List.getElem?_eq_some_iff.1 ‹_›).1 h2)
    · exact Nat.lt_of_lt_of_le (T.c e' he c ht) h2

end

end Verif.Search
