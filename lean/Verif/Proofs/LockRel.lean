import Verif.Proofs.LockRace
import Verif.Proofs.SearchIntro

/-!
# How a state at the level of locks and a state of the search correspond

Nodes that nobody has locked are equal (up to `π`, `ρ`).  What the owner of a node has done to it and the search has not, or the
other way round, is a function of the owner's position.
-/

namespace Verif.LockLevel

open Verif.Search

set_option linter.unusedSimpArgs false
set_option linter.unusedSectionVars false

variable {S A R X Y X' Y' : Type} [DecidableEq S] [DecidableEq A] [Add R] [Zero R]

/-- What the rest of a block does to decision node `i`. -/
def actD (i : Nat) (act : Act S X Y A) (nd : DNode S A R X) : DNode S A R X :=
  match act with
  | .kidD d a c => if d = i then { nd with kids := nd.kids ++ [(a, c)] } else nd
  | .setX d x => if d = i then { nd with x := x } else nd
  | _ => nd

def actC (i : Nat) (act : Act S X Y A) (nc : CNode S A R Y) : CNode S A R Y :=
  match act with
  | .kidC c o d => if c = i then { nc with kids := nc.kids ++ [(o, d)] } else nc
  | .setY c y => if c = i then { nc with y := y } else nc
  | _ => nc

def actsD (i : Nat) (acts : List (Act S X Y A)) (nd : DNode S A R X) : DNode S A R X := acts.foldl (fun nd act => actD i act nd) nd
def actsC (i : Nat) (acts : List (Act S X Y A)) (nc : CNode S A R Y) : CNode S A R Y := acts.foldl (fun nc act => actC i act nc) nc

/-- Insertions into the table that the rest of a block will do. -/
def insOf : Pc S A R X Y → List ((Int × S) × Option Nat)
  | .post _ acts => acts.filterMap fun a => match a with | .ins k d => some (k, some d) | _ => none
  | _ => []

/-- Position after the backup of a decision node. -/
def nextD : Phase S A R → Phase S A R
  | .backD _ nodes before after ret tot => .back nodes before after ret tot
  | p => p

/-- Position after the backup of a chance node. -/
def nextC : Phase S A R → Phase S A R
  | .back nodes before after ret tot =>
    match nodes.getLast?, before.getLast? with
    | some (d, _), some r => .backD d nodes.dropLast before.dropLast (after ++ [r]) (ret + r) tot
    | _, _ => .back nodes before after ret tot
  | p => p

/-- The position in the search. -/
def absPhase (jD jC : Nat) : Pc S A R X Y → Phase S A R
  | .out p | .own p | .vis p | .tab p _ _ => p
  | .lockD p snaps _ _ | .readD p snaps _ _ _ | .relD p snaps _ => if jD < snaps.length then nextD p else p
  | .lockC p snaps _ _ | .readC p snaps _ _ _ | .relC p snaps _ => if jC < snaps.length then nextC p else p
  | .post next _ => next

def evD (w : Nat) : Phase S A R → List (Event S A R)
  | .backD d _ before after ret tot => [.backedD w d ⟨before, after, ret, tot⟩]
  | _ => []

def evC (w : Nat) : Phase S A R → List (Event S A R)
  | .back nodes before after ret tot =>
    match nodes.getLast?, before.getLast? with
    | some (_, c), some r => [.backedC w c ⟨before.dropLast, after ++ [r], ret + r, tot⟩]
    | _, _ => []
  | _ => []

/-- The event that the search has seen already. -/
def pendE (jD jC w : Nat) : Pc S A R X Y → List (Event S A R)
  | .lockD p snaps _ _ | .readD p snaps _ _ _ | .relD p snaps _ => if jD < snaps.length then evD w p else []
  | .lockC p snaps _ _ | .readC p snaps _ _ _ | .relC p snaps _ => if jC < snaps.length then evC w p else []
  | _ => []

section
variable (env : Env S A R) (m : Manager S R) (code : Code S A R X Y) (alg : Alg S A R X Y) (alg' : Alg S A R X' Y') (π : X → X') (ρ : Y → Y')
  (jD jC : Nat)

/-- Decision node during its own selection: visited here, not yet in the search. -/
def SelRel (new : Bool) (nd : DNode S A R X) (nd' : DNode S A R X') : Prop :=
  ∃ nd0 : DNode S A R X, nd = { nd0 with visits := nd0.visits + 1, x := alg.visitD false nd0.x } ∧ nd' = mapD π nd0 ∧
    isLeaf env m nd0 = false ∧ (m.mctsMode && new) = false

/-- Decision node whose backup has been done in the search only. -/
def DoneD (ctx : Ctx A R) (snaps : List (List (A × Nat × Y))) (args : BArgs R) (nd : DNode S A R X) (nd' : DNode S A R X') : Prop :=
  ∃ kids : List (A × Nat × Y'), (snaps[jD]?).map (fun l => l.map (mapK ρ)) =
      some (kids.filter fun k => code.readsD (ownView env m nd []) ctx k.1) ∧
    nd' = { mapD π nd with x := alg'.backupD { mapV π ρ (ownView env m nd []) with kids := kids } ctx args }

def DoneC (snaps : List (List (S × X))) (args : BArgs R) (nc : CNode S A R Y) (nc' : CNode S A R Y') : Prop :=
  ∃ kids : List (S × X'), (snaps[jC]?).map (fun l => l.map fun k => (k.1, π k.2)) = some kids ∧
    nc' = { mapC ρ nc with y := alg'.backupC nc.state nc.action (ρ nc.y) kids args }

/-- Decision node `i` while a block of a decision node is executed that has read `snaps`. -/
def dBlk (ctx : Ctx A R) (p : Phase S A R) (snaps : List (List (A × Nat × Y))) (i : Nat) (nd : DNode S A R X) (nd' : DNode S A R X') : Prop :=
  match p with
  | .sel cur _ _ new => if i = cur then SelRel env m alg π new nd nd' else nd' = mapD π nd
  | .backD d _ before after ret tot =>
    if i = d ∧ jD < snaps.length then DoneD env m code alg' π ρ jD ctx snaps ⟨before, after, ret, tot⟩ nd nd' else nd' = mapD π nd
  | _ => nd' = mapD π nd

/-- Chance node `i` while a chance node is backed up. -/
def cBlk (p : Phase S A R) (snaps : List (List (S × X))) (i : Nat) (nc : CNode S A R Y) (nc' : CNode S A R Y') : Prop :=
  match p with
  | .back nodes before after ret tot =>
    match nodes.getLast?, before.getLast? with
    | some (_, c), some r =>
      if i = c ∧ jC < snaps.length then DoneC alg' π ρ jC snaps ⟨before.dropLast, after ++ [r], ret + r, tot⟩ nc nc' else nc' = mapC ρ nc
    | _, _ => nc' = mapC ρ nc
  | _ => nc' = mapC ρ nc

/-- Chance node `i` while an observation is sampled. -/
def cSamp (p : Phase S A R) (i : Nat) (nc : CNode S A R Y) (nc' : CNode S A R Y') : Prop :=
  match p with
  | .samp _ _ c _ _ _ =>
    if i = c then ∃ nc0 : CNode S A R Y, nc = { nc0 with visits := nc0.visits + 1, y := alg.visitC nc0.y } ∧ nc' = mapC ρ nc0 else nc' = mapC ρ nc
  | _ => nc' = mapC ρ nc

/-- Decision node `i` here and in the search, if nobody but a worker at `pc` may have locked it. -/
def dRel (ctx : Ctx A R) (pc : Pc S A R X Y) (i : Nat) (nd : DNode S A R X) (nd' : DNode S A R X') : Prop :=
  match pc with
  | .vis p => dBlk env m code alg alg' π ρ jD ctx p [] i nd nd'
  | .lockD p snaps _ _ | .readD p snaps _ _ _ | .relD p snaps _ => dBlk env m code alg alg' π ρ jD ctx p snaps i nd nd'
  | .post _ acts => nd' = mapD π (actsD i acts nd)
  | _ => nd' = mapD π nd

def cRel (pc : Pc S A R X Y) (i : Nat) (nc : CNode S A R Y) (nc' : CNode S A R Y') : Prop :=
  match pc with
  | .vis p | .tab p _ _ => cSamp alg ρ p i nc nc'
  | .lockC p snaps _ _ | .readC p snaps _ _ _ | .relC p snaps _ => cBlk alg' π ρ jC p snaps i nc nc'
  | .post _ acts => nc' = mapC ρ (actsC i acts nc)
  | _ => nc' = mapC ρ nc

/-- The state at the level of locks and the state of the search correspond. -/
structure Rel (f : FSt S A R X Y) (s : St S A R X' Y') : Prop where
  root : s.root = f.root
  ctxs : s.ctxs = f.ctxs
  crashed : s.crashed = none
  wlen : s.ws.length = f.ws.length
  ws : ∀ (w : Nat) pc, f.ws[w]? = some pc → s.ws[w]? = some (absPhase jD jC pc)
  dlen : s.dn.length = f.dn.length
  clen : s.cn.length = f.cn.length
  dfree : ∀ (i : Nat) nd nd', f.dn[i]? = some nd → s.dn[i]? = some nd' → f.lock (.d i) = none → nd' = mapD π nd
  down : ∀ (i : Nat) nd nd', f.dn[i]? = some nd → s.dn[i]? = some nd' → ∀ (w : Nat) pc, f.ws[w]? = some pc → Lk.d i ∈ holds pc →
    dRel env m code alg alg' π ρ jD (f.ctxOf w) pc i nd nd'
  cfree : ∀ (i : Nat) nc nc', f.cn[i]? = some nc → s.cn[i]? = some nc' → f.lock (.c i) = none → nc' = mapC ρ nc
  cown : ∀ (i : Nat) nc nc', f.cn[i]? = some nc → s.cn[i]? = some nc' → ∀ (w : Nat) pc, f.ws[w]? = some pc → Lk.c i ∈ holds pc →
    cRel alg alg' π ρ jC pc i nc nc'
  tfree : f.lock (.t 0) = none → s.table = f.table
  town : ∀ (w : Nat) pc, f.ws[w]? = some pc → Lk.t 0 ∈ holds pc → s.table = f.table ++ insOf pc

end

theorem actsD_unheld {acts : List (Act S X Y A)} (h : PostOk acts) {i : Nat} (hi : Act.rel (.d i) ∉ acts) (nd : DNode S A R X) :
    actsD i acts nd = nd := by
  induction acts generalizing nd with
  | nil => rfl
  | cons act acts ih =>
    simp only [List.mem_cons, not_or] at hi
    show actsD i acts (actD i act nd) = nd
    cases act with
    | kidD d a c =>
      have : d ≠ i := by rintro rfl; exact hi.2 h.1
      simp only [actD, this, if_false]; exact ih h.2 hi.2 nd
    | setX d x =>
      have : d ≠ i := by rintro rfl; exact hi.2 h.1
      simp only [actD, this, if_false]; exact ih h.2 hi.2 nd
    | rel l => exact ih h hi.2 nd
    | kidC => exact ih h.2 hi.2 nd
    | setY => exact ih h.2 hi.2 nd
    | ins => exact ih h.2 hi.2 nd

theorem actsC_unheld {acts : List (Act S X Y A)} (h : PostOk acts) {i : Nat} (hi : Act.rel (.c i) ∉ acts) (nc : CNode S A R Y) :
    actsC i acts nc = nc := by
  induction acts generalizing nc with
  | nil => rfl
  | cons act acts ih =>
    simp only [List.mem_cons, not_or] at hi
    show actsC i acts (actC i act nc) = nc
    cases act with
    | kidC d a c =>
      have : d ≠ i := by rintro rfl; exact hi.2 h.1
      simp only [actC, this, if_false]; exact ih h.2 hi.2 nc
    | setY d x =>
      have : d ≠ i := by rintro rfl; exact hi.2 h.1
      simp only [actC, this, if_false]; exact ih h.2 hi.2 nc
    | rel l => exact ih h hi.2 nc
    | kidD => exact ih h.2 hi.2 nc
    | setX => exact ih h.2 hi.2 nc
    | ins => exact ih h.2 hi.2 nc

theorem insOf_unheld {acts : List (Act S X Y A)} (h : PostOk acts) (hi : ∀ j, Act.rel (.t j) ∉ acts) (next : Phase S A R) :
    insOf (.post next acts : Pc S A R X Y) = [] := by
  induction acts with
  | nil => rfl
  | cons act acts ih =>
    simp only [List.mem_cons, not_or] at hi
    have hi2 := fun j => (hi j).2
    cases act with
    | ins k d => obtain ⟨j, hj⟩ := h.1; exact absurd hj (hi2 j)
    | rel l => simpa [insOf] using ih h hi2
    | kidC => simpa [insOf] using ih h.2 hi2
    | setY => simpa [insOf] using ih h.2 hi2
    | kidD => simpa [insOf] using ih h.2 hi2
    | setX => simpa [insOf] using ih h.2 hi2

section
variable {env : Env S A R} {m : Manager S R} {code : Code S A R X Y} {alg : Alg S A R X Y} {alg' : Alg S A R X' Y'} {π : X → X'} {ρ : Y → Y'}
  {jD jC : Nat} {f f' : FSt S A R X Y} {s s' : St S A R X' Y'} {w : Nat}

theorem dBlk_unheld {ctx : Ctx A R} {p : Phase S A R} {snaps : List (List (A × Nat × Y))} {i : Nat} (h : lkOf p ≠ some (.d i))
    {nd : DNode S A R X} {nd' : DNode S A R X'} : dBlk env m code alg alg' π ρ jD ctx p snaps i nd nd' ↔ nd' = mapD π nd := by
  cases p <;> simp only [dBlk, lkOf, ne_eq, Option.some.injEq, Lk.d.injEq] at h ⊢
  · simp [Ne.symm h]
  · simp [Ne.symm h]

theorem cBlk_unheld {p : Phase S A R} {snaps : List (List (S × X))} {i : Nat} (h : lkOf p ≠ some (.c i))
    {nc : CNode S A R Y} {nc' : CNode S A R Y'} : cBlk alg' π ρ jC p snaps i nc nc' ↔ nc' = mapC ρ nc := by
  cases p with
  | back nodes before after ret tot =>
    simp only [cBlk]
    rcases hn : nodes.getLast? with _ | ⟨d, c⟩
    · simp
    · have : ¬ i = c := by rintro rfl; simp [lkOf, hn] at h
      cases before.getLast? <;> simp [this]
  | _ => rfl

theorem cSamp_unheld {p : Phase S A R} {i : Nat} (h : lkOf p ≠ some (.c i))
    {nc : CNode S A R Y} {nc' : CNode S A R Y'} : cSamp alg ρ p i nc nc' ↔ nc' = mapC ρ nc := by
  cases p <;> simp only [cSamp, lkOf, ne_eq, Option.some.injEq, Lk.c.injEq] at h ⊢
  simp [Ne.symm h]

theorem dRel_unheld {pc : Pc S A R X Y} (ok : PcOk env m code f w pc) {ctx : Ctx A R} {i : Nat} (h : Lk.d i ∉ holds pc)
    {nd : DNode S A R X} {nd' : DNode S A R X'} : dRel env m code alg alg' π ρ jD ctx pc i nd nd' ↔ nd' = mapD π nd := by
  cases pc with
  | vis p => exact dBlk_unheld (by simpa [holds] using h)
  | lockD p => exact dBlk_unheld (by simp [holds] at h; exact h)
  | readD p => exact dBlk_unheld (by simp [holds] at h; exact h)
  | relD p => exact dBlk_unheld (by simp [holds] at h; exact h)
  | post next acts => simp only [dRel]; rw [actsD_unheld ok (fun hm => h (mem_holds_post.2 hm))]
  | _ => rfl

theorem cRel_unheld {pc : Pc S A R X Y} (ok : PcOk env m code f w pc) {i : Nat} (h : Lk.c i ∉ holds pc)
    {nc : CNode S A R Y} {nc' : CNode S A R Y'} : cRel alg alg' π ρ jC pc i nc nc' ↔ nc' = mapC ρ nc := by
  cases pc with
  | vis p => exact cSamp_unheld (by simpa [holds] using h)
  | tab p => exact cSamp_unheld (by simp [holds] at h; exact h)
  | lockC p => exact cBlk_unheld (by simp [holds] at h; exact h)
  | readC p => exact cBlk_unheld (by simp [holds] at h; exact h)
  | relC p => exact cBlk_unheld (by simp [holds] at h; exact h)
  | post next acts => simp only [cRel]; rw [actsC_unheld ok (fun hm => h (mem_holds_post.2 hm))]
  | _ => rfl

/-- Nobody but `w` has locked `l`. -/
def Mine (f : FSt S A R X Y) (w : Nat) (l : Lk) : Prop := ∀ v, f.lock l = some v → v = w

theorem Rel.dAt (H : Rel env m code alg alg' π ρ jD jC f s) (I : LInv env m code f) {pc : Pc S A R X Y} (hw : f.ws[w]? = some pc) {i : Nat}
    (hm : Mine f w (.d i)) {nd : DNode S A R X} {nd' : DNode S A R X'} (hd : f.dn[i]? = some nd) (hd' : s.dn[i]? = some nd') :
    dRel env m code alg alg' π ρ jD (f.ctxOf w) pc i nd nd' := by
  by_cases h : Lk.d i ∈ holds pc
  · exact H.down i nd nd' hd hd' w pc hw h
  · rw [dRel_unheld (I.ok w pc hw) h]
    apply H.dfree i nd nd' hd hd'
    cases hl : f.lock (.d i) with
    | none => rfl
    | some v =>
      obtain rfl := hm v hl
      obtain ⟨q, hq, hh⟩ := I.only _ _ hl
      rw [hw] at hq; simp at hq; subst hq; exact absurd hh h

theorem Rel.cAt (H : Rel env m code alg alg' π ρ jD jC f s) (I : LInv env m code f) {pc : Pc S A R X Y} (hw : f.ws[w]? = some pc) {i : Nat}
    (hm : Mine f w (.c i)) {nc : CNode S A R Y} {nc' : CNode S A R Y'} (hd : f.cn[i]? = some nc) (hd' : s.cn[i]? = some nc') :
    cRel alg alg' π ρ jC pc i nc nc' := by
  by_cases h : Lk.c i ∈ holds pc
  · exact H.cown i nc nc' hd hd' w pc hw h
  · rw [cRel_unheld (I.ok w pc hw) h]
    apply H.cfree i nc nc' hd hd'
    cases hl : f.lock (.c i) with
    | none => rfl
    | some v =>
      obtain rfl := hm v hl
      obtain ⟨q, hq, hh⟩ := I.only _ _ hl
      rw [hw] at hq; simp at hq; subst hq; exact absurd hh h

theorem mine_held (I : LInv env m code f) {pc : Pc S A R X Y} (hw : f.ws[w]? = some pc) {l : Lk} (h : l ∈ holds pc) : Mine f w l := by
  intro v hv
  rw [I.own w pc hw l h] at hv
  simpa using hv.symm

/-- The locks of the other workers do not change. -/
theorem chg_other (I : LInv env m code f) {pc pc' : Pc S A R X Y} (C : Chg m f f' w pc pc') {l : Lk} {v : Nat} (hv : v ≠ w)
    (h : f.lock l = some v) : f'.lock l = some v := by
  cases C.locks with
  | same e _ => rw [e]; exact h
  | acq l' hf e _ _ _ =>
    rw [e]; dsimp only; split
    · rename_i e; subst e; rw [h] at hf; simp at hf
    · exact h
  | rel l' e hp =>
    rw [e]; dsimp only; split
    · rename_i e; subst e
      have := I.own w pc C.before l (hp.mem_iff.2 (by simp))
      rw [h] at this; exact absurd (by simpa using this) hv
    · exact h

/-- Correspondence after a step of worker `w`, from what happened to the nodes that nobody else has locked. -/
theorem rel_step (I : LInv env m code f) (I' : LInv env m code f') (H : Rel env m code alg alg' π ρ jD jC f s) {pc pc' : Pc S A R X Y}
    (C : Chg m f f' w pc pc') (hm : m.useTable = true → m.numMutexes ≤ 1)
    (hroot : s'.root = f'.root) (hctx : s'.ctxs = f'.ctxs) (hcr : s'.crashed = none)
    (hws : s'.ws = s.ws.set w (absPhase jD jC pc')) (hdl : s'.dn.length = f'.dn.length) (hcl : s'.cn.length = f'.cn.length)
    (hd : ∀ i, Mine f w (.d i) → ∀ nd nd', f.dn[i]? = some nd → s.dn[i]? = some nd' →
      dRel env m code alg alg' π ρ jD (f.ctxOf w) pc i nd nd' → ∀ n n', f'.dn[i]? = some n → s'.dn[i]? = some n' →
      dRel env m code alg alg' π ρ jD (f'.ctxOf w) pc' i n n')
    (hdn : ∀ i, f.dn.length ≤ i → ∀ n n', f'.dn[i]? = some n → s'.dn[i]? = some n' →
      dRel env m code alg alg' π ρ jD (f'.ctxOf w) pc' i n n')
    (hds : ∀ i nd', i < f.dn.length → Lk.d i ∉ holds pc → s.dn[i]? = some nd' → s'.dn[i]? = some nd')
    (hc : ∀ i, Mine f w (.c i) → ∀ nc nc', f.cn[i]? = some nc → s.cn[i]? = some nc' →
      cRel alg alg' π ρ jC pc i nc nc' → ∀ n n', f'.cn[i]? = some n → s'.cn[i]? = some n' →
      cRel alg alg' π ρ jC pc' i n n')
    (hcn : ∀ i, f.cn.length ≤ i → ∀ n n', f'.cn[i]? = some n → s'.cn[i]? = some n' →
      cRel alg alg' π ρ jC pc' i n n')
    (hcs : ∀ i nc', i < f.cn.length → Lk.c i ∉ holds pc → s.cn[i]? = some nc' → s'.cn[i]? = some nc')
    (ht : (s.table = f.table ++ insOf pc → s'.table = f'.table ++ insOf pc'))
    (hto : Lk.t 0 ∉ holds pc → f'.table = f.table ∧ s'.table = s.table) :
    Rel env m code alg alg' π ρ jD jC f' s' := by
  have hlt : w < f.ws.length := (List.getElem?_eq_some_iff.1 C.before).1
  have hws1 : f'.ws[w]? = some pc' := by rw [C.after, List.getElem?_set_self hlt]
  have hws2 : ∀ v q, v ≠ w → f'.ws[v]? = some q → f.ws[v]? = some q := by
    intro v q hv h; rw [C.after, List.getElem?_set_ne (Ne.symm hv)] at h; exact h
  have back : ∀ (l : Lk) v, v ≠ w → f'.lock l = some v → f.lock l = some v := by
    intro l v hv h
    cases C.locks with
    | same e _ => rw [e] at h; exact h
    | acq l' hf e _ _ _ =>
      rw [e] at h; dsimp only at h; split at h
      · simp at h; exact absurd h.symm hv
      · exact h
    | rel l' e hp =>
      rw [e] at h; dsimp only at h; split at h
      · simp at h
      · exact h
  have mine : ∀ l : Lk, Mine f' w l → Mine f w l := by
    intro l h v hv
    by_cases e : v = w
    · exact e
    · exact h v (chg_other I C e hv)
  have notheld : ∀ l : Lk, f'.lock l = none → l ∉ holds pc' := by
    intro l h hm; rw [I'.own w pc' hws1 l hm] at h; simp at h
  have other : ∀ (l : Lk) v q, v ≠ w → f'.ws[v]? = some q → l ∈ holds q → l ∉ holds pc := by
    intro l v q hv hq hl hl'
    have h1 := I.own v q (hws2 v q hv hq) l hl
    rw [I.own w pc C.before l hl'] at h1
    exact hv (by simpa using h1.symm)
  have dAll : ∀ i, Mine f' w (.d i) → ∀ n n', f'.dn[i]? = some n → s'.dn[i]? = some n' →
      dRel env m code alg alg' π ρ jD (f'.ctxOf w) pc' i n n' := by
    intro i hmn n n' h1 h2
    by_cases hi : i < f.dn.length
    · have e1 : f.dn[i]? = some f.dn[i] := List.getElem?_eq_getElem hi
      have e2 : s.dn[i]? = some (s.dn[i]'(by rw [H.dlen]; exact hi)) := List.getElem?_eq_getElem _
      exact hd i (mine _ hmn) _ _ e1 e2 (H.dAt I C.before (mine _ hmn) e1 e2) n n' h1 h2
    · exact hdn i (Nat.le_of_not_lt hi) n n' h1 h2
  have cAll : ∀ i, Mine f' w (.c i) → ∀ n n', f'.cn[i]? = some n → s'.cn[i]? = some n' →
      cRel alg alg' π ρ jC pc' i n n' := by
    intro i hmn n n' h1 h2
    by_cases hi : i < f.cn.length
    · have e1 : f.cn[i]? = some f.cn[i] := List.getElem?_eq_getElem hi
      have e2 : s.cn[i]? = some (s.cn[i]'(by rw [H.clen]; exact hi)) := List.getElem?_eq_getElem _
      exact hc i (mine _ hmn) _ _ e1 e2 (H.cAt I C.before (mine _ hmn) e1 e2) n n' h1 h2
    · exact hcn i (Nat.le_of_not_lt hi) n n' h1 h2
  have ok' := I'.ok w pc' hws1
  refine ⟨hroot, hctx, hcr, by rw [hws, C.after]; simp [H.wlen], ?_, hdl, hcl, ?_, ?_, ?_, ?_, ?_, ?_⟩
  · intro v q hq
    by_cases e : v = w
    · subst e
      rw [hws1] at hq; simp at hq; subst hq
      rw [hws, List.getElem?_set_self (by rw [H.wlen]; exact hlt)]
    · rw [hws, List.getElem?_set_ne (Ne.symm e)]
      exact H.ws v q (hws2 v q e hq)
  · intro i n n' h1 h2 hl
    have := dAll i (fun v hv => by rw [hl] at hv; simp at hv) n n' h1 h2
    rwa [dRel_unheld ok' (notheld _ hl)] at this
  · intro i n n' h1 h2 v q hq hh
    by_cases e : v = w
    · subst e
      rw [hws1] at hq; simp at hq; subst hq
      exact dAll i (mine_held I' hws1 hh) n n' h1 h2
    · have hq0 := hws2 v q e hq
      have hnot := other _ v q e hq hh
      have hi : i < f.dn.length := by
        have := I.valid _ _ (I.own v q hq0 _ hh); exact this
      have e1 : f.dn[i]? = some f.dn[i] := List.getElem?_eq_getElem hi
      have e2 : s.dn[i]? = some (s.dn[i]'(by rw [H.dlen]; exact hi)) := List.getElem?_eq_getElem _
      rw [C.dn i _ e1 hnot] at h1
      rw [hds i _ hi hnot e2] at h2
      simp at h1 h2; subst h1; subst h2
      rw [ctxOf_eq (C.ctx v e)]
      exact H.down i _ _ e1 e2 v q hq0 hh
  · intro i n n' h1 h2 hl
    have := cAll i (fun v hv => by rw [hl] at hv; simp at hv) n n' h1 h2
    rwa [cRel_unheld ok' (notheld _ hl)] at this
  · intro i n n' h1 h2 v q hq hh
    by_cases e : v = w
    · subst e
      rw [hws1] at hq; simp at hq; subst hq
      exact cAll i (mine_held I' hws1 hh) n n' h1 h2
    · have hq0 := hws2 v q e hq
      have hnot := other _ v q e hq hh
      have hi : i < f.cn.length := by
        have := I.valid _ _ (I.own v q hq0 _ hh); exact this
      have e1 : f.cn[i]? = some f.cn[i] := List.getElem?_eq_getElem hi
      have e2 : s.cn[i]? = some (s.cn[i]'(by rw [H.clen]; exact hi)) := List.getElem?_eq_getElem _
      rw [C.cn i _ e1 hnot] at h1
      rw [hcs i _ hi hnot e2] at h2
      simp at h1 h2; subst h1; subst h2
      exact H.cown i _ _ e1 e2 v q hq0 hh
  all_goals
    have z : ∀ x, m.useTable = true → mutexIndex m.numMutexes x = 0 := by
      intro x hu; have := hm hu; unfold mutexIndex; split <;> omega
    have only0 : ∀ {g : FSt S A R X Y} (J : LInv env m code g) (j v : Nat), g.lock (.t j) = some v → j = 0 := by
      intro g J j v h
      obtain ⟨u, x, e⟩ := J.index j v h
      rw [z x u] at e; exact e
    have ins0 : ∀ {g : FSt S A R X Y} (J : LInv env m code g) (v : Nat) q, g.ws[v]? = some q → Lk.t 0 ∉ holds q → insOf q = [] := by
      intro g J v q hq hn
      cases q with
      | post next acts =>
        refine insOf_unheld (J.ok v _ hq) ?_ next
        intro j hj
        have hj' := mem_holds_post (next := next) |>.2 hj
        have := only0 J j v (J.own v _ hq _ hj')
        subst this
        exact hn hj'
      | _ => rfl
  · intro hl
    by_cases h0 : Lk.t 0 ∈ holds pc
    · have := ht (H.town w pc C.before h0)
      rw [ins0 I' w pc' hws1 (notheld _ hl)] at this
      simpa using this
    · obtain ⟨e1, e2⟩ := hto h0
      rw [e1, e2]
      apply H.tfree
      cases h : f.lock (.t 0) with
      | none => rfl
      | some v =>
        have hv : v ≠ w := by
          rintro rfl
          obtain ⟨q, hq, hh⟩ := I.only _ _ h
          rw [C.before] at hq; simp at hq; subst hq; exact h0 hh
        rw [chg_other I C hv h] at hl; simp at hl
  · intro v q hq hh
    by_cases e : v = w
    · subst e
      rw [hws1] at hq; simp at hq; subst hq
      by_cases h0 : Lk.t 0 ∈ holds pc
      · exact ht (H.town _ pc C.before h0)
      · apply ht
        rw [ins0 I _ pc C.before h0, List.append_nil]
        apply H.tfree
        cases h : f.lock (.t 0) with
        | none => rfl
        | some v' =>
          have hv : v' ≠ v := by
            rintro rfl
            obtain ⟨q, hq, hh⟩ := I.only _ _ h
            rw [C.before] at hq; simp at hq; subst hq; exact h0 hh
          have h1 := chg_other I C hv h
          rw [I'.own v _ hws1 _ hh] at h1
          exact absurd (by simpa using h1.symm) hv
    · have hq0 := hws2 v q e hq
      obtain ⟨e1, e2⟩ := hto (other _ v q e hq hh)
      rw [e1, e2]
      exact H.town v q hq0 hh

end

end Verif.LockLevel
