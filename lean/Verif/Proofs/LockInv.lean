import Verif.Proofs.LockStep

/-! # Who holds which lock, and what a worker inside a block knows -/

namespace Verif.LockLevel

open Verif.Search

set_option linter.unusedSimpArgs false
set_option linter.unusedSectionVars false

variable {S A R X Y : Type} [DecidableEq S] [DecidableEq A] [Add R] [Zero R]

/-- Every write that is still to be done is to memory whose lock is still to be released. -/
def PostOk : List (Act S X Y A) → Prop
  | [] => True
  | .rel _ :: acts => PostOk acts
  | .kidD d _ _ :: acts => Act.rel (.d d) ∈ acts ∧ PostOk acts
  | .setX d _ :: acts => Act.rel (.d d) ∈ acts ∧ PostOk acts
  | .kidC c _ _ :: acts => Act.rel (.c c) ∈ acts ∧ PostOk acts
  | .setY c _ :: acts => Act.rel (.c c) ∈ acts ∧ PostOk acts
  | .ins _ _ :: acts => (∃ j, Act.rel (.t j) ∈ acts) ∧ PostOk acts

/-- The decision node a block belongs to. -/
def nodeD : Phase S A R → Option Nat
  | .sel cur _ _ _ => some cur
  | .backD d _ _ _ _ _ => some d
  | _ => none

/-- Rounds of reading that are complete. -/
def RoundD (code : Code S A R X Y) (n : Nat) : Phase S A R → Prop
  | .backD _ _ _ _ _ _ => n < code.nD
  | _ => n = 0

/-- What is read of a child of a decision node. -/
def readY (f : FSt S A R X Y) (k : A × Nat) : Option (A × Nat × Y) := (f.cn[k.2]?).map fun nc => (k.1, nc.visits, nc.y)

/-- What is read of a child of a chance node. -/
def readX (f : FSt S A R X Y) (k : S × Nat) : Option (S × X) := (f.dn[k.2]?).map fun nd => (k.1, nd.x)

/-- What worker `w` knows inside a block. -/
def PcOk (env : Env S A R) (m : Manager S R) (code : Code S A R X Y) (f : FSt S A R X Y) (w : Nat) : Pc S A R X Y → Prop
  | .out _ => True
  | .own _ => True
  | .vis p => (∃ cur path rs new, p = .sel cur path rs new) ∨ ∃ cur a c path rs new, p = .samp cur a c path rs new
  | .lockD p snaps held todo => RoundD code snaps.length p ∧ ∃ d nd, nodeD p = some d ∧ f.dn[d]? = some nd ∧
      (held ++ todo).Perm ((kidsToRead env m code f w p nd).map fun k => k.2)
  | .readD p snaps held acc todo => RoundD code snaps.length p ∧ ∃ d nd done, nodeD p = some d ∧ f.dn[d]? = some nd ∧
      kidsToRead env m code f w p nd = done ++ todo ∧ (∀ k ∈ kidsToRead env m code f w p nd, k.2 ∈ held) ∧ acc.map some = done.map (readY f)
  | .relD p snaps _ => ∃ d nodes before after ret tot, p = .backD d nodes before after ret tot ∧ snaps.length < code.nD
  | .lockC p snaps held todo => snaps.length < code.nC ∧ ∃ nodes d c before r after ret tot nc,
      p = .back (nodes ++ [(d, c)]) (before ++ [r]) after ret tot ∧ f.cn[c]? = some nc ∧ (held ++ todo).Perm (nc.kids.map fun k => k.2)
  | .readC p snaps held acc todo => snaps.length < code.nC ∧ ∃ nodes d c before r after ret tot nc done,
      p = .back (nodes ++ [(d, c)]) (before ++ [r]) after ret tot ∧ f.cn[c]? = some nc ∧
      nc.kids = done ++ todo ∧ (∀ k ∈ nc.kids, k.2 ∈ held) ∧ acc.map some = done.map (readX f)
  | .relC p snaps _ => ∃ nodes d c before r after ret tot, p = .back (nodes ++ [(d, c)]) (before ++ [r]) after ret tot ∧ snaps.length < code.nC
  | .tab p o _ => ∃ cur a c path rs new nc, p = .samp cur a c path rs new ∧ f.cn[c]? = some nc ∧ o ∈ env.succ nc.state nc.action ∧
      find? o nc.kids = none ∧ m.useTable = true ∧ m.numMutexes ≠ 0
  | .post _ acts => PostOk acts

/-- Locks and workers agree. -/
structure LInv (env : Env S A R) (m : Manager S R) (code : Code S A R X Y) (f : FSt S A R X Y) : Prop where
  own : ∀ (w : Nat) pc, f.ws[w]? = some pc → ∀ l ∈ holds pc, f.lock l = some w
  only : ∀ (l : Lk) (w : Nat), f.lock l = some w → ∃ pc, f.ws[w]? = some pc ∧ l ∈ holds pc
  nodup : ∀ (w : Nat) pc, f.ws[w]? = some pc → (holds pc).Nodup
  valid : ∀ (l : Lk) (w : Nat), f.lock l = some w → Valid f l
  index : ∀ (j w : Nat), f.lock (.t j) = some w → m.useTable = true ∧ ∃ h, j = mutexIndex m.numMutexes h
  ok : ∀ (w : Nat) pc, f.ws[w]? = some pc → PcOk env m code f w pc

/-- How a step changes the locks. -/
inductive LockChg (m : Manager S R) (f f' : FSt S A R X Y) (w : Nat) (pc pc' : Pc S A R X Y) : Prop where
  | same (h : f'.lock = f.lock) (hp : (holds pc').Perm (holds pc))
  | acq (l : Lk) (hf : f.lock l = none) (h : f'.lock = fun l' => if l' = l then some w else f.lock l') (hv : Valid f l)
      (hj : ∀ j, l = .t j → m.useTable = true ∧ ∃ x, j = mutexIndex m.numMutexes x) (hp : (holds pc').Perm (l :: holds pc))
  | rel (l : Lk) (h : f'.lock = fun l' => if l' = l then none else f.lock l') (hp : (holds pc).Perm (l :: holds pc'))

/-- What a step of worker `w` changes: only what it has locked. -/
structure Chg (m : Manager S R) (f f' : FSt S A R X Y) (w : Nat) (pc pc' : Pc S A R X Y) : Prop where
  before : f.ws[w]? = some pc
  after : f'.ws = f.ws.set w pc'
  locks : LockChg m f f' w pc pc'
  dn : ∀ i nd, f.dn[i]? = some nd → Lk.d i ∉ holds pc → f'.dn[i]? = some nd
  cn : ∀ i nc, f.cn[i]? = some nc → Lk.c i ∉ holds pc → f'.cn[i]? = some nc
  dlen : f.dn.length ≤ f'.dn.length
  clen : f.cn.length ≤ f'.cn.length
  ctx : ∀ v, v ≠ w → f'.ctxs[v]? = f.ctxs[v]?

theorem kidsToRead_ctx {env : Env S A R} {m : Manager S R} {code : Code S A R X Y} {f f' : FSt S A R X Y} {w : Nat}
    (h : f'.ctxOf w = f.ctxOf w) (p : Phase S A R) (nd : DNode S A R X) :
    kidsToRead env m code f' w p nd = kidsToRead env m code f w p nd := by
  unfold kidsToRead; cases p <;> simp [h]

theorem readY_congr {f f' : FSt S A R X Y} {l : List (A × Nat)} {held : List Nat}
    (h : ∀ k ∈ held, f'.cn[k]? = f.cn[k]?) (hl : ∀ k ∈ l, k.2 ∈ held) : l.map (readY f') = l.map (readY f) := by
  apply List.map_congr_left
  intro k hk
  simp [readY, h _ (hl k hk)]

theorem readX_congr {f f' : FSt S A R X Y} {l : List (S × Nat)} {held : List Nat}
    (h : ∀ k ∈ held, f'.dn[k]? = f.dn[k]?) (hl : ∀ k ∈ l, k.2 ∈ held) : l.map (readX f') = l.map (readX f) := by
  apply List.map_congr_left
  intro k hk
  simp [readX, h _ (hl k hk)]

theorem lkOf_nodeD {p : Phase S A R} {d : Nat} (h : nodeD p = some d) : lkOf p = some (.d d) := by
  cases p <;> simp_all [nodeD, lkOf]

/-- What a worker knows depends only on what it has locked. -/
theorem pcOk_frame {env : Env S A R} {m : Manager S R} {code : Code S A R X Y} {f f' : FSt S A R X Y} {w : Nat} {pc : Pc S A R X Y}
    (h : PcOk env m code f w pc) (hx : f'.ctxOf w = f.ctxOf w) (hd : ∀ i, Lk.d i ∈ holds pc → f'.dn[i]? = f.dn[i]?)
    (hc : ∀ i, Lk.c i ∈ holds pc → f'.cn[i]? = f.cn[i]?) : PcOk env m code f' w pc := by
  cases pc with
  | out p => trivial
  | own p => trivial
  | vis p => exact h
  | lockD p snaps held todo =>
    obtain ⟨h1, d, nd, h2, h3, h4⟩ := h
    refine ⟨h1, d, nd, h2, ?_, ?_⟩
    · rw [hd d (by simp [holds, lkOf_nodeD h2]), h3]
    · rw [kidsToRead_ctx hx]; exact h4
  | readD p snaps held acc todo =>
    obtain ⟨h1, d, nd, done, h2, h3, h4, h5, h6⟩ := h
    refine ⟨h1, d, nd, done, h2, ?_, ?_, ?_, ?_⟩
    · rw [hd d (by simp [holds, lkOf_nodeD h2]), h3]
    · rw [kidsToRead_ctx hx]; exact h4
    · rw [kidsToRead_ctx hx]; exact h5
    · rw [h6]
      refine (readY_congr (held := held) (fun k hk => hc k (by simp [holds, hk])) ?_).symm
      intro k hk
      exact h5 k (by rw [h4]; simp [hk])
  | relD p snaps held => exact h
  | lockC p snaps held todo =>
    obtain ⟨h1, nodes, d, c, before, r, after, ret, tot, nc, rfl, h3, h4⟩ := h
    exact ⟨h1, nodes, d, c, before, r, after, ret, tot, nc, rfl, by rw [hc c (by simp [holds, lkOf]), h3], h4⟩
  | readC p snaps held acc todo =>
    obtain ⟨h1, nodes, d, c, before, r, after, ret, tot, nc, done, rfl, h3, h4, h5, h6⟩ := h
    refine ⟨h1, nodes, d, c, before, r, after, ret, tot, nc, done, rfl, by rw [hc c (by simp [holds, lkOf]), h3], h4, h5, ?_⟩
    rw [h6]
    refine (readX_congr (held := held) (fun k hk => hd k (by simp [holds, hk])) ?_).symm
    intro k hk
    exact h5 k (by rw [h4]; simp [hk])
  | relC p snaps held => exact h
  | tab p o j =>
    obtain ⟨cur, a, c, path, rs, new, nc, rfl, h3, h4⟩ := h
    exact ⟨cur, a, c, path, rs, new, nc, rfl, by rw [hc c (by simp [holds, lkOf]), h3], h4⟩
  | post next acts => exact h

theorem ctxOf_eq {f f' : FSt S A R X Y} {v : Nat} (h : f'.ctxs[v]? = f.ctxs[v]?) : f'.ctxOf v = f.ctxOf v := by
  simp [FSt.ctxOf, h]

theorem valid_mono {f f' : FSt S A R X Y} (hd : f.dn.length ≤ f'.dn.length) (hc : f.cn.length ≤ f'.cn.length) {l : Lk}
    (h : Valid f l) : Valid f' l := by
  cases l <;> simp_all [Valid] <;> omega

/-- A step that changes only what it has locked keeps locks and workers in agreement. -/
theorem linv_step {env : Env S A R} {m : Manager S R} {code : Code S A R X Y} {f f' : FSt S A R X Y} {w : Nat} {pc pc' : Pc S A R X Y}
    (I : LInv env m code f) (C : Chg m f f' w pc pc') (hok : PcOk env m code f' w pc') : LInv env m code f' := by
  have hlt : w < f.ws.length := (List.getElem?_eq_some_iff.1 C.before).1
  have hws : ∀ v q, f'.ws[v]? = some q → (v = w ∧ q = pc') ∨ (v ≠ w ∧ f.ws[v]? = some q) := by
    intro v q h
    rw [C.after] at h
    by_cases hv : v = w
    · subst hv
      rw [List.getElem?_set_self hlt] at h
      exact .inl ⟨rfl, (by simpa using h.symm)⟩
    · rw [List.getElem?_set_ne (Ne.symm hv)] at h
      exact .inr ⟨hv, h⟩
  have hws1 : f'.ws[w]? = some pc' := by rw [C.after, List.getElem?_set_self hlt]
  have hws2 : ∀ v, v ≠ w → f'.ws[v]? = f.ws[v]? := by
    intro v hv; rw [C.after, List.getElem?_set_ne (Ne.symm hv)]
  have disj : ∀ v q l, v ≠ w → f.ws[v]? = some q → l ∈ holds q → l ∉ holds pc := by
    intro v q l hv hq hl hl'
    have h1 := I.own v q hq l hl
    have h2 := I.own w pc C.before l hl'
    rw [h1] at h2
    exact hv (by simpa using h2)
  refine ⟨?_, ?_, ?_, ?_, ?_, ?_⟩
  · intro v q hq l hl
    rcases hws v q hq with ⟨rfl, rfl⟩ | ⟨hv, hq⟩
    · cases C.locks with
      | same h hp => rw [h]; exact I.own _ _ C.before l (hp.mem_iff.1 hl)
      | acq l' hf h hv hj hp =>
        rw [h]
        have := hp.mem_iff.1 hl
        simp only [List.mem_cons] at this
        rcases this with rfl | h1
        · simp
        · dsimp only; split
          · rfl
          · exact I.own _ _ C.before l h1
      | rel l' h hp =>
        rw [h]
        have h1 := hp.mem_iff.2 (List.mem_cons_of_mem _ hl)
        have h2 := hp.nodup_iff.1 (I.nodup _ _ C.before)
        have h3 : l ≠ l' := fun e => (List.nodup_cons.1 h2).1 (e ▸ hl)
        simp only [h3, if_false]
        exact I.own _ _ C.before l h1
    · have h1 := I.own v q hq l hl
      have h2 := disj v q l hv hq hl
      cases C.locks with
      | same h hp => rw [h]; exact h1
      | acq l' hf h hv hj hp =>
        rw [h]; dsimp only; split
        · rename_i e; subst e; rw [h1] at hf; simp at hf
        · exact h1
      | rel l' h hp =>
        rw [h]; dsimp only; split
        · rename_i e; subst e
          exact absurd (hp.mem_iff.2 (by simp)) h2
        · exact h1
  · intro l v hl
    have key : ∀ hl0 : f.lock l = some v, (v = w → l ∈ holds pc') → ∃ q, f'.ws[v]? = some q ∧ l ∈ holds q := by
      intro hl0 h
      obtain ⟨q, hq, hm⟩ := I.only l v hl0
      by_cases hv : v = w
      · subst hv
        exact ⟨pc', hws1, h rfl⟩
      · exact ⟨q, by rw [hws2 v hv, hq], hm⟩
    have mem : f.lock l = some w → l ∈ holds pc := by
      intro h
      obtain ⟨q, hq, hm⟩ := I.only l w h
      rw [C.before] at hq; simp at hq; rw [hq]; exact hm
    cases C.locks with
    | same h hp =>
      rw [h] at hl
      exact key hl (fun e => hp.mem_iff.2 (mem (e ▸ hl)))
    | acq l' hf h hv hj hp =>
      rw [h] at hl; dsimp only at hl; split at hl
      · rename_i e; subst e
        simp at hl; subst hl
        exact ⟨pc', hws1, hp.mem_iff.2 (by simp)⟩
      · exact key hl (fun e => hp.mem_iff.2 (List.mem_cons_of_mem _ (mem (e ▸ hl))))
    | rel l' h hp =>
      rw [h] at hl; dsimp only at hl; split at hl
      · simp at hl
      · rename_i e
        refine key hl (fun e' => ?_)
        have := hp.mem_iff.1 (mem (e' ▸ hl))
        simpa [e] using this
  · intro v q hq
    rcases hws v q hq with ⟨rfl, rfl⟩ | ⟨hv, hq⟩
    · have h0 := I.nodup _ _ C.before
      cases C.locks with
      | same h hp => exact hp.nodup_iff.2 h0
      | acq l' hf h hv hj hp =>
        rw [hp.nodup_iff, List.nodup_cons]
        refine ⟨fun hm => ?_, h0⟩
        have := I.own _ _ C.before _ hm
        rw [hf] at this; simp at this
      | rel l' h hp =>
        have := hp.nodup_iff.1 h0
        exact (List.nodup_cons.1 this).2
    · exact I.nodup v q hq
  · intro l v hl
    apply valid_mono C.dlen C.clen
    cases C.locks with
    | same h hp => rw [h] at hl; exact I.valid l v hl
    | acq l' hf h hv hj hp =>
      rw [h] at hl; dsimp only at hl; split at hl
      · rename_i e; subst e; exact hv
      · exact I.valid l v hl
    | rel l' h hp =>
      rw [h] at hl; dsimp only at hl; split at hl
      · simp at hl
      · exact I.valid l v hl
  · intro j v hl
    cases C.locks with
    | same h hp => rw [h] at hl; exact I.index j v hl
    | acq l' hf h hv hj hp =>
      rw [h] at hl; dsimp only at hl; split at hl
      · rename_i e; exact hj j e.symm
      · exact I.index j v hl
    | rel l' h hp =>
      rw [h] at hl; dsimp only at hl; split at hl
      · simp at hl
      · exact I.index j v hl
  · intro v q hq
    rcases hws v q hq with ⟨rfl, rfl⟩ | ⟨hv, hq⟩
    · exact hok
    · refine pcOk_frame (I.ok v q hq) (ctxOf_eq (C.ctx v hv)) ?_ ?_
      · intro i hi
        have h1 := I.valid _ _ (I.own v q hq _ hi)
        simp only [Valid] at h1
        have h2 : f.dn[i]? = some (f.dn[i]) := List.getElem?_eq_getElem h1
        rw [h2]
        exact C.dn i _ h2 (disj v q _ hv hq hi)
      · intro i hi
        have h1 := I.valid _ _ (I.own v q hq _ hi)
        simp only [Valid] at h1
        have h2 : f.cn[i]? = some (f.cn[i]) := List.getElem?_eq_getElem h1
        rw [h2]
        exact C.cn i _ h2 (disj v q _ hv hq hi)

end Verif.LockLevel
