import Verif.Proofs.LockRel
import Verif.Proofs.SearchMore

/-! # Every step at the level of locks is a step of the search, or none -/

namespace Verif.LockLevel

open Verif.Search

set_option linter.unusedSimpArgs false
set_option linter.unusedSectionVars false

variable {S A R X Y X' Y' : Type} [DecidableEq S] [DecidableEq A] [Add R] [Zero R]
variable {env : Env S A R} {m : Manager S R} {hash : Int × S → Nat} {code : Code S A R X Y} {alg : Alg S A R X Y} {alg' : Alg S A R X' Y'}
  {π : X → X'} {ρ : Y → Y'} {jD jC : Nat} {f f' : FSt S A R X Y} {s s' : St S A R X' Y'} {w : Nat} {e : Option (Event S A R)}

theorem chg_at (I : LInv env m code f) (E : FEff env m hash alg code f w e f') (hcr : f'.crashed = none) {pc pc' : Pc S A R X Y}
    (hw : f.ws[w]? = some pc) (hw' : f'.ws = f.ws.set w pc') : Chg m f f' w pc pc' := by
  rcases eff_chg I E with ⟨x, rfl, -⟩ | ⟨q, q', C, -⟩
  · simp at hcr
  · have h1 := C.before
    rw [hw] at h1; simp at h1; subst h1
    have h2 := C.after
    rw [hw'] at h2
    have hlt : w < f.ws.length := (List.getElem?_eq_some_iff.1 hw).1
    have h3 : (f.ws.set w pc')[w]? = (f.ws.set w q')[w]? := by rw [h2]
    rw [List.getElem?_set_self hlt, List.getElem?_set_self hlt] at h3
    simp at h3; subst h3; exact C

/-- A step that the search does not see. -/
theorem rel_tau (I : LInv env m code f) (I' : LInv env m code f') (H : Rel env m code alg alg' π ρ jD jC f s) {pc pc' : Pc S A R X Y}
    (C : Chg m f f' w pc pc') (hm : m.useTable = true → m.numMutexes ≤ 1)
    (hdn : f'.dn = f.dn) (hcn : f'.cn = f.cn) (htb : f'.table = f.table) (hroot : f'.root = f.root) (hctx : f'.ctxs = f.ctxs)
    (habs : absPhase jD jC pc' = absPhase jD jC pc)
    (hd : ∀ i nd nd', dRel env m code alg alg' π ρ jD (f.ctxOf w) pc i nd nd' → dRel env m code alg alg' π ρ jD (f.ctxOf w) pc' i nd nd')
    (hc : ∀ i nc nc', cRel alg alg' π ρ jC pc i nc nc' → cRel alg alg' π ρ jC pc' i nc nc')
    (hins : insOf pc' = insOf pc) : Rel env m code alg alg' π ρ jD jC f' s := by
  have hx : f'.ctxOf w = f.ctxOf w := by simp [FSt.ctxOf, hctx]
  refine rel_step (s' := s) I I' H C hm (by rw [H.root, hroot]) (by rw [H.ctxs, hctx]) H.crashed ?_ (by rw [hdn, H.dlen]) (by rw [hcn, H.clen])
    ?_ ?_ (fun _ _ _ _ h => h) ?_ ?_ (fun _ _ _ _ h => h) ?_ ?_
  · rw [habs]
    have := H.ws w pc C.before
    apply List.ext_getElem?
    intro j
    rw [List.getElem?_set]
    split
    · rename_i e; subst e; rw [if_pos (List.getElem?_eq_some_iff.1 this).1, this]
    · rfl
  · intro i _ nd nd' h1 h2 h3 n n' h4 h5
    rw [hdn, h1] at h4; rw [h2] at h5; simp at h4 h5; subst h4; subst h5
    rw [hx]; exact hd i nd nd' h3
  · intro i hi n n' h4
    rw [hdn] at h4
    have := (List.getElem?_eq_some_iff.1 h4).1; omega
  · intro i _ nd nd' h1 h2 h3 n n' h4 h5
    rw [hcn, h1] at h4; rw [h2] at h5; simp at h4 h5; subst h4; subst h5
    exact hc i nd nd' h3
  · intro i hi n n' h4
    rw [hcn] at h4
    have := (List.getElem?_eq_some_iff.1 h4).1; omega
  · intro h; rw [htb, hins]; exact h
  · intro _; exact ⟨htb, rfl⟩

/-- What a step is in the search. -/
inductive Out (env : Env S A R) (m : Manager S R) (code : Code S A R X Y) (alg : Alg S A R X Y) (alg' : Alg S A R X' Y')
    (π : X → X') (ρ : Y → Y') (jD jC : Nat) (f f' : FSt S A R X Y) (s : St S A R X' Y') (w : Nat) (e : Option (Event S A R)) : Prop where
  /-- nothing -/
  | same (he : e = none) (H : Rel env m code alg alg' π ρ jD jC f' s)
      (hp : ∀ pc pc', f.ws[w]? = some pc → f'.ws = f.ws.set w pc' → pendE jD jC w pc' = pendE jD jC w pc)
  /-- the same -/
  | sync {ev s'} (he : e = some ev) (hs : ∃ ch, step env m alg' s w ch = some (s', ev)) (H : Rel env m code alg alg' π ρ jD jC f' s')
      (hp : ∀ pc pc', f.ws[w]? = some pc → f'.ws = f.ws.set w pc' → pendE jD jC w pc' = [] ∧ pendE jD jC w pc = [])
  /-- a backup that is done later at the level of locks -/
  | early {ev s'} (he : e = none) (hs : ∃ ch, step env m alg' s w ch = some (s', ev)) (H : Rel env m code alg alg' π ρ jD jC f' s')
      (hp : ∀ pc pc', f.ws[w]? = some pc → f'.ws = f.ws.set w pc' → pendE jD jC w pc' = [ev] ∧ pendE jD jC w pc = [])
      (hmul : jD + 1 < code.nD ∨ jC + 1 < code.nC)
  /-- ... and which has been done before in the search -/
  | late {ev} (he : e = some ev) (H : Rel env m code alg alg' π ρ jD jC f' s)
      (hp : ∀ pc pc', f.ws[w]? = some pc → f'.ws = f.ws.set w pc' → pendE jD jC w pc' = [] ∧ pendE jD jC w pc = [ev])
      (hmul : jD + 1 < code.nD ∨ jC + 1 < code.nC)

theorem pc_of {f f' : FSt S A R X Y} {w : Nat} {p p' : Pc S A R X Y} (hw : f.ws[w]? = some p) (hw' : f'.ws = f.ws.set w p') :
    ∀ pc pc', f.ws[w]? = some pc → f'.ws = f.ws.set w pc' → pc = p ∧ pc' = p' := by
  intro pc pc' h h'
  rw [hw] at h; simp at h
  have hlt : w < f.ws.length := (List.getElem?_eq_some_iff.1 hw).1
  rw [hw'] at h'
  have h3 : (f.ws.set w p')[w]? = (f.ws.set w pc')[w]? := by rw [h']
  rw [List.getElem?_set_self hlt, List.getElem?_set_self hlt] at h3
  simp at h3; exact ⟨h.symm, h3.symm⟩

theorem same_of (I : LInv env m code f) (E : FEff env m hash alg code f w none f') (H : Rel env m code alg alg' π ρ jD jC f s)
    (hm : m.useTable = true → m.numMutexes ≤ 1) (hcr : f'.crashed = none) {pc pc' : Pc S A R X Y}
    (hw : f.ws[w]? = some pc) (hw' : f'.ws = f.ws.set w pc')
    (hdn : f'.dn = f.dn) (hcn : f'.cn = f.cn) (htb : f'.table = f.table) (hroot : f'.root = f.root) (hctx : f'.ctxs = f.ctxs)
    (habs : absPhase jD jC pc' = absPhase jD jC pc)
    (hd : ∀ i nd nd', dRel env m code alg alg' π ρ jD (f.ctxOf w) pc i nd nd' → dRel env m code alg alg' π ρ jD (f.ctxOf w) pc' i nd nd')
    (hc : ∀ i nc nc', cRel alg alg' π ρ jC pc i nc nc' → cRel alg alg' π ρ jC pc' i nc nc')
    (hins : insOf pc' = insOf pc) (hpe : pendE jD jC w pc' = pendE jD jC w pc) :
    Out env m code alg alg' π ρ jD jC f f' s w none := by
  refine .same rfl (rel_tau I (linv_eff I E) H (chg_at I E hcr hw hw') hm hdn hcn htb hroot hctx habs hd hc hins) ?_
  intro q q' h h'
  obtain ⟨rfl, rfl⟩ := pc_of hw hw' q q' h h'
  exact hpe

theorem do_step {ev : Event S A R} (hcr : s.crashed = none) (E : Eff env m alg' s w ev s') (hcr' : s'.crashed = none)
    (hm : m.useTable = true → m.numMutexes ≠ 0 ∨ ∀ d a c o d' r, ev ≠ .stepped w d a c o d' r true) :
    ∃ ch, step env m alg' s w ch = some (s', ev) := by
  apply eff_step hcr E
  · rintro x rfl
    cases E; simp at hcr'
  · intro d a c o d' r he hu
    rcases hm hu with h | h
    · exact h
    · exact absurd he (h d a c o d' r)

theorem ctx_eq (H : Rel env m code alg alg' π ρ jD jC f s) : s.ctxOf w = f.ctxOf w := by simp [St.ctxOf, FSt.ctxOf, H.ctxs]

theorem actsD_rel (i : Nat) (l : List Nat) (g : Nat → Lk) (acts : List (Act S X Y A)) (nd : DNode S A R X) :
    actsD i (l.map (fun k => Act.rel (g k)) ++ acts) nd = actsD i acts nd := by
  induction l with
  | nil => rfl
  | cons k l ih => exact ih

theorem actsC_rel (i : Nat) (l : List Nat) (g : Nat → Lk) (acts : List (Act S X Y A)) (nc : CNode S A R Y) :
    actsC i (l.map (fun k => Act.rel (g k)) ++ acts) nc = actsC i acts nc := by
  induction l with
  | nil => rfl
  | cons k l ih => exact ih

theorem insOf_rel (l : List Nat) (g : Nat → Lk) (next : Phase S A R) (acts : List (Act S X Y A)) :
    insOf (.post next (l.map (fun k => Act.rel (g k)) ++ acts) : Pc S A R X Y) = insOf (.post next acts : Pc S A R X Y) := by
  induction l with
  | nil => rfl
  | cons k l ih => simpa [insOf] using ih

/-- What has been read of the children is what they are in the search. -/
theorem kidsY_read (I : LInv env m code f) (H : Rel env m code alg alg' π ρ jD jC f s) {p : Phase S A R} {snaps : List (List (A × Nat × Y))}
    {held : List Nat} {acc : List (A × Nat × Y)} (hw : f.ws[w]? = some (.readD p snaps held acc [])) {l : List (A × Nat)}
    (hl : ∀ k ∈ l, k.2 ∈ held) : ∀ acc' : List (A × Nat × Y), acc'.map some = l.map (readY f) →
    l.filterMap (fun p => (s.cn[p.2]?).map (fun c => (p.1, c.visits, c.y))) = acc'.map (mapK ρ) := by
  induction l with
  | nil => intro acc' h; simp at h; subst h; rfl
  | cons k l ih =>
    intro acc' h
    cases acc' with
    | nil => simp at h
    | cons x acc' =>
      simp only [List.map_cons, List.cons.injEq] at h
      obtain ⟨h1, h2⟩ := h
      have hk : Lk.c k.2 ∈ holds (.readD p snaps held acc [] : Pc S A R X Y) := by
        have := hl k (by simp)
        simp [holds, this]
      simp only [readY] at h1
      cases hc : f.cn[k.2]? with
      | none => simp [hc] at h1
      | some nc =>
        have hlt : k.2 < s.cn.length := by rw [H.clen]; exact (List.getElem?_eq_some_iff.1 hc).1
        have hc' : s.cn[k.2]? = some s.cn[k.2] := List.getElem?_eq_getElem hlt
        have hr : s.cn[k.2] = mapC ρ nc := H.cown _ _ _ hc hc' w _ hw hk
        rw [hr] at hc'
        simp only [hc, Option.map_some, Option.some.injEq] at h1
        simp only [List.filterMap_cons, hc', Option.map_some, List.map_cons, List.cons.injEq]
        refine ⟨?_, ih (fun k hk => hl k (by simp [hk])) acc' h2⟩
        rw [h1]; rfl

theorem kidsX_read (I : LInv env m code f) (H : Rel env m code alg alg' π ρ jD jC f s) {p : Phase S A R} {snaps : List (List (S × X))}
    {held : List Nat} {acc : List (S × X)} (hw : f.ws[w]? = some (.readC p snaps held acc [])) {l : List (S × Nat)}
    (hl : ∀ k ∈ l, k.2 ∈ held) : ∀ acc' : List (S × X), acc'.map some = l.map (readX f) →
    l.filterMap (fun p => (s.dn[p.2]?).map (fun d => (p.1, d.x))) = acc'.map (fun k => (k.1, π k.2)) := by
  induction l with
  | nil => intro acc' h; simp at h; subst h; rfl
  | cons k l ih =>
    intro acc' h
    cases acc' with
    | nil => simp at h
    | cons x acc' =>
      simp only [List.map_cons, List.cons.injEq] at h
      obtain ⟨h1, h2⟩ := h
      have hk : Lk.d k.2 ∈ holds (.readC p snaps held acc [] : Pc S A R X Y) := by
        have := hl k (by simp)
        simp [holds, this]
      simp only [readX] at h1
      cases hc : f.dn[k.2]? with
      | none => simp [hc] at h1
      | some nc =>
        have hlt : k.2 < s.dn.length := by rw [H.dlen]; exact (List.getElem?_eq_some_iff.1 hc).1
        have hc' : s.dn[k.2]? = some s.dn[k.2] := List.getElem?_eq_getElem hlt
        have hr : s.dn[k.2] = mapD π nc := H.down _ _ _ hc hc' w _ hw hk
        rw [hr] at hc'
        simp only [hc, Option.map_some, Option.some.injEq] at h1
        simp only [List.filterMap_cons, hc', Option.map_some, List.map_cons, List.cons.injEq]
        refine ⟨?_, ih (fun k hk => hl k (by simp [hk])) acc' h2⟩
        rw [h1]; rfl

/-- Only some of the children have been read. -/
theorem kidsY_filter (cn : List (CNode S A R Y')) (q : A → Bool) (l : List (A × Nat)) :
    (l.filterMap (fun p => (cn[p.2]?).map (fun c => (p.1, c.visits, c.y)))).filter (fun k => q k.1) =
      (l.filter fun k => q k.1).filterMap (fun p => (cn[p.2]?).map (fun c => (p.1, c.visits, c.y))) := by
  induction l with
  | nil => rfl
  | cons k l ih =>
    cases hc : cn[k.2]? with
    | none => by_cases hq : q k.1 = true <;> simp [List.filterMap_cons, List.filter_cons, hc, hq, ih]
    | some nc => by_cases hq : q k.1 = true <;> simp [List.filterMap_cons, List.filter_cons, hc, hq, ih]

theorem kidsY_fst {cn : List (CNode S A R Y')} {l : List (A × Nat)} (h : ∀ k ∈ l, k.2 < cn.length) :
    (l.filterMap (fun p => (cn[p.2]?).map (fun c => (p.1, c.visits, c.y)))).map (fun k => k.1) = l.map fun k => k.1 := by
  induction l with
  | nil => rfl
  | cons k l ih =>
    have h1 : cn[k.2]? = some (cn[k.2]'(h k (by simp))) := List.getElem?_eq_getElem _
    simp only [List.filterMap_cons, h1, Option.map_some, List.map_cons, List.cons.injEq, true_and]
    exact ih fun k hk => h k (by simp [hk])

theorem set_same_get {α : Type} {l : List α} {i : Nat} {x y n : α} (h : l[i]? = some x) (hn : (l.set i y)[i]? = some n) : n = y := by
  rw [List.getElem?_set_self (List.getElem?_eq_some_iff.1 h).1] at hn; simpa using hn.symm

/-- What a step does to decision nodes, here and in the search. -/
structure DPart (env : Env S A R) (m : Manager S R) (code : Code S A R X Y) (alg : Alg S A R X Y) (alg' : Alg S A R X' Y')
    (π : X → X') (ρ : Y → Y') (jD : Nat) (f f' : FSt S A R X Y) (s s' : St S A R X' Y') (w : Nat) (pc pc' : Pc S A R X Y) : Prop where
  len : s'.dn.length = f'.dn.length
  old : ∀ i, Mine f w (.d i) → ∀ nd nd', f.dn[i]? = some nd → s.dn[i]? = some nd' →
      dRel env m code alg alg' π ρ jD (f.ctxOf w) pc i nd nd' → ∀ n n', f'.dn[i]? = some n → s'.dn[i]? = some n' →
      dRel env m code alg alg' π ρ jD (f'.ctxOf w) pc' i n n'
  new : ∀ i, f.dn.length ≤ i → ∀ n n', f'.dn[i]? = some n → s'.dn[i]? = some n' →
      dRel env m code alg alg' π ρ jD (f'.ctxOf w) pc' i n n'
  keep : ∀ i nd', i < f.dn.length → Lk.d i ∉ holds pc → s.dn[i]? = some nd' → s'.dn[i]? = some nd'

structure CPart (alg : Alg S A R X Y) (alg' : Alg S A R X' Y')
    (π : X → X') (ρ : Y → Y') (jC : Nat) (f f' : FSt S A R X Y) (s s' : St S A R X' Y') (w : Nat) (pc pc' : Pc S A R X Y) : Prop where
  len : s'.cn.length = f'.cn.length
  old : ∀ i, Mine f w (.c i) → ∀ nc nc', f.cn[i]? = some nc → s.cn[i]? = some nc' →
      cRel alg alg' π ρ jC pc i nc nc' → ∀ n n', f'.cn[i]? = some n → s'.cn[i]? = some n' → cRel alg alg' π ρ jC pc' i n n'
  new : ∀ i, f.cn.length ≤ i → ∀ n n', f'.cn[i]? = some n → s'.cn[i]? = some n' → cRel alg alg' π ρ jC pc' i n n'
  keep : ∀ i nc', i < f.cn.length → Lk.c i ∉ holds pc → s.cn[i]? = some nc' → s'.cn[i]? = some nc'

section
variable {pc pc' : Pc S A R X Y}

/-- Decision nodes are left alone. -/
theorem DPart.same (H : Rel env m code alg alg' π ρ jD jC f s) (hf : f'.dn = f.dn) (hs : s'.dn = s.dn)
    (h : ∀ i nd nd', dRel env m code alg alg' π ρ jD (f.ctxOf w) pc i nd nd' → dRel env m code alg alg' π ρ jD (f'.ctxOf w) pc' i nd nd') :
    DPart env m code alg alg' π ρ jD f f' s s' w pc pc' := by
  refine ⟨by rw [hs, hf, H.dlen], ?_, ?_, fun i nd' _ _ h => by rw [hs]; exact h⟩
  · intro i _ nd nd' h1 h2 h3 n n' h4 h5
    rw [hf, h1] at h4; rw [hs, h2] at h5; simp at h4 h5; subst h4; subst h5
    exact h i nd nd' h3
  · intro i hi n n' h4
    rw [hf] at h4
    have := (List.getElem?_eq_some_iff.1 h4).1; omega

/-- One decision node changes, here or in the search or in both. -/
theorem DPart.one (H : Rel env m code alg alg' π ρ jD jC f s) (cur : Nat) (hcur : Lk.d cur ∈ holds pc)
    (hf : ∀ i, i ≠ cur → f'.dn[i]? = f.dn[i]?) (hfl : f'.dn.length = f.dn.length)
    (hs : ∀ i, i ≠ cur → s'.dn[i]? = s.dn[i]?) (hsl : s'.dn.length = s.dn.length)
    (h1 : ∀ nd nd', f.dn[cur]? = some nd → s.dn[cur]? = some nd' → dRel env m code alg alg' π ρ jD (f.ctxOf w) pc cur nd nd' →
      ∀ n n', f'.dn[cur]? = some n → s'.dn[cur]? = some n' → dRel env m code alg alg' π ρ jD (f'.ctxOf w) pc' cur n n')
    (h : ∀ i nd nd', i ≠ cur → dRel env m code alg alg' π ρ jD (f.ctxOf w) pc i nd nd' →
      dRel env m code alg alg' π ρ jD (f'.ctxOf w) pc' i nd nd') :
    DPart env m code alg alg' π ρ jD f f' s s' w pc pc' := by
  refine ⟨by rw [hsl, hfl, H.dlen], ?_, ?_, ?_⟩
  · intro i _ nd nd' e1 e2 e3 n n' e4 e5
    by_cases hi : i = cur
    · subst hi; exact h1 nd nd' e1 e2 e3 n n' e4 e5
    · rw [hf i hi, e1] at e4; rw [hs i hi, e2] at e5; simp at e4 e5; subst e4; subst e5
      exact h i nd nd' hi e3
  · intro i hi n n' h4
    have := (List.getElem?_eq_some_iff.1 h4).1; omega
  · intro i nd' _ hn e
    rw [hs i (by rintro rfl; exact hn hcur)]; exact e

/-- A decision node is created, here and in the search. -/
theorem DPart.snoc (H : Rel env m code alg alg' π ρ jD jC f s) {x : DNode S A R X} (hf : f'.dn = f.dn ++ [x]) (hs : s'.dn = s.dn ++ [mapD π x])
    (hx : dRel env m code alg alg' π ρ jD (f'.ctxOf w) pc' f.dn.length x (mapD π x))
    (h : ∀ i nd nd', dRel env m code alg alg' π ρ jD (f.ctxOf w) pc i nd nd' → dRel env m code alg alg' π ρ jD (f'.ctxOf w) pc' i nd nd') :
    DPart env m code alg alg' π ρ jD f f' s s' w pc pc' := by
  refine ⟨by rw [hs, hf]; simp [H.dlen], ?_, ?_, fun i nd' _ _ h => by rw [hs]; exact snoc_old h⟩
  · intro i _ nd nd' h1 h2 h3 n n' h4 h5
    rw [hf, snoc_old h1] at h4; rw [hs, snoc_old h2] at h5; simp at h4 h5; subst h4; subst h5
    exact h i nd nd' h3
  · intro i hi n n' h4 h5
    rw [hf] at h4
    have := (List.getElem?_eq_some_iff.1 h4).1
    simp at this
    have : i = f.dn.length := by omega
    subst this
    rw [hs, ← H.dlen] at h5
    simp at h4 h5; subst h4; subst h5
    exact hx

theorem CPart.same (H : Rel env m code alg alg' π ρ jD jC f s) (hf : f'.cn = f.cn) (hs : s'.cn = s.cn)
    (h : ∀ i nd nd', cRel alg alg' π ρ jC pc i nd nd' → cRel alg alg' π ρ jC pc' i nd nd') :
    CPart alg alg' π ρ jC f f' s s' w pc pc' := by
  refine ⟨by rw [hs, hf, H.clen], ?_, ?_, fun i nd' _ _ h => by rw [hs]; exact h⟩
  · intro i _ nd nd' h1 h2 h3 n n' h4 h5
    rw [hf, h1] at h4; rw [hs, h2] at h5; simp at h4 h5; subst h4; subst h5
    exact h i nd nd' h3
  · intro i hi n n' h4
    rw [hf] at h4
    have := (List.getElem?_eq_some_iff.1 h4).1; omega

theorem CPart.one (H : Rel env m code alg alg' π ρ jD jC f s) (cur : Nat) (hcur : Lk.c cur ∈ holds pc)
    (hf : ∀ i, i ≠ cur → f'.cn[i]? = f.cn[i]?) (hfl : f'.cn.length = f.cn.length)
    (hs : ∀ i, i ≠ cur → s'.cn[i]? = s.cn[i]?) (hsl : s'.cn.length = s.cn.length)
    (h1 : ∀ nd nd', f.cn[cur]? = some nd → s.cn[cur]? = some nd' → cRel alg alg' π ρ jC pc cur nd nd' →
      ∀ n n', f'.cn[cur]? = some n → s'.cn[cur]? = some n' → cRel alg alg' π ρ jC pc' cur n n')
    (h : ∀ i nd nd', i ≠ cur → cRel alg alg' π ρ jC pc i nd nd' → cRel alg alg' π ρ jC pc' i nd nd') :
    CPart alg alg' π ρ jC f f' s s' w pc pc' := by
  refine ⟨by rw [hsl, hfl, H.clen], ?_, ?_, ?_⟩
  · intro i _ nd nd' e1 e2 e3 n n' e4 e5
    by_cases hi : i = cur
    · subst hi; exact h1 nd nd' e1 e2 e3 n n' e4 e5
    · rw [hf i hi, e1] at e4; rw [hs i hi, e2] at e5; simp at e4 e5; subst e4; subst e5
      exact h i nd nd' hi e3
  · intro i hi n n' h4
    have := (List.getElem?_eq_some_iff.1 h4).1; omega
  · intro i nd' _ hn e
    rw [hs i (by rintro rfl; exact hn hcur)]; exact e

theorem CPart.snoc (H : Rel env m code alg alg' π ρ jD jC f s) {x : CNode S A R Y} (hf : f'.cn = f.cn ++ [x]) (hs : s'.cn = s.cn ++ [mapC ρ x])
    (hx : cRel alg alg' π ρ jC pc' f.cn.length x (mapC ρ x))
    (h : ∀ i nd nd', cRel alg alg' π ρ jC pc i nd nd' → cRel alg alg' π ρ jC pc' i nd nd') :
    CPart alg alg' π ρ jC f f' s s' w pc pc' := by
  refine ⟨by rw [hs, hf]; simp [H.clen], ?_, ?_, fun i nd' _ _ h => by rw [hs]; exact snoc_old h⟩
  · intro i _ nd nd' h1 h2 h3 n n' h4 h5
    rw [hf, snoc_old h1] at h4; rw [hs, snoc_old h2] at h5; simp at h4 h5; subst h4; subst h5
    exact h i nd nd' h3
  · intro i hi n n' h4 h5
    rw [hf] at h4
    have := (List.getElem?_eq_some_iff.1 h4).1
    simp at this
    have : i = f.cn.length := by omega
    subst this
    rw [hs, ← H.clen] at h5
    simp at h4 h5; subst h4; subst h5
    exact hx

theorem rel_parts (I : LInv env m code f) (E : FEff env m hash alg code f w e f') (H : Rel env m code alg alg' π ρ jD jC f s)
    (hm : m.useTable = true → m.numMutexes ≤ 1) (hcr : f'.crashed = none) (hw : f.ws[w]? = some pc) (hw' : f'.ws = f.ws.set w pc')
    (hroot : s'.root = f'.root) (hctx : s'.ctxs = f'.ctxs) (hcr' : s'.crashed = none) (hws : s'.ws = s.ws.set w (absPhase jD jC pc'))
    (hD : DPart env m code alg alg' π ρ jD f f' s s' w pc pc') (hC : CPart alg alg' π ρ jC f f' s s' w pc pc')
    (ht : (s.table = f.table ++ insOf pc → s'.table = f'.table ++ insOf pc'))
    (hto : Lk.t 0 ∉ holds pc → f'.table = f.table ∧ s'.table = s.table) :
    Rel env m code alg alg' π ρ jD jC f' s' :=
  rel_step I (linv_eff I E) H (chg_at I E hcr hw hw') hm hroot hctx hcr' hws hD.len hC.len hD.old hD.new hD.keep hC.old hC.new hC.keep ht hto

theorem ws_same (H : Rel env m code alg alg' π ρ jD jC f s) (hw : f.ws[w]? = some pc) (h : absPhase jD jC pc' = absPhase jD jC pc) :
    s.ws = s.ws.set w (absPhase jD jC pc') := by
  rw [h]
  have := H.ws w pc hw
  apply List.ext_getElem?
  intro j
  rw [List.getElem?_set]
  split
  · rename_i e; subst e; rw [if_pos (List.getElem?_eq_some_iff.1 this).1, this]
  · rfl

end

end Verif.LockLevel
