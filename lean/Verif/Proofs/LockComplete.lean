import Verif.Proofs.LockIntro
import Verif.Proofs.LockMain
import Verif.Spec.LockFree

/-! # Every block of the search can be executed at the level of locks, by one worker alone -/

namespace Verif.LockLevel

open Verif.Search

set_option linter.unusedSimpArgs false
set_option linter.unusedSectionVars false

variable {S A R X Y : Type} [DecidableEq S] [DecidableEq A] [Add R] [Zero R]

/-- Worker `w` takes some steps, the others none. -/
inductive Solo (env : Env S A R) (m : Manager S R) (hash : Int × S → Nat) (alg : Alg S A R X Y) (code : Code S A R X Y) (w : Nat) :
    FSt S A R X Y → List (Event S A R) → FSt S A R X Y → List (Event S A R) → Prop where
  | refl (f h) : Solo env m hash alg code w f h f h
  | step {f h f1 e f' h' ch} (hs : fstep env m hash alg code f w ch = some (f1, e)) (r : Solo env m hash alg code w f1 (e.toList ++ h) f' h') :
      Solo env m hash alg code w f h f' h'

/-- `f` with other locks and with worker `w` at `pc`. -/
def FSt.put (f : FSt S A R X Y) (L : Lk → Option Nat) (w : Nat) (pc : Pc S A R X Y) : FSt S A R X Y :=
  { f with lock := L, ws := f.ws.set w pc }

variable {env : Env S A R} {m : Manager S R} {hash : Int × S → Nat} {alg : Alg S A R X Y} {code : Code S A R X Y}
  {f f1 f' f2 : FSt S A R X Y} {w : Nat} {h h1 h' h2 : List (Event S A R)} {L : Lk → Option Nat}

theorem Solo.trans (a : Solo env m hash alg code w f h f1 h1) (b : Solo env m hash alg code w f1 h1 f2 h2) :
    Solo env m hash alg code w f h f2 h2 := by
  induction a with
  | refl => exact b
  | step hs _ ih => exact .step hs (ih b)

theorem Solo.fexec (a : Solo env m hash alg code w f h f' h') : ∃ ls, (∀ l ∈ ls, l.1 = w) ∧ fexec env m hash alg code f h ls = some (f', h') := by
  induction a with
  | refl => exact ⟨[], by simp, rfl⟩
  | @step f h f1 e f' h' ch hs _ ih =>
    obtain ⟨ls, g1, g2⟩ := ih
    refine ⟨(w, ch) :: ls, by simpa using g1, ?_⟩
    simp [LockLevel.fexec, hs, g2]

theorem Solo.eff {e : Option (Event S A R)} (hc : f.crashed = none) (hc' : f'.crashed = none)
    (hb : ∀ nodes before after ret tot, f.ws[w]? = some (.out (.back nodes before after ret tot)) → before = [] → nodes = [])
    (E : FEff env m hash alg code f w e f') : Solo env m hash alg code w f h f' (e.toList ++ h) := by
  obtain ⟨ch, hs⟩ := eff_fstep hc hc' hb E
  exact .step hs (.refl _ _)

theorem put_put (f : FSt S A R X Y) (L L' : Lk → Option Nat) (pc pc' : Pc S A R X Y) : (f.put L w pc).put L' w pc' = f.put L' w pc' := by
  simp [FSt.put]

theorem put_get (hw : w < f.ws.length) (pc : Pc S A R X Y) : (f.put L w pc).ws[w]? = some pc := by
  simp [FSt.put, List.getElem?_set_self hw]

/-- A step that changes only locks and the position. -/
theorem solo_put {pc pc' : Pc S A R X Y} {L' : Lk → Option Nat} {e : Option (Event S A R)} (hw : w < f.ws.length) (hc : f.crashed = none)
    (hp : ∀ p, pc ≠ .out p)
    (E : FEff env m hash alg code (f.put L w pc) w e (f.put L' w pc')) :
    Solo env m hash alg code w (f.put L w pc) h (f.put L' w pc') (e.toList ++ h) := by
  refine Solo.eff hc hc ?_ E
  intro nodes before after ret tot hh
  rw [put_get hw] at hh
  exact absurd (Option.some.inj hh) (hp _)

theorem lockAllD (hw : w < f.ws.length) (hc : f.crashed = none) (p : Phase S A R) (snaps : List (List (A × Nat × Y))) (todo : List Nat) :
    ∀ (held : List Nat) (L : Lk → Option Nat), (∀ k ∈ todo, k < f.cn.length ∧ L (.c k) = none) → todo.Nodup →
    ∃ L', Solo env m hash alg code w (f.put L w (.lockD p snaps held todo)) h (f.put L' w (.lockD p snaps (held ++ todo) [])) h ∧
      ∀ l, (∀ k ∈ todo, l ≠ .c k) → L' l = L l := by
  induction todo with
  | nil => intro held L _ _; exact ⟨L, by simpa using Solo.refl _ _, fun _ _ => rfl⟩
  | cons k todo ih =>
    intro held L hk hn
    rw [List.nodup_cons] at hn
    have h1 := hk k (by simp)
    obtain ⟨L', g1, g2⟩ := ih (held ++ [k]) (fun l' => if l' = .c k then some w else L l') (by
      intro k' hk'
      have := hk k' (by simp [hk'])
      refine ⟨this.1, ?_⟩
      have : k' ≠ k := by rintro rfl; exact hn.1 hk'
      simp only [Lk.c.injEq, this, if_false]
      exact (hk k' (by simp [hk'])).2) hn.2
    refine ⟨L', ?_, ?_⟩
    · refine Solo.trans (h1 := h) ?_ (by simpa using g1)
      refine solo_put (e := none) hw hc (by simp) ?_
      have := FEff.lockD (env := env) (m := m) (hash := hash) (alg := alg) (code := code) (put_get (L := L) hw (.lockD p snaps held (k :: todo)))
        h1.1 h1.2
      simpa [FSt.put, FSt.setW, FSt.setLock] using this
    · intro l hl
      simp only [List.mem_cons, forall_eq_or_imp] at hl
      rw [g2 l hl.2]; simp [hl.1]

theorem lockAllC (hw : w < f.ws.length) (hc : f.crashed = none) (p : Phase S A R) (snaps : List (List (S × X))) (todo : List Nat) :
    ∀ (held : List Nat) (L : Lk → Option Nat), (∀ k ∈ todo, k < f.dn.length ∧ L (.d k) = none) → todo.Nodup →
    ∃ L', Solo env m hash alg code w (f.put L w (.lockC p snaps held todo)) h (f.put L' w (.lockC p snaps (held ++ todo) [])) h ∧
      ∀ l, (∀ k ∈ todo, l ≠ .d k) → L' l = L l := by
  induction todo with
  | nil => intro held L _ _; exact ⟨L, by simpa using Solo.refl _ _, fun _ _ => rfl⟩
  | cons k todo ih =>
    intro held L hk hn
    rw [List.nodup_cons] at hn
    have h1 := hk k (by simp)
    obtain ⟨L', g1, g2⟩ := ih (held ++ [k]) (fun l' => if l' = .d k then some w else L l') (by
      intro k' hk'
      have := hk k' (by simp [hk'])
      refine ⟨this.1, ?_⟩
      have : k' ≠ k := by rintro rfl; exact hn.1 hk'
      simp only [Lk.d.injEq, this, if_false]
      exact (hk k' (by simp [hk'])).2) hn.2
    refine ⟨L', ?_, ?_⟩
    · refine Solo.trans (h1 := h) ?_ (by simpa using g1)
      refine solo_put (e := none) hw hc (by simp) ?_
      have := FEff.lockC (env := env) (m := m) (hash := hash) (alg := alg) (code := code) (put_get (L := L) hw (.lockC p snaps held (k :: todo)))
        h1.1 h1.2
      simpa [FSt.put, FSt.setW, FSt.setLock] using this
    · intro l hl
      simp only [List.mem_cons, forall_eq_or_imp] at hl
      rw [g2 l hl.2]; simp [hl.1]

theorem relAllD (hw : w < f.ws.length) (hc : f.crashed = none) (p : Phase S A R) (snaps : List (List (A × Nat × Y))) (held : List Nat) :
    ∀ (L : Lk → Option Nat), ∃ L', Solo env m hash alg code w (f.put L w (.relD p snaps held)) h (f.put L' w (.relD p snaps [])) h ∧
      (∀ k ∈ held, L' (.c k) = none) ∧ ∀ l, (∀ k ∈ held, l ≠ .c k) → L' l = L l := by
  induction held with
  | nil => intro L; exact ⟨L, Solo.refl _ _, by simp, fun _ _ => rfl⟩
  | cons k held ih =>
    intro L
    obtain ⟨L', g1, g2, g3⟩ := ih (fun l' => if l' = .c k then none else L l')
    refine ⟨L', ?_, ?_, ?_⟩
    · refine Solo.trans (h1 := h) ?_ g1
      refine solo_put (e := none) hw hc (by simp) ?_
      have := FEff.relD (env := env) (m := m) (hash := hash) (alg := alg) (code := code) (put_get (L := L) hw (.relD p snaps (k :: held)))
      simpa [FSt.put, FSt.setW, FSt.setLock] using this
    · intro k' hk'
      by_cases hm : k' ∈ held
      · exact g2 k' hm
      · have : k' = k := by simpa [hm] using hk'
        subst this
        rw [g3 _ (by intro j hj e; simp at e; subst e; exact hm hj)]; simp
    · intro l hl
      simp only [List.mem_cons, forall_eq_or_imp] at hl
      rw [g3 l hl.2]; simp [hl.1]

theorem relAllC (hw : w < f.ws.length) (hc : f.crashed = none) (p : Phase S A R) (snaps : List (List (S × X))) (held : List Nat) :
    ∀ (L : Lk → Option Nat), ∃ L', Solo env m hash alg code w (f.put L w (.relC p snaps held)) h (f.put L' w (.relC p snaps [])) h ∧
      (∀ k ∈ held, L' (.d k) = none) ∧ ∀ l, (∀ k ∈ held, l ≠ .d k) → L' l = L l := by
  induction held with
  | nil => intro L; exact ⟨L, Solo.refl _ _, by simp, fun _ _ => rfl⟩
  | cons k held ih =>
    intro L
    obtain ⟨L', g1, g2, g3⟩ := ih (fun l' => if l' = .d k then none else L l')
    refine ⟨L', ?_, ?_, ?_⟩
    · refine Solo.trans (h1 := h) ?_ g1
      refine solo_put (e := none) hw hc (by simp) ?_
      have := FEff.relC (env := env) (m := m) (hash := hash) (alg := alg) (code := code) (put_get (L := L) hw (.relC p snaps (k :: held)))
      simpa [FSt.put, FSt.setW, FSt.setLock] using this
    · intro k' hk'
      by_cases hm : k' ∈ held
      · exact g2 k' hm
      · have : k' = k := by simpa [hm] using hk'
        subst this
        rw [g3 _ (by intro j hj e; simp at e; subst e; exact hm hj)]; simp
    · intro l hl
      simp only [List.mem_cons, forall_eq_or_imp] at hl
      rw [g3 l hl.2]; simp [hl.1]

theorem readAllD (hw : w < f.ws.length) (hc : f.crashed = none) (p : Phase S A R) (snaps : List (List (A × Nat × Y))) (held : List Nat)
    (todo : List (A × Nat)) : ∀ acc, (∀ k ∈ todo, k.2 < f.cn.length) →
    Solo env m hash alg code w (f.put L w (.readD p snaps held acc todo)) h
      (f.put L w (.readD p snaps held (acc ++ todo.filterMap fun k => (f.cn[k.2]?).map fun c => (k.1, c.visits, c.y)) [])) h := by
  induction todo with
  | nil => intro acc _; simpa using Solo.refl _ _
  | cons k todo ih =>
    intro acc hk
    obtain ⟨a, k⟩ := k
    have hlt := hk (a, k) (by simp)
    obtain ⟨nc, hnc⟩ : ∃ nc, f.cn[k]? = some nc := ⟨_, List.getElem?_eq_getElem hlt⟩
    refine Solo.trans (h1 := h) (f1 := f.put L w (.readD p snaps held (acc ++ [(a, nc.visits, nc.y)]) todo)) ?_ ?_
    · refine solo_put (e := none) hw hc (by simp) ?_
      have := FEff.readD (env := env) (m := m) (hash := hash) (alg := alg) (code := code)
        (put_get (L := L) hw (.readD p snaps held acc ((a, k) :: todo))) hnc
      simpa [FSt.put, FSt.setW, FSt.setLock] using this
    · have := ih (acc ++ [(a, nc.visits, nc.y)]) (fun k hk' => hk k (by simp [hk']))
      simpa [hnc] using this

theorem readAllC (hw : w < f.ws.length) (hc : f.crashed = none) (p : Phase S A R) (snaps : List (List (S × X))) (held : List Nat)
    (todo : List (S × Nat)) : ∀ acc, (∀ k ∈ todo, k.2 < f.dn.length) →
    Solo env m hash alg code w (f.put L w (.readC p snaps held acc todo)) h
      (f.put L w (.readC p snaps held (acc ++ todo.filterMap fun k => (f.dn[k.2]?).map fun d => (k.1, d.x)) [])) h := by
  induction todo with
  | nil => intro acc _; simpa using Solo.refl _ _
  | cons k todo ih =>
    intro acc hk
    obtain ⟨a, k⟩ := k
    have hlt := hk (a, k) (by simp)
    obtain ⟨nd, hnd⟩ : ∃ nd, f.dn[k]? = some nd := ⟨_, List.getElem?_eq_getElem hlt⟩
    refine Solo.trans (h1 := h) (f1 := f.put L w (.readC p snaps held (acc ++ [(a, nd.x)]) todo)) ?_ ?_
    · refine solo_put (e := none) hw hc (by simp) ?_
      have := FEff.readC (env := env) (m := m) (hash := hash) (alg := alg) (code := code)
        (put_get (L := L) hw (.readC p snaps held acc ((a, k) :: todo))) hnd
      simpa [FSt.put, FSt.setW, FSt.setLock] using this
    · have := ih (acc ++ [(a, nd.x)]) (fun k hk' => hk k (by simp [hk']))
      simpa [hnd] using this

theorem doAct_put (act : Act S X Y A) (pc : Pc S A R X Y) : ∃ L', ∀ pc', (doAct (f.put L w pc) act).setW w pc' = (doAct f act).put L' w pc' := by
  cases act with
  | rel l => exact ⟨fun l' => if l' = l then none else L l', fun pc' => by simp [doAct, FSt.put, FSt.setW, FSt.setLock]⟩
  | _ => exact ⟨L, fun pc' => by simp [doAct, FSt.put, FSt.setW, FSt.setLock]⟩

theorem postAll (next : Phase S A R) (acts : List (Act S X Y A)) : ∀ (f : FSt S A R X Y) (L : Lk → Option Nat), w < f.ws.length →
    f.crashed = none →
    ∃ L', Solo env m hash alg code w (f.put L w (.post next acts)) h ((acts.foldl doAct f).put L' w (.out next)) h := by
  induction acts with
  | nil =>
    intro f L hw hc
    refine ⟨L, solo_put (e := none) hw hc (by simp) ?_⟩
    have := FEff.leave (env := env) (m := m) (hash := hash) (alg := alg) (code := code) (put_get (L := L) hw (.post next []))
    simpa [FSt.put, FSt.setW, FSt.setLock] using this
  | cons act acts ih =>
    intro f L hw hc
    obtain ⟨L', hL⟩ := doAct_put (f := f) (L := L) (w := w) act (.post next (act :: acts))
    have hws := doAct_ws f act
    obtain ⟨L2, g⟩ := ih (doAct f act) L' (by rw [hws.1]; exact hw) (by rw [hws.2.2.2]; exact hc)
    refine ⟨L2, Solo.trans (h1 := h) ?_ g⟩
    have E := FEff.post (env := env) (m := m) (hash := hash) (alg := alg) (code := code) (put_get (L := L) hw (.post next (act :: acts)))
    rw [hL] at E
    have := Solo.eff (h := h) (f := f.put L w (.post next (act :: acts))) hc (by show (doAct f act).crashed = none; rw [hws.2.2.2]; exact hc) (by
      intro nodes before after ret tot hh
      rw [put_get hw] at hh; simp at hh) E
    simpa using this

theorem foldl_rel (l : List Nat) (g : Nat → Lk) (f : FSt S A R X Y) : ∃ L', (l.map fun k => Act.rel (g k)).foldl doAct f = { f with lock := L' } := by
  induction l generalizing f with
  | nil => exact ⟨f.lock, rfl⟩
  | cons k l ih =>
    obtain ⟨L', h⟩ := ih (f.setLock (g k) none)
    exact ⟨L', by simpa [doAct, FSt.setLock] using h⟩

/-- The rest of a block that begins with unlocking. -/
theorem postRel (hw : w < f.ws.length) (hc : f.crashed = none) (L : Lk → Option Nat) (next : Phase S A R) (l : List Nat) (g : Nat → Lk)
    (acts : List (Act S X Y A)) :
    ∃ L', Solo env m hash alg code w (f.put L w (.post next (l.map (fun k => Act.rel (g k)) ++ acts))) h
      ((acts.foldl doAct f).put L' w (.out next)) h := by
  obtain ⟨L', hs⟩ := postAll (env := env) (m := m) (hash := hash) (alg := alg) (code := code) (h := h) next (l.map (fun k => Act.rel (g k)) ++ acts) f L hw hc
  refine ⟨L', ?_⟩
  obtain ⟨L2, h2⟩ := foldl_rel l g f
  rw [List.foldl_append, h2] at hs
  have key : ∀ (acts : List (Act S X Y A)) (f : FSt S A R X Y) L2, (acts.foldl doAct { f with lock := L2 }).put L' w (.out next) =
      (acts.foldl doAct f).put L' w (.out next) := by
    intro acts
    induction acts with
    | nil => intro f L2; rfl
    | cons act acts ih =>
      intro f L2
      simp only [List.foldl_cons]
      have : ∃ L3, doAct { f with lock := L2 } act = { doAct f act with lock := L3 } := by
        cases act with
        | rel l => exact ⟨fun l' => if l' = l then none else L2 l', rfl⟩
        | _ => exact ⟨L2, rfl⟩
      obtain ⟨L3, h3⟩ := this
      rw [h3, ih]
  rwa [key] at hs

end Verif.LockLevel
