import Verif.Proofs.LockBlocks

/-! # Every run of the search is a run at the level of locks -/

namespace Verif.LockLevel

open Verif.Search

set_option linter.unusedSimpArgs false
set_option linter.unusedSectionVars false

section
variable {S A R X Y : Type} [DecidableEq S] [DecidableEq A] [Add R] [Zero R]
variable {env : Env S A R} {m : Manager S R} {hash : Int × S → Nat} {alg : Alg S A R X Y} {code : Code S A R X Y}

theorem fexec_append {l1 l2 : List (Nat × FChoice S A)} : ∀ {f : FSt S A R X Y} {h}, fexec env m hash alg code f h (l1 ++ l2) =
    (fexec env m hash alg code f h l1).bind fun p => fexec env m hash alg code p.1 p.2 l2 := by
  induction l1 with
  | nil => intro st h; simp [fexec]
  | cons l l1 ih =>
    obtain ⟨w, ch⟩ := l
    intro st h
    simp only [List.cons_append, fexec]
    split
    · exact ih
    · rfl

theorem freach_append {k : Nat} {s0 : S} {dp tm : Int} {tb : List ((Int × S) × Option Nat)} {f f' : FSt S A R X Y}
    {h h' : List (Event S A R)} {ls : List (Nat × FChoice S A)} (hr : FReachable env m hash alg code k s0 dp tm tb f h)
    (hx : fexec env m hash alg code f h ls = some (f', h')) : FReachable env m hash alg code k s0 dp tm tb f' h' := by
  obtain ⟨l, hl⟩ := hr
  exact ⟨l ++ ls, by rw [fexec_append, hl]; exact hx⟩

theorem freach_solo {k : Nat} {s0 : S} {dp tm : Int} {tb : List ((Int × S) × Option Nat)} {f f' : FSt S A R X Y} {w : Nat}
    {h h' : List (Event S A R)} (hr : FReachable env m hash alg code k s0 dp tm tb f h)
    (hx : Solo env m hash alg code w f h f' h') : FReachable env m hash alg code k s0 dp tm tb f' h' := by
  obtain ⟨ls, -, h2⟩ := hx.fexec
  exact freach_append hr h2

theorem step_mutex {s s' : St S A R X Y} {w : Nat} {ch : Choice S A} {cur : Nat} {a : A} {c : Nat} {o : S} {d : Nat} {r : R}
    (hs : step env m alg s w ch = some (s', .stepped w cur a c o d r true)) (hu : m.useTable = true) : m.numMutexes ≠ 0 := by
  intro h0
  obtain ⟨hc, E⟩ := step_eff hs
  have hw : ∃ path rs new, s.ws[w]? = some (.samp cur a c path rs new) := by
    cases E <;> exact ⟨_, _, _, by assumption⟩
  obtain ⟨path, rs, new, hw⟩ := hw
  unfold step at hs
  rw [hc, hw] at hs
  simp only [Option.isSome_none, Bool.false_eq_true, if_false] at hs
  cases ch with
  | obs o' =>
    simp only [blockC] at hs
    split at hs
    · rename_i nc nd h1 h2
      split at hs
      · simp only [createD] at hs
        cases hf : find? o' nc.kids with
        | some i =>
          simp only [hf, List.getElem?_set_self (List.getElem?_eq_some_iff.1 h1).1] at hs
          simp at hs
        | none => simp [hf, hu, h0, crash] at hs
      · simp at hs
    · simp [crash] at hs
  | _ => simp at hs

/-- A quiet state in which locks and workers agree has no lock held. -/
theorem quiet_lock {f : FSt S A R X Y} (I : LInv env m code f) (hq : Quiet f) : f.lock = fun _ => none := by
  funext l
  cases hl : f.lock l with
  | none => rfl
  | some v =>
    obtain ⟨pc, h1, h2⟩ := I.only l v hl
    obtain ⟨q, rfl⟩ := hq v pc h1
    simp [holds] at h2

theorem weak_step {f : FSt S A R X Y} {h : List (Event S A R)} {w cur : Nat} {a : A} {c : Nat} {path : List (Nat × Nat)} {rs : List R} {new : Bool}
    {nc : CNode S A R Y} {o : S} {j : Nat} (hc : f.crashed = none) (hw : f.ws[w]? = some (.tab (.samp cur a c path rs new) o j)) (hcn : f.cn[c]? = some nc)
    (hx : find? (nc.time, o) f.table = some none) :
    fexec env m hash alg code f h [(w, .go)] = some ({ f with crashed := some .badWeakPtr }, .crash w .badWeakPtr :: h) := by
  simp [fexec, fstep, hc, hw, hcn, hx, fcrash]

theorem ofSt_quiet {s : St S A R X Y} {L : Lk → Option Nat} : Quiet ({ ofSt s with lock := L } : FSt S A R X Y) := by
  intro w p hp
  simp only [ofSt, List.getElem?_map, Option.map_eq_some_iff] at hp
  obtain ⟨q, -, rfl⟩ := hp
  exact ⟨q, rfl⟩

theorem ofSt_init {k : Nat} {s0 : S} {dp tm : Int} {tb : List ((Int × S) × Option Nat)} :
    ofSt (init env m alg k s0 dp tm tb) = finit env m alg k s0 dp tm tb := by
  simp [ofSt, init, finit]

end

section
variable {S A R X Y : Type} [DecidableEq S] [DecidableEq A] [AddMonoid R]
variable {env : Env S A R} {m : Manager S R} {hash : Int × S → Nat} {alg : Alg S A R X Y} {code : Code S A R X Y}
  {k : Nat} {s0 : S} {dp tm : Int} {tb : List ((Int × S) × Option Nat)}

theorem complete (hF : Faithful alg code) (hv : alg.Valid) (htb : Leftover tb) : ∀ (ls : List (Nat × Choice S A)) {s : St S A R X Y}
    {h : List (Event S A R)}, execFrom env m alg (init env m alg k s0 dp tm tb) [] ls = some (s, h) → s.crashed = none →
    FReachable env m hash alg code k s0 dp tm tb (ofSt s) h := by
  intro ls
  obtain ⟨n, hn⟩ : ∃ n, ls.length = n := ⟨_, rfl⟩
  induction n generalizing ls with
  | zero =>
    obtain rfl := List.length_eq_zero_iff.1 hn
    intro s h hx _
    simp [execFrom] at hx
    obtain ⟨rfl, rfl⟩ := hx
    exact ⟨[], by rw [ofSt_init]; rfl⟩
  | succ n ih =>
    rcases getLast?_cases ls with rfl | ⟨l, ⟨w, ch⟩, rfl⟩
    · simp at hn
    intro s h hx hc'
    rw [exec_snoc] at hx
    simp only [Option.bind_eq_some_iff, Option.map_eq_some_iff, Prod.exists] at hx
    obtain ⟨s1, h1, hx1, s2, e, hst, heq⟩ := hx
    simp only [Prod.mk.injEq] at heq
    obtain ⟨rfl, rfl⟩ := heq
    obtain ⟨hc, E⟩ := step_eff hst
    have hr1 := ih l (by simpa using hn) hx1 hc
    obtain ⟨L, g⟩ := block (hash := hash) hF (reach_both hv htb ⟨l, hx1⟩).1 E hc hc' (by
      rintro cur a c o d r rfl hu
      exact step_mutex hst hu)
    have hr2 := freach_solo hr1 g
    have := quiet_lock (linv_reach hr2) ofSt_quiet
    simp only at this
    rw [this] at hr2
    exact hr2

theorem complete_crash (hF : Faithful alg code) (hv : alg.Valid) (htb : Leftover tb) {s : St S A R X Y}
    {h : List (Event S A R)} (hr : Reachable env m alg k s0 dp tm tb s h) {x : Err} (hx : s.crashed = some x) :
    ∃ f, FReachable env m hash alg code k s0 dp tm tb f h ∧ f.crashed = some x := by
  obtain ⟨ls, hex⟩ := hr
  rcases getLast?_cases ls with rfl | ⟨l, ⟨w, ch⟩, rfl⟩
  · simp [execFrom] at hex
    obtain ⟨rfl, rfl⟩ := hex
    simp [init] at hx
  rw [exec_snoc] at hex
  simp only [Option.bind_eq_some_iff, Option.map_eq_some_iff, Prod.exists] at hex
  obtain ⟨s1, h1, hx1, s2, e, hst, heq⟩ := hex
  simp only [Prod.mk.injEq] at heq
  obtain ⟨rfl, rfl⟩ := heq
  obtain ⟨hc, E⟩ := step_eff hst
  have hr1 := complete (hash := hash) hF hv htb l hx1 hc
  have J := (reach_both hv htb ⟨l, hx1⟩).1
  have hcr : ∃ x', e = .crash w x' ∧ Cause m s1 w x' ∧ s2.crashed = some x' := by
    cases E with
    | crash h => exact ⟨_, rfl, h, rfl⟩
    | _ => simp [hc] at hx
  obtain ⟨x', rfl, hcause, hx'⟩ := hcr
  rw [hx] at hx'
  obtain rfl := Option.some.inj hx'
  have hw : ∃ cur a c path rs new nc, s1.ws[w]? = some (.samp cur a c path rs new) ∧ s1.cn[c]? = some nc := by
    have := cause_cases J hcause
    cases hcause with
    | noMutex hw hc => exact ⟨_, _, _, _, _, _, _, hw, hc⟩
    | weak hw hc => exact ⟨_, _, _, _, _, _, _, hw, hc⟩
    | _ => simp at this
  obtain ⟨cur, a, c, path, rs, new, nc, hw, hcn⟩ := hw
  -- the worker locks the chance node and visits it
  have hlt : w < (ofSt s1).ws.length := by simp [ofSt]; exact (List.getElem?_eq_some_iff.1 hw).1
  obtain ⟨L, g1, hL⟩ := enterSolo (env := env) (m := m) (hash := hash) (alg := alg) (code := code) (h := h1) hc hw rfl
    (by simpa [Valid, ofSt] using (List.getElem?_eq_some_iff.1 hcn).1) (by simp)
  have E1 := FEff.visitC (env := env) (m := m) (hash := hash) (alg := alg) (code := code)
    (put_get (f := ofSt s1) (L := L) hlt (.own (.samp cur a c path rs new))) hcn
  have g2 := solo_to (h := h1) hlt hc hc (by simp) E1
  set f2 : FSt S A R X Y := { ofSt s1 with cn := s1.cn.set c { nc with visits := nc.visits + 1, y := alg.visitC nc.y } } with hf2
  have r1 : Solo env m hash alg code w (ofSt s1) h1 (f2.put L w (.vis (.samp cur a c path rs new))) h1 :=
    g1.trans (by simpa [FSt.put, hf2, ofSt] using g2)
  have hc2 : f2.cn[c]? = some { nc with visits := nc.visits + 1, y := alg.visitC nc.y } :=
    List.getElem?_set_self (List.getElem?_eq_some_iff.1 hcn).1
  have hr2 := freach_solo hr1 r1
  have hwv := put_get (f := f2) (L := L) hlt (.vis (.samp cur a c path rs new))
  -- what the search did
  unfold step at hst
  rw [hc, hw] at hst
  simp only [Option.isSome_none, Bool.false_eq_true, if_false] at hst
  obtain ⟨nd, hnd⟩ : ∃ nd, s1.dn[cur]? = some nd := by
    obtain ⟨_, _, _, _, _, _, _, ⟨nd, h2, _⟩, _⟩ := J.ws w _ hw
    exact ⟨nd, h2⟩
  cases ch with
  | obs o =>
    simp only [blockC, hcn, hnd] at hst
    split at hst
    · rename_i ho
      simp only [createD] at hst
      cases hf : find? o nc.kids with
      | some i =>
        simp only [hf, List.getElem?_set_self (List.getElem?_eq_some_iff.1 hcn).1] at hst
        simp at hst
      | none =>
        simp only [hf] at hst
        cases hu : m.useTable with
        | false =>
          simp only [hu, Bool.false_eq_true, if_false, List.set_set,
            List.getElem?_set_self (List.getElem?_eq_some_iff.1 hcn).1] at hst
          split at hst <;> simp [crash] at hst
          obtain ⟨-, rfl⟩ := hst
          exact absurd (cause_cases J hcause) (by simp)
        | true =>
          simp only [hu, if_true] at hst
          by_cases hm : m.numMutexes = 0
          · simp only [hm, if_true, crash] at hst
            simp at hst
            obtain ⟨-, rfl⟩ := hst
            refine ⟨_, freach_append hr2 (ls := [(w, .obs o)]) (f' := { f2.put L w (.vis (.samp cur a c path rs new)) with crashed := some .noMutex })
              (h' := .crash w .noMutex :: h1) ?_, rfl⟩
            have hcr2 : (f2.put L w (.vis (.samp cur a c path rs new))).crashed = none := hc
            have hc3 : (f2.put L w (.vis (.samp cur a c path rs new))).cn[c]? = some { nc with visits := nc.visits + 1, y := alg.visitC nc.y } := hc2
            simp only [fexec, fstep, hcr2, hwv, hc3, ho, hf, hu, hm, if_true, fcrash, Option.isSome_none, Bool.false_eq_true, if_false]
            rfl
          · simp only [hm, if_false] at hst
            cases htab : find? (nc.time, o) s1.table with
            | none =>
              simp only [htab, List.set_set, List.getElem?_set_self (List.getElem?_eq_some_iff.1 hcn).1] at hst
              split at hst <;> simp [crash] at hst
              obtain ⟨-, rfl⟩ := hst
              exact absurd (cause_cases J hcause) (by simp)
            | some v =>
              cases v with
              | some i =>
                simp only [htab, List.set_set, List.getElem?_set_self (List.getElem?_eq_some_iff.1 hcn).1] at hst
                split at hst <;> simp [crash] at hst
                obtain ⟨-, rfl⟩ := hst
                exact absurd (cause_cases J hcause) (by simp)
              | none =>
                simp only [htab, crash] at hst
                simp at hst
                obtain ⟨-, rfl⟩ := hst
                have E3 := FEff.wantTable (env := env) (m := m) (hash := hash) (alg := alg) (code := code)
                  hwv hc2 ho hf hu hm (hL _ (by simp))
                have g4 := solo_to (f := f2) (h := h1) hlt hc hc (by simp) E3
                have hr3 := freach_solo hr2 g4
                exact ⟨_, freach_append hr3 (weak_step (nc := { nc with visits := nc.visits + 1, y := alg.visitC nc.y }) hc
                  (by simp only [FSt.setW, FSt.setLock, FSt.put, List.set_set]; exact List.getElem?_set_self hlt) hc2 htab), rfl⟩
    · simp at hst
  | _ => simp at hst

end

end Verif.LockLevel
