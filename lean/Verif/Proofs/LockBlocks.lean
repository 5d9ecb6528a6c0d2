import Verif.Proofs.LockComplete
import Mathlib.Tactic.Set

/-! # Every block of the search can be executed at the level of locks -/

namespace Verif.LockLevel

open Verif.Search

set_option linter.unusedSimpArgs false
set_option linter.unusedSectionVars false

section
variable {S A R X Y : Type} [DecidableEq S] [DecidableEq A] [Add R] [Zero R]
variable {env : Env S A R} {m : Manager S R} {hash : Int × S → Nat} {alg : Alg S A R X Y} {code : Code S A R X Y}
  {f f1 f' f2 : FSt S A R X Y} {w : Nat} {h h1 h' h2 : List (Event S A R)} {L : Lk → Option Nat}

theorem put_self {pc : Pc S A R X Y} (hw : f.ws[w]? = some pc) : f.put f.lock w pc = f := by
  obtain ⟨h1, h2⟩ := List.getElem?_eq_some_iff.1 hw
  subst h2
  simp [FSt.put]

theorem modify_set {α : Type} {l : List α} {i : Nat} {a : α} (h : l[i]? = some a) (u : α → α) : l.modify i u = l.set i (u a) := by
  apply List.ext_getElem?
  intro j
  rw [List.getElem?_modify, List.getElem?_set]
  split
  · rename_i e; subst e; rw [h, if_pos (List.getElem?_eq_some_iff.1 h).1]; rfl
  · simp

/-- All rounds of reading of a decision node's backup. -/
theorem roundsD {d : Nat} {nodes : List (Nat × Nat)} {before after : List R} {ret tot : R} {nd : DNode S A R X}
    (hw : w < f.ws.length) (hc : f.crashed = none) (hd : f.dn[d]? = some nd) (ks : List (A × Nat))
    (hks : ks = nd.kids.filter fun k => code.readsD (ownView env m nd []) (f.ctxOf w) k.1)
    (hlt : ∀ k ∈ ks, k.2 < f.cn.length) (hn : (ks.map fun k => k.2).Nodup) :
    ∀ (n : Nat) (snaps : List (List (A × Nat × Y))) (L : Lk → Option Nat), snaps.length + (n + 1) = code.nD → (∀ k, L (.c k) = none) →
    (∀ l ∈ snaps, l = ks.filterMap fun k => (f.cn[k.2]?).map fun c => (k.1, c.visits, c.y)) →
    ∃ L' snaps', Solo env m hash alg code w (f.put L w (.lockD (.backD d nodes before after ret tot) snaps [] (ks.map fun k => k.2))) h
      (f.put L' w (.readD (.backD d nodes before after ret tot) snaps' (ks.map fun k => k.2)
        (ks.filterMap fun k => (f.cn[k.2]?).map fun c => (k.1, c.visits, c.y)) [])) h ∧ snaps'.length + 1 = code.nD ∧
      ∀ l ∈ snaps', l = ks.filterMap fun k => (f.cn[k.2]?).map fun c => (k.1, c.visits, c.y) := by
  intro n
  induction n with
  | zero =>
    intro snaps L hl hL hsn
    obtain ⟨L1, g1, -⟩ := lockAllD (env := env) (m := m) (hash := hash) (alg := alg) (code := code) (h := h) hw hc
      (.backD d nodes before after ret tot) snaps (ks.map fun k => k.2) [] L (by
        intro k hk
        obtain ⟨k', h1, rfl⟩ := List.mem_map.1 hk
        exact ⟨hlt k' h1, hL _⟩) hn
    refine ⟨L1, snaps, Solo.trans g1 ?_, by omega, hsn⟩
    refine Solo.trans (h1 := h) (f1 := f.put L1 w (.readD (.backD d nodes before after ret tot) snaps (ks.map fun k => k.2) [] ks)) ?_ ?_
    · refine solo_put (e := none) hw hc (by simp) ?_
      have := FEff.readyD (env := env) (m := m) (hash := hash) (alg := alg) (code := code)
        (put_get (L := L1) hw (.lockD (.backD d nodes before after ret tot) snaps ([] ++ ks.map fun k => k.2) [])) hd
      have e : (f.put L1 w (.lockD (.backD d nodes before after ret tot) snaps ([] ++ ks.map fun k => k.2) [])).ctxOf w = f.ctxOf w := rfl
      rw [e, ← hks] at this
      simpa [FSt.put] using this
    · have := readAllD (env := env) (m := m) (hash := hash) (alg := alg) (code := code) (h := h) (L := L1) hw hc
        (.backD d nodes before after ret tot) snaps (ks.map fun k => k.2) ks [] hlt
      simpa using this
  | succ n ih =>
    intro snaps L hl hL hsn
    obtain ⟨L1, g1, g1'⟩ := lockAllD (env := env) (m := m) (hash := hash) (alg := alg) (code := code) (h := h) hw hc
      (.backD d nodes before after ret tot) snaps (ks.map fun k => k.2) [] L (by
        intro k hk
        obtain ⟨k', h1, rfl⟩ := List.mem_map.1 hk
        exact ⟨hlt k' h1, hL _⟩) hn
    obtain ⟨L2, g2, g3, g4⟩ := relAllD (env := env) (m := m) (hash := hash) (alg := alg) (code := code) (h := h) hw hc
      (.backD d nodes before after ret tot) (snaps ++ [ks.filterMap fun k => (f.cn[k.2]?).map fun c => (k.1, c.visits, c.y)])
      (ks.map fun k => k.2) L1
    obtain ⟨L3, sn', g5, g6, g7⟩ := ih (snaps ++ [ks.filterMap fun k => (f.cn[k.2]?).map fun c => (k.1, c.visits, c.y)]) L2
      (by simp; omega) (by
        intro k
        by_cases hk : k ∈ ks.map fun k => k.2
        · exact g3 k hk
        · have hne : ∀ k' ∈ ks.map fun k => k.2, Lk.c k ≠ .c k' := by
            intro k' hk' e; simp only [Lk.c.injEq] at e; subst e; exact hk hk'
          rw [g4 _ hne, g1' _ hne]; exact hL k) (by
        intro l hl
        rcases List.mem_append.1 hl with h1 | h1
        · exact hsn l h1
        · simpa using h1)
    refine ⟨L3, sn', ?_, g6, g7⟩
    refine Solo.trans g1 ?_
    refine Solo.trans (h1 := h) (f1 := f.put L1 w (.readD (.backD d nodes before after ret tot) snaps (ks.map fun k => k.2) [] ks)) ?_ ?_
    · refine solo_put (e := none) hw hc (by simp) ?_
      have := FEff.readyD (env := env) (m := m) (hash := hash) (alg := alg) (code := code)
        (put_get (L := L1) hw (.lockD (.backD d nodes before after ret tot) snaps ([] ++ ks.map fun k => k.2) [])) hd
      have e : (f.put L1 w (.lockD (.backD d nodes before after ret tot) snaps ([] ++ ks.map fun k => k.2) [])).ctxOf w = f.ctxOf w := rfl
      rw [e, ← hks] at this
      simpa [FSt.put] using this
    refine Solo.trans (by
      have := readAllD (env := env) (m := m) (hash := hash) (alg := alg) (code := code) (h := h) (L := L1) hw hc
        (.backD d nodes before after ret tot) snaps (ks.map fun k => k.2) ks [] hlt
      simpa using this) ?_
    refine Solo.trans (h1 := h) (f1 := f.put L1 w (.relD (.backD d nodes before after ret tot)
      (snaps ++ [ks.filterMap fun k => (f.cn[k.2]?).map fun c => (k.1, c.visits, c.y)]) (ks.map fun k => k.2))) ?_ ?_
    · refine solo_put (e := none) hw hc (by simp) ?_
      have := FEff.snapD (env := env) (m := m) (hash := hash) (alg := alg) (code := code)
        (put_get (L := L1) hw (.readD (.backD d nodes before after ret tot) snaps (ks.map fun k => k.2)
          (ks.filterMap fun k => (f.cn[k.2]?).map fun c => (k.1, c.visits, c.y)) [])) hd (by omega)
      simpa [FSt.put] using this
    refine Solo.trans g2 ?_
    refine Solo.trans (h1 := h) ?_ g5
    refine solo_put (e := none) hw hc (by simp) ?_
    have := FEff.startD (env := env) (m := m) (hash := hash) (alg := alg) (code := code) (ks := ks.map fun k => k.2)
      (put_get (L := L2) hw (.relD (.backD d nodes before after ret tot)
        (snaps ++ [ks.filterMap fun k => (f.cn[k.2]?).map fun c => (k.1, c.visits, c.y)]) [])) hd (.inr rfl) (by
        have e : (f.put L2 w (.relD (.backD d nodes before after ret tot)
          (snaps ++ [ks.filterMap fun k => (f.cn[k.2]?).map fun c => (k.1, c.visits, c.y)]) [])).ctxOf w = f.ctxOf w := rfl
        rw [e, ← hks])
    simpa [FSt.put] using this

/-- All rounds of reading of a chance node's backup. -/
theorem roundsC {nodes : List (Nat × Nat)} {d c : Nat} {before after : List R} {r ret tot : R} {nc : CNode S A R Y}
    (hw : w < f.ws.length) (hc : f.crashed = none) (hd : f.cn[c]? = some nc)
    (hlt : ∀ k ∈ nc.kids, k.2 < f.dn.length) (hn : (nc.kids.map fun k => k.2).Nodup) :
    ∀ (n : Nat) (snaps : List (List (S × X))) (L : Lk → Option Nat), snaps.length + (n + 1) = code.nC → (∀ k, L (.d k) = none) →
    (∀ l ∈ snaps, l = nc.kids.filterMap fun k => (f.dn[k.2]?).map fun d => (k.1, d.x)) →
    ∃ L' snaps', Solo env m hash alg code w (f.put L w (.lockC (.back (nodes ++ [(d, c)]) (before ++ [r]) after ret tot) snaps [] (nc.kids.map fun k => k.2))) h
      (f.put L' w (.readC (.back (nodes ++ [(d, c)]) (before ++ [r]) after ret tot) snaps' (nc.kids.map fun k => k.2)
        (nc.kids.filterMap fun k => (f.dn[k.2]?).map fun d => (k.1, d.x)) [])) h ∧ snaps'.length + 1 = code.nC ∧
      ∀ l ∈ snaps', l = nc.kids.filterMap fun k => (f.dn[k.2]?).map fun d => (k.1, d.x) := by
  intro n
  induction n with
  | zero =>
    intro snaps L hl hL hsn
    obtain ⟨L1, g1, -⟩ := lockAllC (env := env) (m := m) (hash := hash) (alg := alg) (code := code) (h := h) hw hc
      (.back (nodes ++ [(d, c)]) (before ++ [r]) after ret tot) snaps (nc.kids.map fun k => k.2) [] L (by
        intro k hk
        obtain ⟨k', h1, rfl⟩ := List.mem_map.1 hk
        exact ⟨hlt k' h1, hL _⟩) hn
    refine ⟨L1, snaps, Solo.trans g1 ?_, by omega, hsn⟩
    refine Solo.trans (h1 := h) (f1 := f.put L1 w (.readC (.back (nodes ++ [(d, c)]) (before ++ [r]) after ret tot) snaps (nc.kids.map fun k => k.2) [] nc.kids)) ?_ ?_
    · refine solo_put (e := none) hw hc (by simp) ?_
      have := FEff.readyC (env := env) (m := m) (hash := hash) (alg := alg) (code := code)
        (put_get (L := L1) hw (.lockC (.back (nodes ++ [(d, c)]) (before ++ [r]) after ret tot) snaps ([] ++ nc.kids.map fun k => k.2) [])) hd
      simpa [FSt.put] using this
    · have := readAllC (env := env) (m := m) (hash := hash) (alg := alg) (code := code) (h := h) (L := L1) hw hc
        (.back (nodes ++ [(d, c)]) (before ++ [r]) after ret tot) snaps (nc.kids.map fun k => k.2) nc.kids [] hlt
      simpa using this
  | succ n ih =>
    intro snaps L hl hL hsn
    obtain ⟨L1, g1, g1'⟩ := lockAllC (env := env) (m := m) (hash := hash) (alg := alg) (code := code) (h := h) hw hc
      (.back (nodes ++ [(d, c)]) (before ++ [r]) after ret tot) snaps (nc.kids.map fun k => k.2) [] L (by
        intro k hk
        obtain ⟨k', h1, rfl⟩ := List.mem_map.1 hk
        exact ⟨hlt k' h1, hL _⟩) hn
    obtain ⟨L2, g2, g3, g4⟩ := relAllC (env := env) (m := m) (hash := hash) (alg := alg) (code := code) (h := h) hw hc
      (.back (nodes ++ [(d, c)]) (before ++ [r]) after ret tot) (snaps ++ [nc.kids.filterMap fun k => (f.dn[k.2]?).map fun d => (k.1, d.x)])
      (nc.kids.map fun k => k.2) L1
    obtain ⟨L3, sn', g5, g6, g7⟩ := ih (snaps ++ [nc.kids.filterMap fun k => (f.dn[k.2]?).map fun d => (k.1, d.x)]) L2
      (by simp; omega) (by
        intro k
        by_cases hk : k ∈ nc.kids.map fun k => k.2
        · exact g3 k hk
        · have hne : ∀ k' ∈ nc.kids.map fun k => k.2, Lk.d k ≠ .d k' := by
            intro k' hk' e; simp only [Lk.d.injEq] at e; subst e; exact hk hk'
          rw [g4 _ hne, g1' _ hne]; exact hL k) (by
        intro l hl
        rcases List.mem_append.1 hl with h1 | h1
        · exact hsn l h1
        · simpa using h1)
    refine ⟨L3, sn', ?_, g6, g7⟩
    refine Solo.trans g1 ?_
    refine Solo.trans (h1 := h) (f1 := f.put L1 w (.readC (.back (nodes ++ [(d, c)]) (before ++ [r]) after ret tot) snaps (nc.kids.map fun k => k.2) [] nc.kids)) ?_ ?_
    · refine solo_put (e := none) hw hc (by simp) ?_
      have := FEff.readyC (env := env) (m := m) (hash := hash) (alg := alg) (code := code)
        (put_get (L := L1) hw (.lockC (.back (nodes ++ [(d, c)]) (before ++ [r]) after ret tot) snaps ([] ++ nc.kids.map fun k => k.2) [])) hd
      simpa [FSt.put] using this
    refine Solo.trans (by
      have := readAllC (env := env) (m := m) (hash := hash) (alg := alg) (code := code) (h := h) (L := L1) hw hc
        (.back (nodes ++ [(d, c)]) (before ++ [r]) after ret tot) snaps (nc.kids.map fun k => k.2) nc.kids [] hlt
      simpa using this) ?_
    refine Solo.trans (h1 := h) (f1 := f.put L1 w (.relC (.back (nodes ++ [(d, c)]) (before ++ [r]) after ret tot)
      (snaps ++ [nc.kids.filterMap fun k => (f.dn[k.2]?).map fun d => (k.1, d.x)]) (nc.kids.map fun k => k.2))) ?_ ?_
    · refine solo_put (e := none) hw hc (by simp) ?_
      have := FEff.snapC (env := env) (m := m) (hash := hash) (alg := alg) (code := code)
        (put_get (L := L1) hw (.readC (.back (nodes ++ [(d, c)]) (before ++ [r]) after ret tot) snaps (nc.kids.map fun k => k.2)
          (nc.kids.filterMap fun k => (f.dn[k.2]?).map fun d => (k.1, d.x)) [])) hd (by omega)
      simpa [FSt.put] using this
    refine Solo.trans g2 ?_
    refine Solo.trans (h1 := h) ?_ g5
    refine solo_put (e := none) hw hc (by simp) ?_
    have := FEff.startC (env := env) (m := m) (hash := hash) (alg := alg) (code := code) (ks := nc.kids.map fun k => k.2)
      (put_get (L := L2) hw (.relC (.back (nodes ++ [(d, c)]) (before ++ [r]) after ret tot)
        (snaps ++ [nc.kids.filterMap fun k => (f.dn[k.2]?).map fun d => (k.1, d.x)]) [])) hd (.inr rfl) (List.Perm.refl _)
    simpa [FSt.put] using this

/-- Children of one node are different nodes. -/
theorem nodup_snd {K : Type} {l : List (K × Nat)} (h : (l.map Prod.fst).Nodup) (hi : ∀ a b c, (a, c) ∈ l → (b, c) ∈ l → a = b) :
    (l.map fun k => k.2).Nodup := by
  induction l with
  | nil => simp
  | cons k l ih =>
    obtain ⟨a, c⟩ := k
    simp only [List.map_cons, List.nodup_cons] at h ⊢
    refine ⟨?_, ih h.2 fun a b c h1 h2 => hi a b c (by simp [h1]) (by simp [h2])⟩
    intro hm
    obtain ⟨⟨b, c'⟩, h1, h2⟩ := List.mem_map.1 hm
    simp only at h2; subst h2
    have := hi a b c' (by simp) (by simp [h1])
    subst this
    exact h.1 (List.mem_map.2 ⟨_, h1, rfl⟩)

end

section
variable {S A R X Y : Type} [DecidableEq S] [DecidableEq A] [AddMonoid R]
variable {env : Env S A R} {m : Manager S R} {hash : Int × S → Nat} {alg : Alg S A R X Y} {code : Code S A R X Y}
  {s s' : St S A R X Y} {w : Nat} {h : List (Event S A R)} {s0 : S} {dp tm : Int}

theorem nodupD (J : Inv env m s0 dp tm s h) {i : Nat} {nd : DNode S A R X} (hd : s.dn[i]? = some nd) : (nd.kids.map fun k => k.2).Nodup := by
  have hs : (s.dn.map DNode.skel)[i]? = some nd.skel := by simp [hd]
  refine nodup_snd (J.tree.heap.dNodup i _ hs) ?_
  intro a b c h1 h2
  obtain ⟨n, g1, -, g2, -⟩ := J.tree.heap.dKid i _ a c hs h1
  obtain ⟨n', g1', -, g2', -⟩ := J.tree.heap.dKid i _ b c hs h2
  rw [g1] at g1'; cases g1'
  rw [← g2, g2']

theorem nodupC (J : Inv env m s0 dp tm s h) {i : Nat} {nc : CNode S A R Y} (hd : s.cn[i]? = some nc) : (nc.kids.map fun k => k.2).Nodup := by
  have hs : (s.cn.map CNode.skel)[i]? = some nc.skel := by simp [hd]
  refine nodup_snd (J.tree.heap.cNodup i _ hs) ?_
  intro a b c h1 h2
  obtain ⟨n, g1, g2, -⟩ := J.tree.heap.cKid i _ a c hs h1
  obtain ⟨n', g1', g2', -⟩ := J.tree.heap.cKid i _ b c hs h2
  rw [g1] at g1'; cases g1'
  rw [← g2, g2']

/-- The first step of a block. -/
theorem enterSolo {p : Phase S A R} {l : Lk} (hc : s.crashed = none) (hw : s.ws[w]? = some p) (hl : lkOf p = some l) (hv : Valid (ofSt s) l)
    (hb : ∀ nodes before after ret tot, p = .back nodes before after ret tot → before = [] → nodes = []) :
    ∃ L, Solo env m hash alg code w (ofSt s) h ((ofSt s).put L w (.own p)) h ∧ ∀ l', l' ≠ l → L l' = none := by
  refine ⟨fun l' => if l' = l then some w else none, ?_, fun l' h => by simp [h]⟩
  have hw' : (ofSt s).ws[w]? = some (.out p) := by simp [ofSt, hw]
  have E := FEff.enter (env := env) (m := m) (hash := hash) (alg := alg) (code := code) hw' hl hv rfl
  have := Solo.eff (h := h) hc hc (by
    intro nodes before after ret tot hh
    rw [hw'] at hh
    simp only [Option.some.injEq, Pc.out.injEq] at hh
    exact hb _ _ _ _ _ hh) E
  simpa [FSt.put, FSt.setW, FSt.setLock, ofSt] using this

/-- A step of `w` that changes nodes. -/
theorem solo_to {f f' : FSt S A R X Y} {pc : Pc S A R X Y} {L : Lk → Option Nat} {e : Option (Event S A R)} (hw : w < f.ws.length)
    (hc : f.crashed = none) (hc' : f'.crashed = none) (hp : ∀ p, pc ≠ .out p) (E : FEff env m hash alg code (f.put L w pc) w e f') :
    Solo env m hash alg code w (f.put L w pc) h f' (e.toList ++ h) := by
  refine Solo.eff hc hc' ?_ E
  intro nodes before after ret tot hh
  rw [put_get hw] at hh
  exact absurd (Option.some.inj hh) (hp _)

/-- A selection that has read all children. -/
theorem selSolo {f : FSt S A R X Y} {cur : Nat} {path : List (Nat × Nat)} {rs : List R} {new : Bool} {nd : DNode S A R X} {L : Lk → Option Nat}
    (hw : w < f.ws.length) (hc : f.crashed = none) (hd : f.dn[cur]? = some nd) (hlt : ∀ k ∈ nd.kids, k.2 < f.cn.length)
    (hn : (nd.kids.map fun k => k.2).Nodup) (hL : ∀ k, L (.c k) = none) :
    ∃ L', Solo env m hash alg code w (f.put L w (.vis (.sel cur path rs new))) h
      (f.put L' w (.readD (.sel cur path rs new) [] (nd.kids.map fun k => k.2)
        (nd.kids.filterMap fun k => (f.cn[k.2]?).map fun c => (k.1, c.visits, c.y)) [])) h := by
  obtain ⟨L1, g1, -⟩ := lockAllD (env := env) (m := m) (hash := hash) (alg := alg) (code := code) (h := h) hw hc
    (.sel cur path rs new) [] (nd.kids.map fun k => k.2) [] L (by
      intro k hk
      obtain ⟨k', h1, rfl⟩ := List.mem_map.1 hk
      exact ⟨hlt k' h1, hL _⟩) hn
  refine ⟨L1, ?_⟩
  refine Solo.trans (h1 := h) (f1 := f.put L w (.lockD (.sel cur path rs new) [] [] (nd.kids.map fun k => k.2))) ?_ ?_
  · refine solo_put (e := none) hw hc (by simp) ?_
    have := FEff.startSel (env := env) (m := m) (hash := hash) (alg := alg) (code := code) (put_get (L := L) hw (.vis (.sel cur path rs new))) hd
      (List.Perm.refl _)
    simpa [FSt.put] using this
  refine Solo.trans g1 ?_
  refine Solo.trans (h1 := h) (f1 := f.put L1 w (.readD (.sel cur path rs new) [] (nd.kids.map fun k => k.2) [] nd.kids)) ?_ ?_
  · refine solo_put (e := none) hw hc (by simp) ?_
    have := FEff.readySel (env := env) (m := m) (hash := hash) (alg := alg) (code := code)
      (put_get (L := L1) hw (.lockD (.sel cur path rs new) [] ([] ++ nd.kids.map fun k => k.2) [])) hd
    simpa [FSt.put] using this
  · have := readAllD (env := env) (m := m) (hash := hash) (alg := alg) (code := code) (h := h) (L := L1) hw hc
      (.sel cur path rs new) [] (nd.kids.map fun k => k.2) nd.kids [] hlt
    simpa using this

/-- Every block of the search can be executed at the level of locks. -/
theorem block (hF : Faithful alg code) (J : Inv env m s0 dp tm s h) {e : Event S A R} (E : Eff env m alg s w e s') (hc : s.crashed = none)
    (hc' : s'.crashed = none)
    (hx : ∀ cur a c o d r, e = .stepped w cur a c o d r true → m.useTable = true → m.numMutexes ≠ 0) :
    ∃ L, Solo env m hash alg code w (ofSt s) h { ofSt s' with lock := L } (e :: h) := by
  cases E with
  | crash => simp at hc'
  | began hw =>
    have hw' : (ofSt s).ws[w]? = some (.out .idle) := by simp [ofSt, hw]
    refine ⟨fun _ => none, ?_⟩
    have := Solo.eff (h := h) (f := ofSt s) hc hc (by simp [hw']) (FEff.began (env := env) (m := m) (hash := hash) (alg := alg) (code := code) hw')
    simpa [ofSt, List.map_set] using this
  | @completed before after ret tot hw =>
    have hw' : (ofSt s).ws[w]? = some (.out (.back [] before after ret tot)) := by simp [ofSt, hw]
    refine ⟨fun _ => none, ?_⟩
    have := Solo.eff (h := h) (f := ofSt s) hc hc (by simp +contextual [hw']) (FEff.completed (env := env) (m := m) (hash := hash) (alg := alg) (code := code) hw')
    simpa [ofSt, List.map_set] using this
  | @ended cur path rs new nd hw hd hs =>
    have hlt : w < (ofSt s).ws.length := by simp [ofSt]; exact (List.getElem?_eq_some_iff.1 hw).1
    obtain ⟨L, g1, -⟩ := enterSolo (env := env) (m := m) (hash := hash) (alg := alg) (code := code) (h := h) hc hw rfl
      (by simpa [Valid, ofSt] using (List.getElem?_eq_some_iff.1 hd).1) (by simp)
    have E1 := FEff.ended (env := env) (m := m) (hash := hash) (alg := alg) (code := code)
      (put_get (f := ofSt s) (L := L) hlt (.own (.sel cur path rs new))) hd hs
    have g2 := solo_to (h := h) hlt hc hc (by simp) E1
    obtain ⟨L', g3⟩ := postAll (env := env) (m := m) (hash := hash) (alg := alg) (code := code) (w := w) (h := .ended w cur nd.heur :: h)
      (.back path rs [nd.heur] nd.heur (total (rs ++ [nd.heur]))) [.rel (.d cur)]
      { ofSt s with dn := s.dn.set cur { nd with visits := nd.visits + 1, x := alg.visitD (isLeaf env m nd) nd.x } } L hlt hc
    refine ⟨L', (g1.trans g2).trans ?_⟩
    simpa [ofSt, FSt.put, doAct, FSt.setLock, List.map_set] using g3
  | @selOld cur path rs new nd a c hw hd hl hm ha hf =>
    have hlt : w < (ofSt s).ws.length := by simp [ofSt]; exact (List.getElem?_eq_some_iff.1 hw).1
    obtain ⟨L, g1, hL⟩ := enterSolo (env := env) (m := m) (hash := hash) (alg := alg) (code := code) (h := h) hc hw rfl
      (by simpa [Valid, ofSt] using (List.getElem?_eq_some_iff.1 hd).1) (by simp)
    have E1 := FEff.visit (env := env) (m := m) (hash := hash) (alg := alg) (code := code)
      (put_get (f := ofSt s) (L := L) hlt (.own (.sel cur path rs new))) hd hl hm
    have g2 := solo_to (h := h) hlt hc hc (by simp) E1
    set f2 : FSt S A R X Y := { ofSt s with dn := s.dn.set cur { nd with visits := nd.visits + 1, x := alg.visitD false nd.x } } with hf2
    have hd2 : f2.dn[cur]? = some { nd with visits := nd.visits + 1, x := alg.visitD false nd.x } :=
      List.getElem?_set_self (List.getElem?_eq_some_iff.1 hd).1
    have hnd := nodupD J hd
    obtain ⟨L2, g3⟩ := selSolo (env := env) (m := m) (hash := hash) (alg := alg) (code := code) (h := h) (f := f2) (L := L) (path := path) (rs := rs)
      (new := new) hlt hc hd2 (fun k hk => inv_kidD J cur nd k hd hk) hnd (fun k => hL _ (by simp))
    have E3 := FEff.selOld (env := env) (m := m) (hash := hash) (alg := alg) (code := code) (a := a) (c := c)
      (put_get (f := f2) (L := L2) hlt (.readD (.sel cur path rs new) [] (nd.kids.map fun k : A × Nat => k.2) (kidsY s nd) [])) hd2 (.inr ⟨[], rfl, ha⟩) hf
    have g4 := solo_to (f := f2) (h := h) hlt hc hc (by simp) E3
    obtain ⟨L', g5⟩ := postRel (env := env) (m := m) (hash := hash) (alg := alg) (code := code) (w := w) (h := .selected w cur a c :: h)
      (f := { f2 with ctxs := s.ctxs.set w (alg.selCtx (viewOf env m s { nd with visits := nd.visits + 1, x := alg.visitD false nd.x }) (s.ctxOf w) a) })
      hlt hc L2 (.samp cur a c path rs new) (nd.kids.map fun k => k.2) Lk.c [.rel (.d cur)]
    have r1 : Solo env m hash alg code w (ofSt s) h (f2.put L w (.vis (.sel cur path rs new))) h :=
      g1.trans (by simpa [FSt.put, hf2, ofSt] using g2)
    have r2 := (r1.trans g3).trans g4
    refine ⟨L', r2.trans ?_⟩
    simpa [ofSt, FSt.put, doAct, FSt.setLock, List.map_set, hf2, viewOf, ownView, FSt.ctxOf, St.ctxOf, kidsY] using g5
  | @selNew cur path rs new nd a hw hd hl hm ha hf =>
    have hlt : w < (ofSt s).ws.length := by simp [ofSt]; exact (List.getElem?_eq_some_iff.1 hw).1
    obtain ⟨L, g1, hL⟩ := enterSolo (env := env) (m := m) (hash := hash) (alg := alg) (code := code) (h := h) hc hw rfl
      (by simpa [Valid, ofSt] using (List.getElem?_eq_some_iff.1 hd).1) (by simp)
    have E1 := FEff.visit (env := env) (m := m) (hash := hash) (alg := alg) (code := code)
      (put_get (f := ofSt s) (L := L) hlt (.own (.sel cur path rs new))) hd hl hm
    have g2 := solo_to (h := h) hlt hc hc (by simp) E1
    set f2 : FSt S A R X Y := { ofSt s with dn := s.dn.set cur { nd with visits := nd.visits + 1, x := alg.visitD false nd.x } } with hf2
    have hd2 : f2.dn[cur]? = some { nd with visits := nd.visits + 1, x := alg.visitD false nd.x } :=
      List.getElem?_set_self (List.getElem?_eq_some_iff.1 hd).1
    have hnd := nodupD J hd
    obtain ⟨L2, g3⟩ := selSolo (env := env) (m := m) (hash := hash) (alg := alg) (code := code) (h := h) (f := f2) (L := L) (path := path) (rs := rs)
      (new := new) hlt hc hd2 (fun k hk => inv_kidD J cur nd k hd hk) hnd (fun k => hL _ (by simp))
    have E3 := FEff.selNew (env := env) (m := m) (hash := hash) (alg := alg) (code := code) (a := a)
      (put_get (f := f2) (L := L2) hlt (.readD (.sel cur path rs new) [] (nd.kids.map fun k : A × Nat => k.2) (kidsY s nd) [])) hd2 (.inr ⟨[], rfl, ha⟩) hf
    have g4 := solo_to (f := f2) (h := h) hlt hc hc (by simp) E3
    obtain ⟨L', g5⟩ := postRel (env := env) (m := m) (hash := hash) (alg := alg) (code := code) (w := w) (h := .selected w cur a s.cn.length :: h)
      (f := { f2 with cn := s.cn ++ [newC alg nd a], ctxs := s.ctxs.set w (alg.selCtx (viewOf env m s { nd with visits := nd.visits + 1, x := alg.visitD false nd.x }) (s.ctxOf w) a) })
      hlt hc L2 (.samp cur a s.cn.length path rs new) (nd.kids.map fun k => k.2) Lk.c [.kidD cur a s.cn.length, .rel (.d cur)]
    have r1 : Solo env m hash alg code w (ofSt s) h (f2.put L w (.vis (.sel cur path rs new))) h :=
      g1.trans (by simpa [FSt.put, hf2, ofSt] using g2)
    have r2 := (r1.trans g3).trans g4
    refine ⟨L', r2.trans ?_⟩
    have e := modify_set hd2 fun nd => { nd with kids := nd.kids ++ [(a, s.cn.length)] }
    simp only [hf2, List.set_set] at e
    simpa [ofSt, FSt.put, doAct, FSt.setLock, List.map_set, hf2, e, newC, viewOf, ownView, FSt.ctxOf, St.ctxOf, kidsY] using g5
  | @stepOld cur a c path rs new nc nd o d' hw hcn hd ho hf =>
    have hlt : w < (ofSt s).ws.length := by simp [ofSt]; exact (List.getElem?_eq_some_iff.1 hw).1
    obtain ⟨L, g1, hL⟩ := enterSolo (env := env) (m := m) (hash := hash) (alg := alg) (code := code) (h := h) hc hw rfl
      (by simpa [Valid, ofSt] using (List.getElem?_eq_some_iff.1 hcn).1) (by simp)
    have E1 := FEff.visitC (env := env) (m := m) (hash := hash) (alg := alg) (code := code)
      (put_get (f := ofSt s) (L := L) hlt (.own (.samp cur a c path rs new))) hcn
    have g2 := solo_to (h := h) hlt hc hc (by simp) E1
    set f2 : FSt S A R X Y := { ofSt s with cn := s.cn.set c { nc with visits := nc.visits + 1, y := alg.visitC nc.y } } with hf2
    have r1 : Solo env m hash alg code w (ofSt s) h (f2.put L w (.vis (.samp cur a c path rs new))) h :=
      g1.trans (by simpa [FSt.put, hf2, ofSt] using g2)
    have hc2 : f2.cn[c]? = some { nc with visits := nc.visits + 1, y := alg.visitC nc.y } :=
      List.getElem?_set_self (List.getElem?_eq_some_iff.1 hcn).1
    have E3 := FEff.stepOld (env := env) (m := m) (hash := hash) (alg := alg) (code := code)
      (put_get (f := f2) (L := L) hlt (.vis (.samp cur a c path rs new))) hc2 hd ho hf
    have g4 := solo_to (f := f2) (h := h) hlt hc hc (by simp) E3
    obtain ⟨L', g5⟩ := postAll (env := env) (m := m) (hash := hash) (alg := alg) (code := code) (w := w)
      (h := .stepped w cur a c o d' (env.reward nd.state a o) false :: h)
      (.sel d' (path ++ [(cur, c)]) (rs ++ [env.reward nd.state a o]) new) [.rel (.c c)] f2 L hlt hc
    have r2 : Solo env m hash alg code w (ofSt s) h (f2.put L w (.post (.sel d' (path ++ [(cur, c)]) (rs ++ [env.reward nd.state a o]) new)
        [.rel (.c c)])) (.stepped w cur a c o d' (env.reward nd.state a o) false :: h) := r1.trans (by simpa [FSt.put] using g4)
    refine ⟨L', r2.trans ?_⟩
    simpa [ofSt, FSt.put, doAct, FSt.setLock, List.map_set, hf2] using g5
  | @stepNew cur a c path rs new nc nd o tb hw hcn hd ho hf ht =>
    have hlt : w < (ofSt s).ws.length := by simp [ofSt]; exact (List.getElem?_eq_some_iff.1 hw).1
    obtain ⟨L, g1, hL⟩ := enterSolo (env := env) (m := m) (hash := hash) (alg := alg) (code := code) (h := h) hc hw rfl
      (by simpa [Valid, ofSt] using (List.getElem?_eq_some_iff.1 hcn).1) (by simp)
    have E1 := FEff.visitC (env := env) (m := m) (hash := hash) (alg := alg) (code := code)
      (put_get (f := ofSt s) (L := L) hlt (.own (.samp cur a c path rs new))) hcn
    have g2 := solo_to (h := h) hlt hc hc (by simp) E1
    set f2 : FSt S A R X Y := { ofSt s with cn := s.cn.set c { nc with visits := nc.visits + 1, y := alg.visitC nc.y } } with hf2
    have r1 : Solo env m hash alg code w (ofSt s) h (f2.put L w (.vis (.samp cur a c path rs new))) h :=
      g1.trans (by simpa [FSt.put, hf2, ofSt] using g2)
    have hc2 : f2.cn[c]? = some { nc with visits := nc.visits + 1, y := alg.visitC nc.y } :=
      List.getElem?_set_self (List.getElem?_eq_some_iff.1 hcn).1
    have e := modify_set hc2 fun nc => { nc with kids := nc.kids ++ [(o, s.dn.length)] }
    simp only [hf2, List.set_set] at e
    rcases ht with ⟨hu, rfl⟩ | ⟨hu, ht, rfl⟩
    · have E3 := FEff.stepNew (env := env) (m := m) (hash := hash) (alg := alg) (code := code)
        (put_get (f := f2) (L := L) hlt (.vis (.samp cur a c path rs new))) hc2 hd ho hf hu
      have g4 := solo_to (f := f2) (h := h) hlt hc hc (by simp) E3
      obtain ⟨L', g5⟩ := postAll (env := env) (m := m) (hash := hash) (alg := alg) (code := code) (w := w)
        (h := .stepped w cur a c o s.dn.length (env.reward nd.state a o) true :: h)
        (.sel s.dn.length (path ++ [(cur, c)]) (rs ++ [env.reward nd.state a o]) true) [.kidC c o s.dn.length, .rel (.c c)]
        { f2 with dn := s.dn ++ [newD env m alg o (nc.depth + 1) (nc.time + 1)] } L hlt hc
      have r2 : Solo env m hash alg code w (ofSt s) h (FSt.put { f2 with dn := s.dn ++ [newD env m alg o (nc.depth + 1) (nc.time + 1)] } L w
          (.post (.sel s.dn.length (path ++ [(cur, c)]) (rs ++ [env.reward nd.state a o]) true) [.kidC c o s.dn.length, .rel (.c c)]))
          (.stepped w cur a c o s.dn.length (env.reward nd.state a o) true :: h) := r1.trans (by simpa [FSt.put, show f2.dn = s.dn from rfl] using g4)
      refine ⟨L', r2.trans ?_⟩
      simpa [ofSt, FSt.put, doAct, FSt.setLock, List.map_set, hf2, e] using g5
    · have hmx := hx _ _ _ _ _ _ rfl hu
      have E3 := FEff.wantTable (env := env) (m := m) (hash := hash) (alg := alg) (code := code)
        (put_get (f := f2) (L := L) hlt (.vis (.samp cur a c path rs new))) hc2 ho hf hu hmx (hL _ (by simp))
      have g4 := solo_to (f := f2) (h := h) hlt hc hc (by simp) E3
      have E5 := FEff.tabMiss (env := env) (m := m) (hash := hash) (alg := alg) (code := code) (o := o)
        (put_get (f := f2) (L := fun l' => if l' = .t (mutexIndex m.numMutexes (hash (nc.time, o))) then some w else L l') hlt
          (.tab (.samp cur a c path rs new) o (mutexIndex m.numMutexes (hash (nc.time, o))))) hc2 hd ht
      have g6 := solo_to (f := f2) (h := h) hlt hc hc (by simp) E5
      obtain ⟨L', g7⟩ := postAll (env := env) (m := m) (hash := hash) (alg := alg) (code := code) (w := w)
        (h := .stepped w cur a c o s.dn.length (env.reward nd.state a o) true :: h)
        (.sel s.dn.length (path ++ [(cur, c)]) (rs ++ [env.reward nd.state a o]) true) [.kidC c o s.dn.length, .ins (nc.time, o) s.dn.length,
          .rel (.t (mutexIndex m.numMutexes (hash (nc.time, o)))), .rel (.c c)]
        { f2 with dn := s.dn ++ [newD env m alg o (nc.depth + 1) (nc.time + 1)] }
        (fun l' => if l' = .t (mutexIndex m.numMutexes (hash (nc.time, o))) then some w else L l') hlt hc
      have r2 : Solo env m hash alg code w (ofSt s) h (f2.put (fun l' => if l' = .t (mutexIndex m.numMutexes (hash (nc.time, o))) then some w else L l') w
          (.tab (.samp cur a c path rs new) o (mutexIndex m.numMutexes (hash (nc.time, o))))) h :=
        r1.trans (by simpa [FSt.put, FSt.setW, FSt.setLock] using g4)
      have r3 : Solo env m hash alg code w (ofSt s) h (FSt.put { f2 with dn := s.dn ++ [newD env m alg o (nc.depth + 1) (nc.time + 1)] }
          (fun l' => if l' = .t (mutexIndex m.numMutexes (hash (nc.time, o))) then some w else L l') w
          (.post (.sel s.dn.length (path ++ [(cur, c)]) (rs ++ [env.reward nd.state a o]) true) [.kidC c o s.dn.length,
            .ins (nc.time, o) s.dn.length, .rel (.t (mutexIndex m.numMutexes (hash (nc.time, o)))), .rel (.c c)]))
          (.stepped w cur a c o s.dn.length (env.reward nd.state a o) true :: h) := r2.trans (by simpa [FSt.put, show f2.dn = s.dn from rfl] using g6)
      refine ⟨L', r3.trans ?_⟩
      simpa [ofSt, FSt.put, doAct, FSt.setLock, List.map_set, hf2, e] using g7
  | @stepHit cur a c path rs new nc nd o d' hw hcn hd ho hf hu ht =>
    have hlt : w < (ofSt s).ws.length := by simp [ofSt]; exact (List.getElem?_eq_some_iff.1 hw).1
    obtain ⟨L, g1, hL⟩ := enterSolo (env := env) (m := m) (hash := hash) (alg := alg) (code := code) (h := h) hc hw rfl
      (by simpa [Valid, ofSt] using (List.getElem?_eq_some_iff.1 hcn).1) (by simp)
    have E1 := FEff.visitC (env := env) (m := m) (hash := hash) (alg := alg) (code := code)
      (put_get (f := ofSt s) (L := L) hlt (.own (.samp cur a c path rs new))) hcn
    have g2 := solo_to (h := h) hlt hc hc (by simp) E1
    set f2 : FSt S A R X Y := { ofSt s with cn := s.cn.set c { nc with visits := nc.visits + 1, y := alg.visitC nc.y } } with hf2
    have r1 : Solo env m hash alg code w (ofSt s) h (f2.put L w (.vis (.samp cur a c path rs new))) h :=
      g1.trans (by simpa [FSt.put, hf2, ofSt] using g2)
    have hc2 : f2.cn[c]? = some { nc with visits := nc.visits + 1, y := alg.visitC nc.y } :=
      List.getElem?_set_self (List.getElem?_eq_some_iff.1 hcn).1
    have e := modify_set hc2 fun nc => { nc with kids := nc.kids ++ [(o, d')] }
    simp only [hf2, List.set_set] at e
    have hmx := hx _ _ _ _ _ _ rfl hu
    have E3 := FEff.wantTable (env := env) (m := m) (hash := hash) (alg := alg) (code := code)
      (put_get (f := f2) (L := L) hlt (.vis (.samp cur a c path rs new))) hc2 ho hf hu hmx (hL _ (by simp))
    have g4 := solo_to (f := f2) (h := h) hlt hc hc (by simp) E3
    have E5 := FEff.tabHit (env := env) (m := m) (hash := hash) (alg := alg) (code := code) (o := o)
      (put_get (f := f2) (L := fun l' => if l' = .t (mutexIndex m.numMutexes (hash (nc.time, o))) then some w else L l') hlt
        (.tab (.samp cur a c path rs new) o (mutexIndex m.numMutexes (hash (nc.time, o))))) hc2 hd ht
    have g6 := solo_to (f := f2) (h := h) hlt hc hc (by simp) E5
    obtain ⟨L', g7⟩ := postAll (env := env) (m := m) (hash := hash) (alg := alg) (code := code) (w := w)
      (h := .stepped w cur a c o d' (env.reward nd.state a o) true :: h)
      (.sel d' (path ++ [(cur, c)]) (rs ++ [env.reward nd.state a o]) true) [.kidC c o d',
        .rel (.t (mutexIndex m.numMutexes (hash (nc.time, o)))), .rel (.c c)]
      f2 (fun l' => if l' = .t (mutexIndex m.numMutexes (hash (nc.time, o))) then some w else L l') hlt hc
    have r2 : Solo env m hash alg code w (ofSt s) h (f2.put (fun l' => if l' = .t (mutexIndex m.numMutexes (hash (nc.time, o))) then some w else L l') w
        (.tab (.samp cur a c path rs new) o (mutexIndex m.numMutexes (hash (nc.time, o))))) h :=
      r1.trans (by simpa [FSt.put, FSt.setW, FSt.setLock] using g4)
    have r3 : Solo env m hash alg code w (ofSt s) h (f2.put
        (fun l' => if l' = .t (mutexIndex m.numMutexes (hash (nc.time, o))) then some w else L l') w
        (.post (.sel d' (path ++ [(cur, c)]) (rs ++ [env.reward nd.state a o]) true) [.kidC c o d',
          .rel (.t (mutexIndex m.numMutexes (hash (nc.time, o)))), .rel (.c c)]))
        (.stepped w cur a c o d' (env.reward nd.state a o) true :: h) := r2.trans (by simpa [FSt.put] using g6)
    refine ⟨L', r3.trans ?_⟩
    simpa [ofSt, FSt.put, doAct, FSt.setLock, List.map_set, hf2, e] using g7
  | @backedC nodes d c before r after ret tot nc hw hcn =>
    have hlt : w < (ofSt s).ws.length := by simp [ofSt]; exact (List.getElem?_eq_some_iff.1 hw).1
    obtain ⟨L, g1, hL⟩ := enterSolo (env := env) (m := m) (hash := hash) (alg := alg) (code := code) (h := h) (l := .c c) hc hw
      (by simp [lkOf]) (by simpa [Valid, ofSt] using (List.getElem?_eq_some_iff.1 hcn).1) (by rintro _ _ _ _ _ ⟨⟩; simp)
    by_cases hn : code.nC = 0
    · have E3 := FEff.backedC (env := env) (m := m) (hash := hash) (alg := alg) (code := code)
        (put_get (f := ofSt s) (L := L) hlt (.own (.back (nodes ++ [(d, c)]) (before ++ [r]) after ret tot))) hcn (.inl ⟨rfl, rfl, rfl, hn⟩)
      have g4 := solo_to (h := h) hlt hc hc (by simp) E3
      have e := modify_set hcn fun nc' => { nc' with y := code.resC nc.state nc.action nc.y [] ⟨before, after ++ [r], ret + r, tot⟩ }
      obtain ⟨L', g5⟩ := postAll (env := env) (m := m) (hash := hash) (alg := alg) (code := code) (w := w)
        (h := .backedC w c ⟨before, after ++ [r], ret + r, tot⟩ :: h) (.backD d nodes before (after ++ [r]) (ret + r) tot)
        [.setY c (code.resC nc.state nc.action nc.y [] ⟨before, after ++ [r], ret + r, tot⟩), .rel (.c c)] (ofSt s) L hlt hc
      refine ⟨L', (g1.trans g4).trans ?_⟩
      rw [← hF.resC nc.state nc.action nc.y (kidsX s nc) [] ⟨before, after ++ [r], ret + r, tot⟩ hn.symm (by simp)]
      simpa [ofSt, FSt.put, doAct, FSt.setLock, List.map_set, e] using g5
    · obtain ⟨n, hn'⟩ := Nat.exists_eq_succ_of_ne_zero hn
      obtain ⟨L2, sn, g2, hsn, hall⟩ := roundsC (env := env) (m := m) (hash := hash) (alg := alg) (code := code) (h := h) (f := ofSt s) (w := w)
        (nodes := nodes) (d := d) (c := c) (before := before) (after := after) (r := r) (ret := ret) (tot := tot)
        hlt hc hcn (fun k hk => inv_kidC J c nc k hcn hk) (nodupC J hcn) n [] L (by simp; omega) (fun k => hL _ (by simp)) (by simp)
      have E2 := FEff.startC (env := env) (m := m) (hash := hash) (alg := alg) (code := code) (ks := nc.kids.map fun k => k.2)
        (put_get (f := ofSt s) (L := L) hlt (.own (.back (nodes ++ [(d, c)]) (before ++ [r]) after ret tot))) hcn (.inl ⟨rfl, rfl, hn⟩)
        (List.Perm.refl _)
      have g3 := solo_to (h := h) hlt hc hc (by simp) E2
      have E3 := FEff.backedC (env := env) (m := m) (hash := hash) (alg := alg) (code := code)
        (put_get (f := ofSt s) (L := L2) hlt (.readC (.back (nodes ++ [(d, c)]) (before ++ [r]) after ret tot) sn (nc.kids.map fun k => k.2)
          (nc.kids.filterMap fun k => ((ofSt s).dn[k.2]?).map fun d => (k.1, d.x)) [])) hcn (.inr ⟨sn, _, rfl, rfl, hsn⟩)
      have g4 := solo_to (h := h) hlt hc hc (by simp) E3
      have hres := hF.resC nc.state nc.action nc.y (kidsX s nc) (sn ++ [kidsX s nc]) ⟨before, after ++ [r], ret + r, tot⟩ (by simpa using hsn) (by
        intro l hl
        rcases List.mem_append.1 hl with h1 | h1
        · exact hall l h1
        · simpa using h1)
      have e := modify_set hcn fun nc' => { nc' with y := code.resC nc.state nc.action nc.y (sn ++ [kidsX s nc]) ⟨before, after ++ [r], ret + r, tot⟩ }
      obtain ⟨L', g5⟩ := postRel (env := env) (m := m) (hash := hash) (alg := alg) (code := code) (w := w)
        (h := .backedC w c ⟨before, after ++ [r], ret + r, tot⟩ :: h) (f := ofSt s) hlt hc L2 (.backD d nodes before (after ++ [r]) (ret + r) tot)
        (nc.kids.map fun k => k.2) Lk.d
        [.setY c (code.resC nc.state nc.action nc.y (sn ++ [kidsX s nc]) ⟨before, after ++ [r], ret + r, tot⟩), .rel (.c c)]
      have r1 := g1.trans g3
      have r2 := r1.trans (b := by simpa [FSt.put] using g2)
      have r3 := r2.trans (b := by simpa [FSt.put] using g4)
      refine ⟨L', r3.trans ?_⟩
      rw [← hres]
      simp only [kidsX] at e
      simpa [ofSt, FSt.put, doAct, FSt.setLock, List.map_set, e, kidsX] using g5
  | @backedD d nodes before after ret tot nd hw hd =>
    have hlt : w < (ofSt s).ws.length := by simp [ofSt]; exact (List.getElem?_eq_some_iff.1 hw).1
    obtain ⟨L, g1, hL⟩ := enterSolo (env := env) (m := m) (hash := hash) (alg := alg) (code := code) (h := h) (l := .d d) hc hw
      rfl (by simpa [Valid, ofSt] using (List.getElem?_eq_some_iff.1 hd).1) (by simp)
    by_cases hn : code.nD = 0
    · have E3 := FEff.backedD (env := env) (m := m) (hash := hash) (alg := alg) (code := code)
        (put_get (f := ofSt s) (L := L) hlt (.own (.backD d nodes before after ret tot))) hd (.inl ⟨rfl, rfl, rfl, hn⟩)
      have g4 := solo_to (h := h) hlt hc hc (by simp) E3
      have hres := hF.resD (ownView env m nd []) (kidsY s nd) [] (s.ctxOf w) ⟨before, after, ret, tot⟩ rfl hn.symm (by simp)
      have e := modify_set hd fun nd' => { nd' with x := code.resD (ownView env m nd []) [] (s.ctxOf w) ⟨before, after, ret, tot⟩ }
      obtain ⟨L', g5⟩ := postAll (env := env) (m := m) (hash := hash) (alg := alg) (code := code) (w := w)
        (h := .backedD w d ⟨before, after, ret, tot⟩ :: h) (.back nodes before after ret tot)
        [.setX d (code.resD (ownView env m nd []) [] (s.ctxOf w) ⟨before, after, ret, tot⟩), .rel (.d d)] (ofSt s) L hlt hc
      refine ⟨L', (g1.trans g4).trans ?_⟩
      have hv : viewOf env m s nd = ({ (ownView env m nd [] : View S A X Y) with kids := kidsY s nd } : View S A X Y) := rfl
      rw [hv, ← hres]
      simp only [St.ctxOf, ofSt] at e
      simpa [ofSt, FSt.put, doAct, FSt.setLock, List.map_set, e, FSt.ctxOf, St.ctxOf] using g5
    · obtain ⟨n, hn'⟩ := Nat.exists_eq_succ_of_ne_zero hn
      have hsub : (nd.kids.filter fun k => code.readsD (ownView env m nd []) (s.ctxOf w) k.1).Sublist nd.kids := List.filter_sublist
      obtain ⟨L2, sn, g2, hsn, hall⟩ := roundsD (env := env) (m := m) (hash := hash) (alg := alg) (code := code) (h := h) (f := ofSt s) (w := w)
        (d := d) (nodes := nodes) (before := before) (after := after) (ret := ret) (tot := tot)
        hlt hc hd _ rfl (fun k hk => inv_kidD J d nd k hd (hsub.subset hk)) ((nodupD J hd).sublist (hsub.map _)) n [] L (by simp; omega)
        (fun k => hL _ (by simp)) (by simp)
      have E2 := FEff.startD (env := env) (m := m) (hash := hash) (alg := alg) (code := code)
        (put_get (f := ofSt s) (L := L) hlt (.own (.backD d nodes before after ret tot))) hd (.inl ⟨rfl, rfl, hn⟩)
        (List.Perm.refl _)
      have g3 := solo_to (h := h) hlt hc hc (by simp) E2
      have E3 := FEff.backedD (env := env) (m := m) (hash := hash) (alg := alg) (code := code)
        (put_get (f := ofSt s) (L := L2) hlt (.readD (.backD d nodes before after ret tot) sn
          ((nd.kids.filter fun k => code.readsD (ownView env m nd []) (s.ctxOf w) k.1).map fun k => k.2)
          ((nd.kids.filter fun k => code.readsD (ownView env m nd []) (s.ctxOf w) k.1).filterMap
            (fun k => ((ofSt s).cn[k.2]?).map fun c => (k.1, c.visits, c.y))) [])) hd (.inr ⟨sn, _, rfl, rfl, hsn⟩)
      have g4 := solo_to (h := h) hlt hc hc (by simp) E3
      have hk : (nd.kids.filter fun k => code.readsD (ownView env m nd []) (s.ctxOf w) k.1).filterMap
          (fun k => ((ofSt s).cn[k.2]?).map fun c => (k.1, c.visits, c.y)) =
          (kidsY s nd).filter fun k => code.readsD (ownView env m nd []) (s.ctxOf w) k.1 := (kidsY_filter _ (fun k => code.readsD (ownView env m nd []) (s.ctxOf w) k) _).symm
      have hres := hF.resD (ownView env m nd []) (kidsY s nd) (sn ++ [(nd.kids.filter fun k => code.readsD (ownView env m nd []) (s.ctxOf w) k.1).filterMap
          (fun k => ((ofSt s).cn[k.2]?).map fun c => (k.1, c.visits, c.y))]) (s.ctxOf w) ⟨before, after, ret, tot⟩ rfl (by simpa using hsn) (by
        intro l hl
        rcases List.mem_append.1 hl with h1 | h1
        · rw [← hk]; exact hall l h1
        · rw [← hk]; simpa using h1)
      have e := modify_set hd fun nd' => { nd' with x := code.resD (ownView env m nd []) (sn ++ [(nd.kids.filter fun k => code.readsD (ownView env m nd []) (s.ctxOf w) k.1).filterMap
          (fun k => ((ofSt s).cn[k.2]?).map fun c => (k.1, c.visits, c.y))]) (s.ctxOf w) ⟨before, after, ret, tot⟩ }
      obtain ⟨L', g5⟩ := postRel (env := env) (m := m) (hash := hash) (alg := alg) (code := code) (w := w)
        (h := .backedD w d ⟨before, after, ret, tot⟩ :: h) (f := ofSt s) hlt hc L2 (.back nodes before after ret tot)
        ((nd.kids.filter fun k => code.readsD (ownView env m nd []) (s.ctxOf w) k.1).map fun k => k.2) Lk.c
        [.setX d (code.resD (ownView env m nd []) (sn ++ [(nd.kids.filter fun k => code.readsD (ownView env m nd []) (s.ctxOf w) k.1).filterMap
          (fun k => ((ofSt s).cn[k.2]?).map fun c => (k.1, c.visits, c.y))]) (s.ctxOf w) ⟨before, after, ret, tot⟩), .rel (.d d)]
      have r1 := g1.trans g3
      have r2 := r1.trans (b := by simpa [FSt.put, FSt.ctxOf, St.ctxOf, ofSt] using g2)
      have r3 := r2.trans (b := by simpa [FSt.put, FSt.ctxOf, St.ctxOf, ofSt] using g4)
      refine ⟨L', r3.trans ?_⟩
      have hv : viewOf env m s nd = ({ (ownView env m nd [] : View S A X Y) with kids := kidsY s nd } : View S A X Y) := rfl
      rw [hv, ← hres]
      simp only [St.ctxOf, ofSt] at e
      simpa [ofSt, FSt.put, doAct, FSt.setLock, List.map_set, e, FSt.ctxOf, St.ctxOf] using g5

end

end Verif.LockLevel
