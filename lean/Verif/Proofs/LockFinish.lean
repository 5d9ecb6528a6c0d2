import Verif.Proofs.LockDrain
import Verif.Props.Search
import Mathlib.Data.Multiset.DershowitzManna
import Mathlib.Data.Prod.Lex
import Mathlib.Tactic.Set

/-! # A worker that is not waiting can go on, and gets nearer to the end of its trial -/

namespace Verif.LockLevel

open Verif.Search

set_option linter.unusedSimpArgs false
set_option linter.unusedSectionVars false

variable {S A R X Y X' Y' : Type} [DecidableEq S] [DecidableEq A] [AddMonoid R]
variable {env : Env S A R} {m : Manager S R} {hash : Int × S → Nat} {code : Code S A R X Y} {alg : Alg S A R X Y} {alg' : Alg S A R X' Y'}
  {π : X → X'} {ρ : Y → Y'} {jD jC : Nat} {f f' : FSt S A R X Y} {s s' : St S A R X' Y'} {w : Nat} {e : Option (Event S A R)}
  {k : Nat} {s0 : S} {dp tm : Int} {tb : List ((Int × S) × Option Nat)} {h h' : List (Event S A R)}

abbrev Q := ℕ ×ₗ (ℕ ×ₗ (ℕ ×ₗ ℕ))

def q4 (a b c d : ℕ) : Q := toLex (a, toLex (b, toLex (c, d)))

theorem q4_lt {a b c d a' b' c' d' : ℕ} (h : a < a' ∨ a = a' ∧ (b < b' ∨ b = b' ∧ (c < c' ∨ c = c' ∧ d < d'))) : q4 a b c d < q4 a' b' c' d' := by
  simp only [q4, Prod.Lex.toLex_lt_toLex]
  exact h

/-- How many blocks are at most left in a trial; `L`: the length of the longest path. -/
def rank (L : ℕ) : Phase S A R → ℕ
  | .idle => 0
  | .sel _ path _ _ => 4 * (L - path.length) + 2 * path.length + 2
  | .samp _ _ _ path _ _ => 4 * (L - path.length) + 2 * path.length + 1
  | .back nodes _ _ _ _ => 2 * nodes.length + 1
  | .backD _ nodes _ _ _ _ => 2 * nodes.length + 2

/-- How far a worker is from the end of its trial; `N`: the number of rounds of reading. -/
def mu (N L : ℕ) : Pc S A R X Y → Q
  | .out p => q4 (rank L p) (N + 3) 0 0
  | .own p => q4 (rank L p) (N + 2) 2 0
  | .vis p => q4 (rank L p) (N + 2) 1 0
  | .relD p snaps held => q4 (rank L p) (N + 1 - snaps.length) 3 held.length
  | .lockD p snaps _ todo => q4 (rank L p) (N + 1 - snaps.length) 2 todo.length
  | .readD p snaps _ _ todo => q4 (rank L p) (N + 1 - snaps.length) 1 todo.length
  | .relC p snaps held => q4 (rank L p) (N + 1 - snaps.length) 3 held.length
  | .lockC p snaps _ todo => q4 (rank L p) (N + 1 - snaps.length) 2 todo.length
  | .readC p snaps _ _ todo => q4 (rank L p) (N + 1 - snaps.length) 1 todo.length
  | .tab p _ _ => q4 (rank L p) 0 0 0
  | .post next acts => q4 (rank L next) (N + 4) 0 acts.length

/-- Worker `w` can take a step that brings it nearer to the end of its trial. -/
def Adv (env : Env S A R) (m : Manager S R) (hash : Int × S → Nat) (alg : Alg S A R X Y) (code : Code S A R X Y) (N L : ℕ) (f : FSt S A R X Y)
    (w : Nat) (pc : Pc S A R X Y) : Prop :=
  ∃ e f' pc', FEff env m hash alg code f w e f' ∧ f'.crashed = f.crashed ∧ (∀ v, e ≠ some (.began v)) ∧ f'.ws = f.ws.set w pc' ∧ mu N L pc' < mu N L pc

theorem fsafe (hS : Simulates alg code alg' π ρ jD jC) (hm : m.useTable = true → m.numMutexes ≤ 1) (hv : alg'.Valid) (htb : Leftover tb)
    (ht : TableOk m tb) (hr : FReachable env m hash alg code k s0 dp tm tb f h) : f.crashed = none := by
  by_contra hc
  obtain ⟨x, hx⟩ := Option.ne_none_iff_exists'.1 hc
  obtain ⟨s, h', h1, h2, -⟩ := (main_reach hS hm hv htb hr).dead x hx
  rw [safe_reach hv htb ht h1] at h2
  simp at h2

theorem samp_lt {L : ℕ} {cur : Nat} {a : A} {c : Nat} {path : List (Nat × Nat)} {rs rs' : List R} {new new' : Bool} {d' : Nat} {q : Nat × Nat} (h : path.length < L) :
    rank L (.sel d' (path ++ [q]) rs' new' : Phase S A R) < rank L (.samp cur a c path rs new : Phase S A R) := by
  simp [rank]; omega

/-- Inside a block. -/
theorem adv_in (hS : Simulates alg code alg' π ρ jD jC) (hm : m.useTable = true → m.numMutexes ≤ 1) (hv : alg'.Valid) (htb : Leftover tb)
    (ht : TableOk m tb) (hl : env.Live) (hsel : FSelects env m hash alg code k s0 dp tm tb) (hdp : dp ≤ m.maxDepth)
    (hr : FReachable env m hash alg code k s0 dp tm tb f h) (hcr : f.crashed = none) (I : LInv env m code f)
    (hr' : Reachable env m alg' k s0 dp tm tb s h') (H : Rel env m code alg alg' π ρ jD jC f s) {pc : Pc S A R X Y}
    (hw : f.ws[w]? = some pc) (hin : ∀ p, pc ≠ .out p) (hwait : ¬ Waiting f pc) :
    Adv env m hash alg code (max code.nD code.nC) (m.maxDepth - dp).toNat f w pc := by
  have J := (reach_both hv htb hr').1
  have hH := heldOk_reach hr w pc hw
  have hok := I.ok w pc hw
  have hph := H.ws w pc hw
  have hvalid : ∀ l ∈ holds pc, Valid f l := fun l hl => I.valid l w (I.own w pc hw l hl)
  have getD : ∀ i, Lk.d i ∈ holds pc → ∃ nd, f.dn[i]? = some nd := fun i hi => ⟨_, List.getElem?_eq_getElem (hvalid _ hi)⟩
  have getC : ∀ i, Lk.c i ∈ holds pc → ∃ nc, f.cn[i]? = some nc := fun i hi => ⟨_, List.getElem?_eq_getElem (hvalid _ hi)⟩
  have samp_ok : ∀ {cur a c path rs new}, s.ws[w]? = some (.samp cur a c path rs new) → path.length < (m.maxDepth - dp).toNat ∧
      (∃ nd, f.dn[cur]? = some nd) ∧ ∃ nc' o, s.cn[c]? = some nc' ∧ o ∈ env.succ nc'.state nc'.action := by
    intro cur a c path rs new hp
    have hb := (steps_bound J hdp hp).2 ⟨cur, a, c, path, rs, new, rfl⟩
    obtain ⟨_, hpath, _, _, _, _, h1, ⟨nd, h2, h3⟩, _⟩ := J.ws w _ hp
    obtain ⟨nd', nc, g1, g2, g0, g3, g4, _⟩ := childC_facts J.tree h1
    rw [h2] at g1
    obtain rfl := Option.some.inj g1
    have g5 : a ∈ env.actions nd.state := J.tree.heap.dAct cur nd.skel a c (by simp [h2]) g0
    have hsink : env.isSink nd.state = false := by
      simp only [isLeaf, Bool.or_eq_false_iff] at h3
      exact h3.1
    obtain ⟨o, ho⟩ := List.exists_mem_of_ne_nil _ (hl.succs nd.state hsink a g5)
    refine ⟨?_, ⟨_, List.getElem?_eq_getElem (by rw [← H.dlen]; exact (List.getElem?_eq_some_iff.1 h2).1)⟩, nc, o, g2, by rw [g3, g4]; exact ho⟩
    rw [hpath]
    simp only [pairs, List.length_map]
    omega
  cases pc with
  | out p => exact absurd rfl (hin p)
  | post next acts =>
    cases acts with
    | nil => exact ⟨_, _, _, .leave hw, rfl, by simp, rfl, q4_lt (by omega)⟩
    | cons act acts =>
      exact ⟨_, _, .post next acts, .post hw, (doAct_ws f act).2.2.2, by simp, by simp [FSt.setW, doAct_ws], q4_lt (by simp)⟩
  | own p =>
    cases p with
    | idle => simp [HeldOk, lkOf] at hH
    | sel cur path rs new =>
      obtain ⟨nd, hd⟩ := getD cur (by simp [holds, lkOf])
      by_cases hs : isLeaf env m nd = true ∨ (m.mctsMode && new) = true
      · exact ⟨_, _, _, .ended hw hd hs, rfl, by simp, rfl, q4_lt (.inl (by simp [rank]; omega))⟩
      · simp only [not_or, Bool.not_eq_true] at hs
        exact ⟨_, _, _, .visit hw hd hs.1 hs.2, rfl, by simp, rfl, q4_lt (by omega)⟩
    | samp cur a c path rs new =>
      obtain ⟨nc, hc⟩ := getC c (by simp [holds, lkOf])
      exact ⟨_, _, _, .visitC hw hc, rfl, by simp, rfl, q4_lt (by omega)⟩
    | backD d nodes before after ret tot =>
      obtain ⟨nd, hd⟩ := getD d (by simp [holds, lkOf])
      by_cases hn : code.nD = 0
      · exact ⟨_, _, _, .backedD (snaps := []) (held := []) hw hd (.inl ⟨rfl, rfl, rfl, hn⟩), rfl, by simp, rfl,
          q4_lt (.inl (by simp [rank]))⟩
      · exact ⟨_, _, _, .startD (snaps := []) hw hd (.inl ⟨rfl, rfl, hn⟩) (.refl _), rfl, by simp, rfl, q4_lt (by simp)⟩
    | back nodes before after ret tot =>
      rcases getLast?_cases nodes with rfl | ⟨nodes, ⟨d, c⟩, rfl⟩
      · simp [HeldOk, lkOf] at hH
      obtain ⟨before, r, rfl⟩ : ∃ before0 r, before = before0 ++ [r] := by
        rcases getLast?_cases before with rfl | ⟨b, r, rfl⟩
        · obtain ⟨_, _, j, hj, _, _, _, e1, e2, _⟩ := J.ws w _ hph
          have e1 := congrArg List.length e1
          have e2 := congrArg List.length e2
          simp [pairs] at e1 e2
          omega
        · exact ⟨b, r, rfl⟩
      obtain ⟨nc, hc⟩ := getC c (by simp [holds, lkOf])
      by_cases hn : code.nC = 0
      · exact ⟨_, _, _, .backedC (snaps := []) (held := []) hw hc (.inl ⟨rfl, rfl, rfl, hn⟩), rfl, by simp, rfl,
          q4_lt (.inl (by simp [rank]; omega))⟩
      · exact ⟨_, _, _, .startC (snaps := []) hw hc (.inl ⟨rfl, rfl, hn⟩) (.refl _), rfl, by simp, rfl, q4_lt (by simp)⟩
  | vis p =>
    obtain ⟨cur, path, rs, new, rfl⟩ | ⟨cur, a, c, path, rs, new, rfl⟩ := hok
    · obtain ⟨nd, hd⟩ := getD cur (by simp [holds, lkOf])
      exact ⟨_, _, _, .startSel hw hd (.refl _), rfl, by simp, rfl, q4_lt (by simp)⟩
    · obtain ⟨hlt, ⟨nd, hd⟩, nc', o, hc', ho⟩ := samp_ok hph
      obtain ⟨nc, hc⟩ := getC c (by simp [holds, lkOf])
      have hrel := H.cown c nc nc' hc hc' w _ hw (by simp [holds, lkOf])
      simp only [cRel, cSamp, if_true] at hrel
      obtain ⟨nc0, rfl, rfl⟩ := hrel
      cases hf : find? o nc0.kids with
      | some d' => exact ⟨_, _, _, .stepOld hw hc hd ho hf, rfl, by simp, rfl, q4_lt (.inl (samp_lt hlt))⟩
      | none =>
        cases hu : m.useTable with
        | false => exact ⟨_, _, _, .stepNew hw hc hd ho hf hu, rfl, by simp, rfl, q4_lt (.inl (samp_lt hlt))⟩
        | true =>
          simp only [Waiting, not_exists, not_not] at hwait
          exact ⟨_, _, _, .wantTable hw hc ho hf hu (ht hu).1 (hwait _), rfl, by simp, rfl, q4_lt (by omega)⟩
  | lockD p snaps held todo =>
    obtain ⟨hrd, d, nd, g1, g2, g3⟩ := hok
    cases todo with
    | nil =>
      cases p with
      | sel cur path rs new =>
        simp only [nodeD, Option.some.injEq] at g1; subst g1
        exact ⟨_, _, _, .readySel hw g2, rfl, by simp, rfl, q4_lt (by omega)⟩
      | backD d nodes before after ret tot =>
        simp only [nodeD, Option.some.injEq] at g1; subst g1
        exact ⟨_, _, _, .readyD hw g2, rfl, by simp, rfl, q4_lt (by omega)⟩
      | _ => simp [nodeD] at g1
    | cons k todo =>
      have hk : k < f.cn.length := by
        obtain ⟨nd', e1, e2⟩ := kids_lockD H hw g1 g2
        have : k ∈ (kidsToRead env m code f w p nd).map fun q => q.2 := g3.subset (by simp)
        obtain ⟨q, h1, rfl⟩ := List.mem_map.1 this
        have := inv_kidD J d nd' q e1 (by rw [e2]; exact kidsToRead_sub h1)
        rw [H.clen] at this; exact this
      exact ⟨_, _, _, .lockD hw hk (by simpa [Waiting] using hwait), rfl, by simp, rfl, q4_lt (by simp)⟩
  | readD p snaps held acc todo =>
    obtain ⟨hrd, d, nd, done, g1, g2, g3, g4, g5⟩ := hok
    cases todo with
    | cons q todo =>
      obtain ⟨a, k⟩ := q
      obtain ⟨nc, hc⟩ := getC k (by simp [holds, g4 (a, k) (by rw [g3]; simp)])
      exact ⟨_, _, _, .readD hw hc, rfl, by simp, rfl, q4_lt (by simp)⟩
    | nil =>
      cases p with
      | sel cur path rs new =>
        simp only [nodeD, Option.some.injEq] at g1; subst g1
        obtain ⟨a, ha⟩ := hsel hr hcr hw g2
        cases hf : find? a nd.kids with
        | none => exact ⟨_, _, _, .selNew hw g2 (.inr ⟨snaps, rfl, ha⟩) hf, rfl, by simp, rfl, q4_lt (.inl (by simp [rank]))⟩
        | some c => exact ⟨_, _, _, .selOld hw g2 (.inr ⟨snaps, rfl, ha⟩) hf, rfl, by simp, rfl, q4_lt (.inl (by simp [rank]))⟩
      | backD d nodes before after ret tot =>
        simp only [nodeD, Option.some.injEq] at g1; subst g1
        simp only [RoundD] at hrd
        by_cases hn : snaps.length + 1 = code.nD
        · exact ⟨_, _, _, .backedD (snaps := snaps ++ [acc]) hw g2 (.inr ⟨snaps, acc, rfl, rfl, hn⟩), rfl, by simp, rfl,
            q4_lt (.inl (by simp [rank]))⟩
        · refine ⟨_, _, _, .snapD hw g2 hn, rfl, by simp, rfl, q4_lt (.inr ⟨rfl, .inl ?_⟩)⟩
          simp; omega
      | _ => simp [nodeD] at g1
  | relD p snaps held =>
    cases held with
    | cons k held => exact ⟨_, _, _, .relD hw, rfl, by simp, rfl, q4_lt (by simp)⟩
    | nil =>
      obtain ⟨d, nodes, before, after, ret, tot, rfl, hn⟩ := hok
      obtain ⟨nd, hd⟩ := getD d (by simp [holds, lkOf])
      exact ⟨_, _, _, .startD hw hd (.inr rfl) (.refl _), rfl, by simp, rfl, q4_lt (by omega)⟩
  | lockC p snaps held todo =>
    obtain ⟨hrd, nodes, d, c, before, r, after, ret, tot, nc, rfl, g2, g3⟩ := hok
    cases todo with
    | nil => exact ⟨_, _, _, .readyC hw g2, rfl, by simp, rfl, q4_lt (by omega)⟩
    | cons k todo =>
      have hk : k < f.dn.length := by
        obtain ⟨nc', e1, e2⟩ := kids_lockC H hw g2
        have : k ∈ nc.kids.map fun q => q.2 := g3.subset (by simp)
        obtain ⟨q, h1, rfl⟩ := List.mem_map.1 this
        have := inv_kidC J c nc' q e1 (by rw [e2]; exact h1)
        rw [H.dlen] at this; exact this
      exact ⟨_, _, _, .lockC hw hk (by simpa [Waiting] using hwait), rfl, by simp, rfl, q4_lt (by simp)⟩
  | readC p snaps held acc todo =>
    obtain ⟨hrd, nodes, d, c, before, r, after, ret, tot, nc, done, rfl, g2, g3, g4, g5⟩ := hok
    cases todo with
    | cons q todo =>
      obtain ⟨o, k⟩ := q
      obtain ⟨nd, hd⟩ := getD k (by simp [holds, g4 (o, k) (by rw [g3]; simp)])
      exact ⟨_, _, _, .readC hw hd, rfl, by simp, rfl, q4_lt (by simp)⟩
    | nil =>
      by_cases hn : snaps.length + 1 = code.nC
      · exact ⟨_, _, _, .backedC (snaps := snaps ++ [acc]) hw g2 (.inr ⟨snaps, acc, rfl, rfl, hn⟩), rfl, by simp, rfl,
          q4_lt (.inl (by simp [rank]; omega))⟩
      · refine ⟨_, _, _, .snapC hw g2 hn, rfl, by simp, rfl, q4_lt (.inr ⟨rfl, .inl ?_⟩)⟩
        simp; omega
  | relC p snaps held =>
    cases held with
    | cons k held => exact ⟨_, _, _, .relC hw, rfl, by simp, rfl, q4_lt (by simp)⟩
    | nil =>
      obtain ⟨nodes, d, c, before, r, after, ret, tot, rfl, hn⟩ := hok
      obtain ⟨nc, hc⟩ := getC c (by simp [holds, lkOf])
      exact ⟨_, _, _, .startC hw hc (.inr rfl) (.refl _), rfl, by simp, rfl, q4_lt (by omega)⟩
  | tab p o j =>
    obtain ⟨cur, a, c, path, rs, new, nc, rfl, hc, ho, hf, hu, hn⟩ := hok
    obtain ⟨hlt, ⟨nd, hd⟩, -⟩ := samp_ok hph
    cases hx : find? (nc.time, o) f.table with
    | none => exact ⟨_, _, _, .tabMiss hw hc hd hx, rfl, by simp, rfl, q4_lt (.inl (samp_lt hlt))⟩
    | some x =>
      cases x with
      | some i => exact ⟨_, _, _, .tabHit hw hc hd hx, rfl, by simp, rfl, q4_lt (.inl (samp_lt hlt))⟩
      | none =>
        obtain ⟨⟨ch, hst⟩, -⟩ := crash_sim hm J I H (.weak hw hc hx)
        have := safe_reach hv htb ht (reach_snoc hr' hst)
        simp at this

/-- Not inside a block, all mutexes free. -/
theorem adv_out (hv : alg'.Valid) (htb : Leftover tb) (hquiet : ∀ l, f.lock l = none)
    (hr' : Reachable env m alg' k s0 dp tm tb s h') (H : Rel env m code alg alg' π ρ jD jC f s) {p : Phase S A R}
    (hw : f.ws[w]? = some (.out p)) (hp : p ≠ .idle) {N L : ℕ} : Adv env m hash alg code N L f w (.out p) := by
  have J := (reach_both hv htb hr').1
  have hph := H.ws w _ hw
  simp only [absPhase] at hph
  cases hl : lkOf p with
  | none =>
    cases p with
    | back nodes before after ret tot =>
      rcases getLast?_cases nodes with rfl | ⟨nodes, ⟨d, c⟩, rfl⟩
      · exact ⟨_, _, _, .completed hw, rfl, by simp, rfl, q4_lt (.inl (by simp [rank]))⟩
      · simp [lkOf] at hl
    | idle => exact absurd rfl hp
    | _ => simp [lkOf] at hl
  | some l =>
    have hval : Valid f l := by
      by_contra hval
      have hdn : ∀ {i}, ¬ i < f.dn.length → s.dn[i]? = none := fun h => by simp [H.dlen]; omega
      have hcn : ∀ {i}, ¬ i < f.cn.length → s.cn[i]? = none := fun h => by simp [H.clen]; omega
      cases p with
      | idle => simp [lkOf] at hl
      | sel cur path rs new =>
        simp [lkOf] at hl; subst hl
        exact no_dangling J (.sel hph (hdn hval))
      | samp cur a c path rs new =>
        simp [lkOf] at hl; subst hl
        exact no_dangling J (.samp hph (.inl (hcn hval)))
      | back nodes before after ret tot =>
        simp only [lkOf] at hl
        cases hn : nodes.getLast? with
        | none => simp [hn] at hl
        | some p =>
          simp [hn] at hl; subst hl
          exact no_dangling J (.backC hph hn (hcn hval))
      | backD d nodes before after ret tot =>
        simp [lkOf] at hl; subst hl
        exact no_dangling J (.backD hph (hdn hval))
    exact ⟨_, _, _, .enter hw hl hval (hquiet l), rfl, by simp, rfl, q4_lt (by omega)⟩


/-- How far all workers are from the end of their trials. -/
def total' (N L : ℕ) (f : FSt S A R X Y) : Multiset Q := (f.ws.map (mu N L) : List Q)

theorem set_dm {α : Type} {g : α → Q} {l : List α} {i : Nat} {a b : α} (hi : l[i]? = some a) (hlt : g b < g a) :
    Multiset.IsDershowitzMannaLT (((l.set i b).map g : List Q) : Multiset Q) ((l.map g : List Q) : Multiset Q) := by
  obtain ⟨hlen, hget⟩ := List.getElem?_eq_some_iff.1 hi
  have h1 : l = l.take i ++ a :: l.drop (i + 1) := by
    conv_lhs => rw [← List.take_append_drop i l, List.drop_eq_getElem_cons hlen, hget]
  have h2 : l.set i b = l.take i ++ b :: l.drop (i + 1) := List.set_eq_take_append_cons_drop .. |>.trans (by simp [hlen])
  refine ⟨((l.take i ++ l.drop (i + 1)).map g : List Q), {g b}, {g a}, by simp, ?_, ?_, by simpa using hlt⟩
  · rw [h2, ← Multiset.coe_singleton, Multiset.coe_add, Multiset.coe_eq_coe]
    simp only [List.map_append, List.map_cons]
    exact (List.perm_middle).trans (List.perm_append_singleton _ _).symm
  · conv_lhs => rw [h1]
    rw [← Multiset.coe_singleton, Multiset.coe_add, Multiset.coe_eq_coe]
    simp only [List.map_append, List.map_cons]
    exact (List.perm_middle).trans (List.perm_append_singleton _ _).symm

/-- As long as a trial is running, some worker can go on with one. -/
theorem progress (hS : Simulates alg code alg' π ρ jD jC) (hm : m.useTable = true → m.numMutexes ≤ 1) (hT : m.useTable = true → code.nC = 0)
    (hv : alg'.Valid) (htb : Leftover tb)
    (ht : TableOk m tb) (hl : env.Live) (hsel : FSelects env m hash alg code k s0 dp tm tb) (hdp : dp ≤ m.maxDepth)
    (hr : FReachable env m hash alg code k s0 dp tm tb f h) {pc : Pc S A R X Y} (hw : f.ws[w]? = some pc) (hpc : pc ≠ .out .idle) :
    ∃ v ch f' e, fstep env m hash alg code f v ch = some (f', e) ∧ (∀ u, e ≠ some (.began u)) ∧
      Multiset.IsDershowitzMannaLT (total' (max code.nD code.nC) (m.maxDepth - dp).toNat f')
        (total' (max code.nD code.nC) (m.maxDepth - dp).toNat f) := by
  have hcr := fsafe hS hm hv htb ht hr
  obtain ⟨I, s, h', hr', H, -⟩ := (main_reach hS hm hv htb hr).alive hcr
  have J := (reach_both hv htb hr').1
  have fin : ∀ (v : Nat) pv, f.ws[v]? = some pv → Adv env m hash alg code (max code.nD code.nC) (m.maxDepth - dp).toNat f v pv →
      ∃ v ch f' e, fstep env m hash alg code f v ch = some (f', e) ∧ (∀ u, e ≠ some (.began u)) ∧
      Multiset.IsDershowitzMannaLT (total' (max code.nD code.nC) (m.maxDepth - dp).toNat f')
        (total' (max code.nD code.nC) (m.maxDepth - dp).toNat f) := by
    rintro v pv hpv ⟨e, f', pc', E, h1, h2, h3, h4⟩
    obtain ⟨ch, hs⟩ := eff_fstep hcr (by rw [h1, hcr]) (by
      rintro nodes before after ret tot hw1 rfl
      have hph := H.ws v _ hw1
      obtain ⟨_, _, j, hj, _, _, _, e1, e2, _⟩ := J.ws v _ hph
      have e2 := congrArg List.length e2
      simp at e2
      rw [e1]
      apply List.eq_nil_of_length_eq_zero
      simp [pairs]
      omega) E
    refine ⟨v, ch, f', e, hs, h2, ?_⟩
    rw [total', total', h3]
    exact set_dm hpv h4
  by_cases hq : ∃ (v : Nat) (pv : Pc S A R X Y), f.ws[v]? = some pv ∧ ∀ p, pv ≠ .out p
  · obtain ⟨v, pv, h1, h2⟩ := hq
    obtain ⟨u, pu, g1, g2, g3⟩ := some_not_waiting I (heldOk_reach hr) H J hT h1 h2
    exact fin u pu g1 (adv_in hS hm hv htb ht hl hsel hdp hr hcr I hr' H g1 g2 g3)
  · simp only [not_exists, not_and, not_forall, not_not] at hq
    have hquiet := quiet_lock I hq
    obtain ⟨p, rfl⟩ := hq w pc hw
    exact fin w _ hw (adv_out hv htb (fun l => by rw [hquiet]) hr' H hw (by rintro rfl; exact hpc rfl))

/-- All trials can be finished. -/
theorem can_finish (hS : Simulates alg code alg' π ρ jD jC) (hm : m.useTable = true → m.numMutexes ≤ 1) (hT : m.useTable = true → code.nC = 0)
    (hv : alg'.Valid) (htb : Leftover tb)
    (ht : TableOk m tb) (hl : env.Live) (hsel : FSelects env m hash alg code k s0 dp tm tb) (hdp : dp ≤ m.maxDepth)
    (hr : FReachable env m hash alg code k s0 dp tm tb f h) :
    ∃ f' ext, FinishesTo env m hash alg code f h f' ext ∧ ∀ (w : Nat) pc, f'.ws[w]? = some pc → pc = .out .idle := by
  obtain ⟨M, hM⟩ : ∃ M, M = total' (max code.nD code.nC) (m.maxDepth - dp).toNat f := ⟨_, rfl⟩
  induction M using (Multiset.wellFounded_isDershowitzMannaLT (α := Q)).induction generalizing f h with
  | h M ih =>
    by_cases hdone : ∀ (w : Nat) pc, f.ws[w]? = some pc → pc = .out .idle
    · exact ⟨f, [], ⟨[], rfl, by simp⟩, hdone⟩
    · simp only [not_forall] at hdone
      obtain ⟨w, pc, hw, hpc⟩ := hdone
      obtain ⟨v, ch, f1, e, hs, he, hlt⟩ := progress hS hm hT hv htb ht hl hsel hdp hr hw hpc
      have hx : fexec env m hash alg code f h [(v, ch)] = some (f1, e.toList ++ h) := by simp [fexec, hs]
      obtain ⟨f2, ext, ⟨ls, g1, g2⟩, g3⟩ := ih _ (by rw [hM]; exact hlt) (freach_append hr hx) rfl
      refine ⟨f2, ext ++ e.toList, ⟨(v, ch) :: ls, ?_, ?_⟩, g3⟩
      · have : (v, ch) :: ls = [(v, ch)] ++ ls := rfl
        rw [this, fexec_append, hx, List.append_assoc]
        exact g1
      · intro u hu
        rcases List.mem_append.1 hu with hu | hu
        · exact g2 u hu
        · exact he u (by cases e <;> simp_all)

/-- Every step that neither begins a trial nor kills the program brings its worker nearer to the end of its trial. -/
theorem eff_mu (I : LInv env m code f) (H : Rel env m code alg alg' π ρ jD jC f s) (J : Inv env m s0 dp tm s h) (hdp : dp ≤ m.maxDepth)
    (E : FEff env m hash alg code f w e f') : (∃ x, e = some (.crash w x)) ∨ e = some (.began w) ∨
    ∃ pc pc', f.ws[w]? = some pc ∧ f'.ws = f.ws.set w pc' ∧
      mu (max code.nD code.nC) (m.maxDepth - dp).toNat pc' < mu (max code.nD code.nC) (m.maxDepth - dp).toNat pc := by
  have samp_ok : ∀ {cur a c path rs new}, s.ws[w]? = some (.samp cur a c path rs new) → path.length < (m.maxDepth - dp).toNat := by
    intro cur a c path rs new hp
    have hb := (steps_bound J hdp hp).2 ⟨cur, a, c, path, rs, new, rfl⟩
    obtain ⟨_, hpath, _⟩ := J.ws w _ hp
    rw [hpath]
    simp only [pairs, List.length_map]
    omega
  cases E with
  | crash => exact .inl ⟨_, rfl⟩
  | began => exact .inr (.inl rfl)
  | @post next act acts hw =>
    exact .inr (.inr ⟨_, .post next acts, hw, by simp [FSt.setW, doAct_ws], q4_lt (by simp)⟩)
  | stepOld hw | stepNew hw | tabHit hw | tabMiss hw => exact .inr (.inr ⟨_, _, hw, rfl, q4_lt (.inl (samp_lt (samp_ok (H.ws w _ hw))))⟩)
  | @snapD d nodes before after ret tot nd snaps held acc hw hd hn =>
    obtain ⟨hrd, -⟩ := I.ok w _ hw
    simp only [RoundD] at hrd
    exact .inr (.inr ⟨_, _, hw, rfl, q4_lt (.inr ⟨rfl, .inl (by simp; omega)⟩)⟩)
  | @snapC nodes d c before r after ret tot nc snaps held acc hw hd hn =>
    obtain ⟨hrd, -⟩ := I.ok w _ hw
    exact .inr (.inr ⟨_, _, hw, rfl, q4_lt (.inr ⟨rfl, .inl (by simp; omega)⟩)⟩)
  | startD hw hd hpc | startC hw hd hpc =>
    rcases hpc with ⟨rfl, rfl, -⟩ | rfl
    · exact .inr (.inr ⟨_, _, hw, rfl, q4_lt (by simp)⟩)
    · exact .inr (.inr ⟨_, _, hw, rfl, q4_lt (by omega)⟩)
  | selOld hw hd hpc | selNew hw hd hpc =>
    rcases hpc with ⟨rfl, -⟩ | ⟨sn, rfl, -⟩ <;> exact .inr (.inr ⟨_, _, hw, rfl, q4_lt (.inl (by simp [rank]))⟩)
  | backedD hw hd hpc =>
    rcases hpc with ⟨rfl, -⟩ | ⟨sn, acc, rfl, -⟩ <;> exact .inr (.inr ⟨_, _, hw, rfl, q4_lt (.inl (by simp [rank]))⟩)
  | backedC hw hd hpc =>
    rcases hpc with ⟨rfl, -⟩ | ⟨sn, acc, rfl, -⟩ <;> exact .inr (.inr ⟨_, _, hw, rfl, q4_lt (.inl (by simp [rank]; omega))⟩)
  | completed hw | leave hw | enter hw | ended hw | visit hw | visitC hw | startSel hw | lockD hw | lockC hw | readySel hw | readyD hw | readyC hw
    | readD hw | readC hw | relD hw | relC hw | wantTable hw =>
    exact .inr (.inr ⟨_, _, hw, rfl, q4_lt (by simp [rank]; try omega)⟩)

/-- No run that begins no trial goes on for ever. -/
theorem no_infinite (hS : Simulates alg code alg' π ρ jD jC) (hm : m.useTable = true → m.numMutexes ≤ 1) (hv : alg'.Valid) (htb : Leftover tb)
    (hdp : dp ≤ m.maxDepth) (g : ℕ → FSt S A R X Y) (hr : FReachable env m hash alg code k s0 dp tm tb (g 0) h)
    (hst : ∀ n, ∃ v ch e, fstep env m hash alg code (g n) v ch = some (g (n + 1), e) ∧ ∀ u, e ≠ some (.began u)) : False := by
  have hreach : ∀ n, ∃ hn, FReachable env m hash alg code k s0 dp tm tb (g n) hn := by
    intro n
    induction n with
    | zero => exact ⟨h, hr⟩
    | succ n ih =>
      obtain ⟨hn, ih⟩ := ih
      obtain ⟨v, ch, e, hs, -⟩ := hst n
      exact ⟨e.toList ++ hn, freach_append ih (ls := [(v, ch)]) (by simp [fexec, hs])⟩
  have hdec : ∀ n, Multiset.IsDershowitzMannaLT (total' (max code.nD code.nC) (m.maxDepth - dp).toNat (g (n + 1)))
        (total' (max code.nD code.nC) (m.maxDepth - dp).toNat (g n)) := by
    intro n
    obtain ⟨hn, hrn⟩ := hreach n
    obtain ⟨v, ch, e, hs, hb⟩ := hst n
    obtain ⟨hc, E⟩ := fstep_eff hs
    obtain ⟨I, s, h', hr', H, -⟩ := (main_reach hS hm hv htb hrn).alive hc
    have J := (reach_both hv htb hr').1
    rcases eff_mu I H J hdp E with ⟨x, rfl⟩ | rfl | ⟨pc, pc', h1, h2, h3⟩
    · exfalso
      obtain ⟨v', ch', e', hs', -⟩ := hst (n + 1)
      have hc' := (fstep_eff hs').1
      generalize g (n + 1) = f1 at E hc'
      cases E
      simp at hc'
    · exact absurd rfl (hb v)
    · rw [total', total', h2]
      exact set_dm h1 h3
  have wf := (Multiset.wellFounded_isDershowitzMannaLT (α := Q))
  obtain ⟨x, ⟨n, rfl⟩, hmin⟩ := wf.has_min (Set.range fun n => total' (max code.nD code.nC) (m.maxDepth - dp).toNat (g n)) ⟨_, 0, rfl⟩
  exact hmin _ ⟨n + 1, rfl⟩ (hdec n)

end Verif.LockLevel
