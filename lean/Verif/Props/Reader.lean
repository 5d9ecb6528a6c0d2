import Verif.Spec.ReaderToy
import Verif.Props.Program
import Verif.Proofs.Uct

/-!
# C103: results can be read while no trial is running, and only then

`AtRest`: the client is not inside `run_trials`, and `join` has returned since the last call.  `readExec` interleaves the loop of a
recommendation with arbitrary steps of the program.
-/

set_option linter.unusedSectionVars false

namespace Verif.Prog

open Verif.Search (DNode CNode View find? viewOf kidsY Leftover)
open Verif.LockLevel (FSt Loc accesses quietState ownView)

section General
variable {S A R X Y : Type} [DecidableEq S] [DecidableEq A] [Add R] [Zero R]
variable {env : Search.Env S A R} {m : Search.Manager S R} {hash : Int × S → Nat} {alg : Search.Alg S A R X Y} {code : LockLevel.Code S A R X Y}
variable {n : Nat} {s0 : S} {dp tm : Int} {tb : List ((Int × S) × Option Nat)} {lg : Option Log.Logger} {s s' : St S A R X Y}
  {h h' : List (Event S A R)}

theorem rest_step (hr : Reachable env m hash alg code n s0 dp tm tb lg s h) (ha : AtRest s h) {l : Label S A} (hl : l.isEnter = false)
    {es : List (Event S A R)} (hs : step env m hash alg code s l = some (s', es)) :
    AtRest s' (es ++ h) ∧ s'.search = s.search := by
  obtain ⟨hen, hset⟩ := ha
  obtain ⟨-, E⟩ := step_eff hs
  have hp : ∀ e : Option Pool.Event, (∀ x, e = some x → x.isCall = false) →
      Pool.settled (poolPart (e.toList.map Event.pool ++ h : List (Event S A R))) = true := by
    intro e he
    cases e with
    | none => exact hset
    | some x =>
      have := he x rfl
      cases x <;> simp_all [poolPart, Pool.settled, Pool.Event.isCall]
  cases E with
  | quiet hp' h1 => exact ⟨⟨hen, hp _ fun x hx => (h1 x hx).1⟩, rfl⟩
  | @start i p hp' => exact ⟨⟨hen, hp (some (.started i)) (by simp [Pool.Event.isCall])⟩, rfl⟩
  | @finish i p hp' => exact ⟨⟨hen, hp (some (.finished i)) (by simp [Pool.Event.isCall])⟩, rfl⟩
  | search hq hst hg => have := done_of_settled hr hset _ _ hst; rcases hg with rfl | rfl <;> simp at this
  | take hlg hst => exact ⟨⟨hen, hset⟩, rfl⟩
  | write hlg hst => exact ⟨⟨hen, by simpa [poolPart] using hset⟩, rfl⟩
  | release hlg hst => exact ⟨⟨hen, hset⟩, rfl⟩
  | enter hcl => simp [Label.isEnter] at hl
  | prep he => rw [hen] at he; simp at he
  | call he => rw [hen] at he; simp at he

/-- **C103.**  At rest no worker is about to access a node or the table: whatever another thread reads, there is no data race. -/
theorem c103_no_race (hr : Reachable env m hash alg code n s0 dp tm tb lg s h) (ha : AtRest s h) (ls : List Loc) :
    (∀ (w : Nat) pc, s.search.ws[w]? = some pc → accesses pc = []) ∧ ¬ ReadRace s.search ls := by
  have hq : ∀ (w : Nat) pc, s.search.ws[w]? = some pc → accesses pc = [] := by
    intro w pc hw
    rw [(c81_when_joined hr ha.2).2.1 w pc hw]
    rfl
  refine ⟨hq, ?_⟩
  rintro ⟨w, pc, l, hw, -, hx⟩
  rw [hq w pc hw] at hx
  simp at hx

/-- **C103.**  Until `run_trials` is called again the program stays at rest and the tree does not change, whatever the threads do: what
`Verif.Eval` assumes ("Assumes that the tree is static during this call", include/mc_eval.h:140) holds. -/
theorem c103_static (hr : Reachable env m hash alg code n s0 dp tm tb lg s h) (ha : AtRest s h) {ls : List (Label S A)}
    (hl : ∀ l ∈ ls, l.isEnter = false) (hx : execFrom env m hash alg code s h ls = some (s', h')) :
    AtRest s' h' ∧ s'.search = s.search := by
  induction ls generalizing s h with
  | nil =>
    simp only [execFrom, Option.some.injEq, Prod.mk.injEq] at hx
    obtain ⟨rfl, rfl⟩ := hx
    exact ⟨ha, rfl⟩
  | cons l ls ih =>
    simp only [execFrom] at hx
    cases hst : step env m hash alg code s l with
    | none => rw [hst] at hx; simp at hx
    | some x =>
      obtain ⟨s1, es⟩ := x
      rw [hst] at hx
      obtain ⟨h1, h2⟩ := rest_step hr ha (hl l (by simp)) hst
      obtain ⟨h3, h4⟩ := ih (reach_snoc hr hst) h1 (fun l hm => hl l (List.mem_cons_of_mem _ hm)) hx
      exact ⟨h3, h4.trans h2⟩

/-- What an item of the loop contributes, in a tree that does not change. -/
def Item.gives (f : FSt S A R X Y) (d : Nat) : Item A → List (A × Nat × Y)
  | .ask a => ((((f.dn[d]?).bind fun nd => find? a nd.kids).bind fun c => f.cn[c]?).map fun nc => (a, nc.visits, nc.y)).toList
  | .entry a c => ((f.cn[c]?).map fun nc => (a, nc.visits, nc.y)).toList

theorem next_gives {r r' : Reader S A R X Y} {f : FSt S A R X Y} (hn : r.next f = some r') :
    r'.node = r.node ∧ r'.own = r.own ∧ ∃ i, r.todo = i :: r'.todo ∧ r'.seen = r.seen ++ i.gives f r.node ∧
      (∀ a c, i = .entry a c → (f.cn[c]?).isSome) ∧
      (∀ a, i = .ask a → ∀ nd, f.dn[r.node]? = some nd → ∀ c, find? a nd.kids = some c → (f.cn[c]?).isSome) := by
  unfold Reader.next at hn
  split at hn
  · simp at hn
  · next a rest ht =>
    split at hn
    · simp at hn
    · next nd hd =>
      split at hn
      · next hf =>
        simp only [Option.some.injEq] at hn
        subst hn
        exact ⟨rfl, rfl, _, ht, by simp [Item.gives, hd, hf], by simp, by
          rintro a' ha nd' hnd c hc
          cases ha; rw [hd] at hnd; cases hnd; rw [hf] at hc; simp at hc⟩
      · next c hf =>
        cases hc : f.cn[c]? with
        | none => rw [hc] at hn; simp at hn
        | some nc =>
          rw [hc] at hn
          simp only [Option.map_some, Option.some.injEq] at hn
          subst hn
          exact ⟨rfl, rfl, _, ht, by simp [Item.gives, hd, hf, hc], by simp, by
            rintro a' ha nd' hnd c' hc'
            cases ha; rw [hd] at hnd; cases hnd; rw [hf] at hc'; cases hc'; simp [hc]⟩
  · next a c rest ht =>
    cases hc : f.cn[c]? with
    | none => rw [hc] at hn; simp at hn
    | some nc =>
      rw [hc] at hn
      simp only [Option.map_some, Option.some.injEq] at hn
      subst hn
      refine ⟨rfl, rfl, _, ht, by simp [Item.gives, hc], ?_, by simp⟩
      rintro a' c' he
      cases he; simp [hc]

/-- What has been read when the loop is over. -/
theorem reads_all (hr : Reachable env m hash alg code n s0 dp tm tb lg s h) (ha : AtRest s h) {ls : List (Option (Label S A))}
    (hl : ∀ l, some l ∈ ls → l.isEnter = false) {r r' : Reader S A R X Y}
    (hx : readExec env m hash alg code s h r ls = some (s', h', r')) (ht : r'.todo = []) :
    r'.own = r.own ∧ r'.seen = r.seen ++ r.todo.flatMap (Item.gives s.search r.node) ∧
    (∀ a c, .entry a c ∈ r.todo → (s.search.cn[c]?).isSome) ∧
    (∀ a, .ask a ∈ r.todo → ∀ nd, s.search.dn[r.node]? = some nd → ∀ c, find? a nd.kids = some c → (s.search.cn[c]?).isSome) := by
  induction ls generalizing s h r with
  | nil =>
    simp only [readExec, Option.some.injEq, Prod.mk.injEq] at hx
    obtain ⟨-, -, rfl⟩ := hx
    simp [ht]
  | cons o ls ih =>
    cases o with
    | none =>
      simp only [readExec] at hx
      cases hn : r.next s.search with
      | none => rw [hn] at hx; simp at hx
      | some r1 =>
        rw [hn] at hx
        obtain ⟨e1, e2, i, e3, e4, e5, e6⟩ := next_gives hn
        obtain ⟨g1, g2, g3, g4⟩ := ih hr ha (fun l hm => hl l (List.mem_cons_of_mem _ hm)) hx
        refine ⟨g1.trans e2, ?_, ?_, ?_⟩
        · rw [g2, e4, e3, e1]; simp
        · intro a c hm
          rw [e3] at hm
          rcases List.mem_cons.1 hm with hm | hm
          · exact e5 a c hm.symm
          · exact g3 a c hm
        · intro a hm
          rw [e3] at hm
          rcases List.mem_cons.1 hm with hm | hm
          · exact e6 a hm.symm
          · rw [← e1]; exact g4 a hm
    | some l =>
      simp only [readExec] at hx
      cases hst : step env m hash alg code s l with
      | none => rw [hst] at hx; simp at hx
      | some x =>
        obtain ⟨s1, es⟩ := x
        rw [hst] at hx
        obtain ⟨h1, h2⟩ := rest_step hr ha (hl l (by simp)) hst
        have := ih (reach_snoc hr hst) h1 (fun l hm => hl l (List.mem_cons_of_mem _ hm)) hx
        rwa [h2] at this

theorem find?_filterMap {K V W : Type} [DecidableEq K] (g : V → Option W) (l : List (K × V)) (a : K)
    (hg : ∀ c, find? a l = some c → (g c).isSome) :
    find? a (l.filterMap fun p => (g p.2).map fun w => (p.1, w)) = (find? a l).bind g := by
  induction l with
  | nil => rfl
  | cons p l ih =>
    obtain ⟨k, v⟩ := p
    by_cases hk : k = a
    · subst hk
      have hv := hg v (by simp [find?])
      obtain ⟨w, hw⟩ := Option.isSome_iff_exists.1 hv
      simp [find?, hw]
    · have e : find? a ((k, v) :: l) = find? a l := by simp [find?, hk]
      rw [e] at hg ⊢
      rw [← ih hg]
      cases hv : g v with
      | none => simp [hv]
      | some w => simp [hv, find?, hk]

theorem find?_flatMap {f : FSt S A R X Y} {d : Nat} (l : List A) (a : A) (ha : a ∈ l) :
    find? a ((l.map Item.ask).flatMap (Item.gives f d)) =
      (((f.dn[d]?).bind fun nd => find? a nd.kids).bind fun c => f.cn[c]?).map fun nc => (nc.visits, nc.y) := by
  induction l with
  | nil => simp at ha
  | cons b l ih =>
    simp only [List.map_cons, List.flatMap_cons]
    by_cases hb : b = a
    · subst hb
      cases hg : ((f.dn[d]?).bind fun nd => find? b nd.kids).bind fun c => f.cn[c]? with
      | some nc => simp [Item.gives, hg, find?]
      | none =>
        have : ∀ l : List A, find? b ((l.map Item.ask).flatMap (Item.gives f d)) = none := by
          intro l
          induction l with
          | nil => rfl
          | cons c l ih =>
            simp only [List.map_cons, List.flatMap_cons]
            by_cases hc : c = b
            · subst hc; simpa [Item.gives, hg] using ih
            · cases hgc : ((f.dn[d]?).bind fun nd => find? c nd.kids).bind fun c => f.cn[c]? with
              | none => simpa [Item.gives, hgc] using ih
              | some nc => simpa [Item.gives, hgc, find?, hc] using ih
        simpa [Item.gives, hg] using this l
    · have hm : a ∈ l := by rcases List.mem_cons.1 ha with h | h; exact absurd h.symm hb; exact h
      rw [← ih hm]
      cases hgc : ((f.dn[d]?).bind fun nd => find? b nd.kids).bind fun c => f.cn[c]? with
      | none => simp [Item.gives, hgc]
      | some nc => simp [Item.gives, hgc, find?, hb]

/-- **C103.**  A recommendation that loops over the valid actions, interleaved with the program at rest, sees one state of the tree. -/
theorem c103_over_actions (hr : Reachable env m hash alg code n s0 dp tm tb lg s h) (ha : AtRest s h) {ls : List (Option (Label S A))}
    (hl : ∀ l, some l ∈ ls → l.isEnter = false) {d : Nat} {nd : DNode S A R X} (hd : s.search.dn[d]? = some nd)
    {r r' : Reader S A R X Y} (h0 : overActions env s.search d = some r)
    (hx : readExec env m hash alg code s h r ls = some (s', h', r')) (ht : r'.todo = []) :
    SameView (r'.view env m) (viewOf env m (quietState id id s.search) nd) := by
  obtain ⟨g1, g2, -, g4⟩ := reads_all hr ha hl hx ht
  simp only [overActions, hd, Option.map_some, Option.some.injEq] at h0
  subst h0
  simp only at g1 g2 g4
  refine ⟨by simp [Reader.view, ownView, viewOf, g1], by simp [Reader.view, ownView, viewOf, g1], by simp [Reader.view, ownView, viewOf, g1],
    by simp [Reader.view, ownView, viewOf, g1], by simp [Reader.view, ownView, viewOf, g1], by simp [Reader.view, ownView, viewOf, g1],
    by simp [Reader.view, ownView, viewOf, g1], ?_⟩
  intro a hm
  have hm : a ∈ env.actions nd.state := hm
  show find? a r'.seen = find? a (kidsY (quietState id id s.search) nd)
  rw [g2, List.nil_append, find?_flatMap _ a hm, hd, Option.bind_some]
  have := find?_filterMap (fun c => ((quietState id id s.search).cn[c]?).map fun nc => (nc.visits, nc.y)) nd.kids a (by
    intro c hc
    have := g4 a (List.mem_map.2 ⟨a, hm, rfl⟩) nd hd c hc
    obtain ⟨nc, hnc⟩ := Option.isSome_iff_exists.1 this
    simp [quietState, hnc])
  have e : kidsY (quietState id id s.search) nd =
      nd.kids.filterMap fun p => (((quietState id id s.search).cn[p.2]?).map fun nc => (nc.visits, nc.y)).map fun w => (p.1, w) := by
    unfold kidsY
    congr 1
    funext p
    simp [Option.map_map, Function.comp_def]
  rw [e, this]
  cases hf : find? a nd.kids with
  | none => rfl
  | some c =>
    simp only [Option.bind_some, quietState, List.getElem?_map]
    cases s.search.cn[c]? <;> rfl

/-- **C103.**  A recommendation that loops over the children, interleaved with the program at rest, sees one state of the tree. -/
theorem c103_over_children (hr : Reachable env m hash alg code n s0 dp tm tb lg s h) (ha : AtRest s h) {ls : List (Option (Label S A))}
    (hl : ∀ l, some l ∈ ls → l.isEnter = false) {d : Nat} {nd : DNode S A R X} (hd : s.search.dn[d]? = some nd)
    {r r' : Reader S A R X Y} (h0 : overChildren s.search d = some r)
    (hx : readExec env m hash alg code s h r ls = some (s', h', r')) (ht : r'.todo = []) :
    r'.view env m = viewOf env m (quietState id id s.search) nd := by
  obtain ⟨g1, g2, -, -⟩ := reads_all hr ha hl hx ht
  simp only [overChildren, hd, Option.map_some, Option.some.injEq] at h0
  subst h0
  simp only at g1 g2
  have e : r'.seen = kidsY (quietState id id s.search) nd := by
    rw [g2, List.nil_append]
    unfold kidsY
    generalize nd.kids = l
    induction l with
    | nil => rfl
    | cons p l ih =>
      obtain ⟨a, c⟩ := p
      simp only [List.map_cons, List.flatMap_cons, ih, Item.gives]
      cases hc : s.search.cn[c]? with
      | none => simp [quietState, hc]
      | some nc => simp [quietState, hc, LockLevel.mapC]
  simp [Reader.view, ownView, viewOf, g1, e]

/-- `reads` lists everything a turn of the loop depends on: two states that agree on the nodes listed give the same result.  So the theorems about races are not about too
small a set of accesses. -/
theorem c103_reads_complete (r : Reader S A R X Y) {f f' : FSt S A R X Y} (hd : ∀ i, Loc.d i ∈ r.reads f → f'.dn[i]? = f.dn[i]?)
    (hc : ∀ i, Loc.c i ∈ r.reads f → f'.cn[i]? = f.cn[i]?) : r.next f' = r.next f ∧ r.reads f' = r.reads f := by
  unfold Reader.next
  unfold Reader.reads at hd hc ⊢
  cases htd : r.todo with
  | nil => exact ⟨rfl, rfl⟩
  | cons it rest =>
    rw [htd] at hd hc
    cases it with
    | ask a =>
      have h1 := hd r.node (by simp)
      simp only [h1]
      cases hn : f.dn[r.node]? with
      | none => exact by simp
      | some nd =>
        simp only [hn, Option.bind_some] at hc ⊢
        cases hk : find? a nd.kids with
        | none => exact by simp
        | some c =>
          rw [hk] at hc
          simp only [hc c (by simp)]
          simp
    | entry a c =>
      simp only [hc c (by simp)]
      simp

end General

/-- **C103** (partial: one round of reading in backups, at most one mutex of the table).  ... and it is a state that whole visits,
selections and backups, one after the other, lead to. -/
theorem c103_block_partial {S A R X Y : Type} [DecidableEq S] [DecidableEq A] [AddMonoid R] {env : Search.Env S A R} {m : Search.Manager S R}
    {hash : Int × S → Nat} {alg : Search.Alg S A R X Y} {code : LockLevel.Code S A R X Y} {n : Nat} {s0 : S} {dp tm : Int}
    {tb : List ((Int × S) × Option Nat)} {lg : Option Log.Logger} {s s' : St S A R X Y} {h h' : List (Event S A R)}
    (hS : LockLevel.Simulates alg code alg id id 0 0) (hD : code.nD ≤ 1) (hC : code.nC ≤ 1)
    (hm : m.useTable = true → m.numMutexes ≤ 1) (hv : alg.Valid) (htb : Leftover tb)
    (hr : Reachable env m hash alg code n s0 dp tm tb lg s h) (ha : AtRest s h) (hc : s.search.crashed = none)
    {ls : List (Option (Label S A))} (hl : ∀ l, some l ∈ ls → l.isEnter = false) {d : Nat} {nd : DNode S A R X}
    (hd : s.search.dn[d]? = some nd) {r r' : Reader S A R X Y} (h0 : overActions env s.search d = some r)
    (hx : readExec env m hash alg code s h r ls = some (s', h', r')) (ht : r'.todo = []) :
    ∃ st, Search.Reachable env m alg n s0 dp tm tb st (searchPart h) ∧ st.dn[d]? = some nd ∧ SameView (r'.view env m) (viewOf env m st nd) :=
  ⟨_, c81_tree_partial hS hD hC hm hv htb hr ha.2 hc, by simp [quietState, hd, LockLevel.mapD], c103_over_actions hr ha hl hd h0 hx ht⟩

/-! ## The algorithms -/

section Algorithms
variable {S A : Type} [DecidableEq S] [DecidableEq A]

theorem SameView.uct {𝕜 : Type} [Field 𝕜] [LinearOrder 𝕜] {v w : View S A (Uct.Stats 𝕜) (Uct.Stats 𝕜)} (V : SameView v w)
    (cfg : Uct.Cfg S A 𝕜) (lowI : Int) (raw : Nat) (iter : List (A × 𝕜) → List (A × 𝕜)) (iterI : List (A × Int) → List (A × Int)) :
    Uct.recommend cfg lowI v raw iter iterI = Uct.recommend cfg lowI w raw iter iterI := by
  have e1 : v.actions.filterMap (fun a => (Uct.kid v a).map fun y => (a, (y.1 : Int))) =
      w.actions.filterMap (fun a => (Uct.kid w a).map fun y => (a, (y.1 : Int))) := by
    rw [V.actions]
    exact Search.filterMap_congr' fun a hm => by unfold Uct.kid; rw [V.kids a hm]
  have e2 : v.actions.filterMap (fun a => (Uct.kid v a).map fun y => (a, Uct.oppCoeff v * y.2.avg)) =
      w.actions.filterMap (fun a => (Uct.kid w a).map fun y => (a, Uct.oppCoeff w * y.2.avg)) := by
    rw [V.actions]
    exact Search.filterMap_congr' fun a hm => by unfold Uct.kid Uct.oppCoeff; rw [V.kids a hm, V.opp]
  rw [V.actions] at e1 e2
  simp only [Uct.recommend, Uct.recommendVisited, Uct.recommendBest, e1, e2, V.actions]

theorem SameView.visited {X Y : Type} {v w : View S A X Y} (V : SameView v w) (lowI : Int) (raw : Nat)
    (iterI : List (A × Int) → List (A × Int)) : Ments.recommendVisited lowI v raw iterI = Ments.recommendVisited lowI w raw iterI := by
  have e1 : v.actions.filterMap (fun a => (find? a v.kids).map fun y => (a, (y.1 : Int))) =
      w.actions.filterMap (fun a => (find? a w.kids).map fun y => (a, (y.1 : Int))) := by
    rw [V.actions]
    exact Search.filterMap_congr' fun a hm => by rw [V.kids a hm]
  rw [V.actions] at e1
  simp only [Ments.recommendVisited, e1, V.actions]

theorem SameView.mentsQ {X Y : Type} {v w : View S A X Y} (V : SameView v w) (cfg : Ments.Cfg S A) (py : Y → Ments.Soft) {a : A}
    (ha : a ∈ w.actions) : Ments.mentsQ cfg py v a = Ments.mentsQ cfg py w a := by
  simp only [Ments.mentsQ, V.kids a ha, Ments.untriedQ, V.state, V.opp, V.actions]

theorem qList_congr {q q' : A → Except Ments.Bad ℝ} {l : List A} (hq : ∀ a ∈ l, q a = q' a) : Ments.qList q l = Ments.qList q' l := by
  induction l with
  | nil => rfl
  | cons a l ih =>
    simp only [Ments.qList, hq a (by simp), ih fun b hb => hq b (List.mem_cons_of_mem _ hb)]

theorem qList_mem {q : A → Except Ments.Bad ℝ} {l : List A} {qs : List (A × ℝ)} (hq : Ments.qList q l = .ok qs) {p : A × ℝ}
    (hp : p ∈ qs) : p.1 ∈ l := by
  induction l generalizing qs with
  | nil => simp only [Ments.qList, Except.ok.injEq] at hq; subst hq; simp at hp
  | cons a l ih =>
    simp only [Ments.qList] at hq
    split at hq
    · next x l' h1 h2 =>
      simp only [Except.ok.injEq] at hq
      subst hq
      rcases List.mem_cons.1 hp with rfl | hp
      · simp
      · exact List.mem_cons_of_mem _ (ih h2 hp)
    · simp at hq
    · simp at hq

theorem SameView.ments {X Y : Type} {v w : View S A X Y} (V : SameView v w) (cfg : Ments.Cfg S A) (py : Y → Ments.Soft) (lowI : Int)
    (raw : Nat) (iter : List (A × ℝ) → List (A × ℝ)) (iterI : List (A × Int) → List (A × Int)) :
    Ments.recommend cfg (Ments.mentsQ cfg py v) lowI v raw iter iterI = Ments.recommend cfg (Ments.mentsQ cfg py w) lowI w raw iter iterI := by
  have e : Ments.recommendSoft cfg (Ments.mentsQ cfg py v) v raw iter = Ments.recommendSoft cfg (Ments.mentsQ cfg py w) w raw iter := by
    unfold Ments.recommendSoft
    rw [V.actions, qList_congr fun a hm => V.mentsQ cfg py hm]
    cases hq : Ments.qList (Ments.mentsQ cfg py w) w.actions with
    | error e => rfl
    | ok qs =>
      have hm : ∀ p ∈ qs, Ments.metThreshold cfg v p.1 = Ments.metThreshold cfg w p.1 := by
        intro p hp
        unfold Ments.metThreshold
        rw [V.kids _ (qList_mem hq hp)]
      have h1 := List.filter_congr hm
      have h2 := List.filter_congr (fun p hp => congrArg (! ·) (hm p hp))
      simp only [h1, h2]
  unfold Ments.recommend
  rw [e, V.visited]

/-- **C103.**  A UCT or PUCT recommendation made while nothing is running is one for the tree at that time. -/
theorem c103_uct {𝕜 : Type} [Field 𝕜] [LinearOrder 𝕜] {env : Search.Env S A 𝕜} {m : Search.Manager S 𝕜} {hash : Int × S → Nat}
    {alg : Search.Alg S A 𝕜 (Uct.Stats 𝕜) (Uct.Stats 𝕜)} {code : LockLevel.Code S A 𝕜 (Uct.Stats 𝕜) (Uct.Stats 𝕜)} {n : Nat} {s0 : S}
    {dp tm : Int} {tb : List ((Int × S) × Option Nat)} {lg : Option Log.Logger} {s s' : St S A 𝕜 (Uct.Stats 𝕜) (Uct.Stats 𝕜)}
    {h h' : List (Event S A 𝕜)} (hr : Reachable env m hash alg code n s0 dp tm tb lg s h) (ha : AtRest s h)
    {ls : List (Option (Label S A))} (hl : ∀ l, some l ∈ ls → l.isEnter = false) {d : Nat} {nd : DNode S A 𝕜 (Uct.Stats 𝕜)}
    (hd : s.search.dn[d]? = some nd) {r r' : Reader S A 𝕜 (Uct.Stats 𝕜) (Uct.Stats 𝕜)} (h0 : overActions env s.search d = some r)
    (hx : readExec env m hash alg code s h r ls = some (s', h', r')) (ht : r'.todo = [])
    (cfg : Uct.Cfg S A 𝕜) (lowI : Int) (raw : Nat) (iter : List (A × 𝕜) → List (A × 𝕜)) (iterI : List (A × Int) → List (A × Int)) :
    Uct.recommend cfg lowI (r'.view env m) raw iter iterI =
      Uct.recommend cfg lowI (viewOf env m (quietState id id s.search) nd) raw iter iterI := 
  (c103_over_actions hr ha hl hd h0 hx ht).uct cfg lowI raw iter iterI

section
variable {X Y : Type} {env : Search.Env S A ℝ} {m : Search.Manager S ℝ} {hash : Int × S → Nat}
  {alg : Search.Alg S A ℝ X Y} {code : LockLevel.Code S A ℝ X Y} {n : Nat} {s0 : S}
  {dp tm : Int} {tb : List ((Int × S) × Option Nat)} {lg : Option Log.Logger} {s s' : St S A ℝ X Y} {h h' : List (Event S A ℝ)}
  {ls : List (Option (Label S A))} {d : Nat} {nd : DNode S A ℝ X} {r r' : Reader S A ℝ X Y}

/-- **C103.**  The same for MENTS, RENTS and TENTS. -/
theorem c103_ments (hr : Reachable env m hash alg code n s0 dp tm tb lg s h) (ha : AtRest s h) (hl : ∀ l, some l ∈ ls → l.isEnter = false)
    (hd : s.search.dn[d]? = some nd) (h0 : overActions env s.search d = some r)
    (hx : readExec env m hash alg code s h r ls = some (s', h', r')) (ht : r'.todo = [])
    (cfg : Ments.Cfg S A) (py : Y → Ments.Soft) (lowI : Int) (raw : Nat) (iter : List (A × ℝ) → List (A × ℝ))
    (iterI : List (A × Int) → List (A × Int)) :
    Ments.recommend cfg (Ments.mentsQ cfg py (r'.view env m)) lowI (r'.view env m) raw iter iterI =
      Ments.recommend cfg (Ments.mentsQ cfg py (viewOf env m (quietState id id s.search) nd)) lowI
        (viewOf env m (quietState id id s.search) nd) raw iter iterI :=
  (c103_over_actions hr ha hl hd h0 hx ht).ments cfg py lowI raw iter iterI

/-- **C103.**  The same for DB-MENTS: loop over the actions for the most visited one, over the children for the best value. -/
theorem c103_dbments (hr : Reachable env m hash alg code n s0 dp tm tb lg s h) (ha : AtRest s h) (hl : ∀ l, some l ∈ ls → l.isEnter = false)
    (hd : s.search.dn[d]? = some nd) (cfg : Ments.Cfg S A)
    (h0 : (if cfg.mostVisited then overActions env s.search d else overChildren s.search d) = some r)
    (hx : readExec env m hash alg code s h r ls = some (s', h', r')) (ht : r'.todo = [])
    (py : Y → Backups.Dp ℝ) (lowI : Int) (raw : Nat) (iter : List (A × ℝ) → List (A × ℝ)) (iterI : List (A × Int) → List (A × Int)) :
    Dents.recommendDB cfg lowI (r'.view env m) py raw iter iterI =
      Dents.recommendDB cfg lowI (viewOf env m (quietState id id s.search) nd) py raw iter iterI := by
  unfold Dents.recommendDB
  split at h0
  · next hc => rw [if_pos hc, if_pos hc, (c103_over_actions hr ha hl hd h0 hx ht).visited]
  · next hc => rw [if_neg hc, if_neg hc, c103_over_children hr ha hl hd h0 hx ht]

end

/-- **C103.**  The same for DENTS and EST. -/
theorem c103_dents {X : Type} {env : Search.Env S A ℝ} {m : Search.Manager S ℝ} {hash : Int × S → Nat}
    {alg : Search.Alg S A ℝ X Dents.DY} {code : LockLevel.Code S A ℝ X Dents.DY} {n : Nat} {s0 : S}
    {dp tm : Int} {tb : List ((Int × S) × Option Nat)} {lg : Option Log.Logger} {s s' : St S A ℝ X Dents.DY} {h h' : List (Event S A ℝ)}
    {ls : List (Option (Label S A))} {d : Nat} {nd : DNode S A ℝ X} {r r' : Reader S A ℝ X Dents.DY}
    (hr : Reachable env m hash alg code n s0 dp tm tb lg s h) (ha : AtRest s h) (hl : ∀ l, some l ∈ ls → l.isEnter = false)
    (hd : s.search.dn[d]? = some nd) (cfg : Dents.DCfg S A)
    (h0 : (if cfg.mostVisited then overActions env s.search d else overChildren s.search d) = some r)
    (hx : readExec env m hash alg code s h r ls = some (s', h', r')) (ht : r'.todo = [])
    (lowI : Int) (raw : Nat) (iter : List (A × ℝ) → List (A × ℝ)) (iterI : List (A × Int) → List (A × Int)) :
    Dents.recommendDents cfg lowI (r'.view env m) raw iter iterI =
      Dents.recommendDents cfg lowI (viewOf env m (quietState id id s.search) nd) raw iter iterI := by
  unfold Dents.recommendDents
  split at h0
  · next hc => rw [if_pos hc, if_pos hc, (c103_over_actions hr ha hl hd h0 hx ht).visited]
  · next hc => rw [if_neg hc, if_neg hc, c103_over_children hr ha hl hd h0 hx ht]

end Algorithms

/-! ## While trials are running -/

section Running
open ReadToy

theorem readExec_append {S A R X Y : Type} [DecidableEq S] [DecidableEq A] [Add R] [Zero R] {env : Search.Env S A R}
    {m : Search.Manager S R} {hash : Int × S → Nat} {alg : Search.Alg S A R X Y} {code : LockLevel.Code S A R X Y} {s : St S A R X Y}
    {h : List (Event S A R)} {r : Reader S A R X Y} (l1 l2 : List (Option (Label S A))) :
    readExec env m hash alg code s h r (l1 ++ l2) =
      (readExec env m hash alg code s h r l1).bind fun x => readExec env m hash alg code x.1 x.2.1 x.2.2 l2 := by
  induction l1 generalizing s h r with
  | nil => rfl
  | cons o l1 ih =>
    cases o with
    | none => simp only [List.cons_append, readExec]; cases r.next s.search <;> simp [ih]
    | some l => simp only [List.cons_append, readExec]; cases step env m hash alg code s l <;> simp [ih]

theorem readExec_exec {S A R X Y : Type} [DecidableEq S] [DecidableEq A] [Add R] [Zero R] {env : Search.Env S A R}
    {m : Search.Manager S R} {hash : Int × S → Nat} {alg : Search.Alg S A R X Y} {code : LockLevel.Code S A R X Y} {s s' : St S A R X Y}
    {h h' : List (Event S A R)} {r : Reader S A R X Y} {ls : List (Label S A)} (hx : execFrom env m hash alg code s h ls = some (s', h')) :
    readExec env m hash alg code s h r (ls.map some) = some (s', h', r) := by
  induction ls generalizing s h with
  | nil =>
    simp only [execFrom, Option.some.injEq, Prod.mk.injEq] at hx
    obtain ⟨rfl, rfl⟩ := hx
    rfl
  | cons l ls ih =>
    simp only [execFrom] at hx
    cases hst : step env m hash alg code s l with
    | none => rw [hst] at hx; simp at hx
    | some x =>
      rw [hst] at hx
      simp only [List.map_cons, readExec, hst]
      exact ih hx

theorem any_some {α : Type} {o : Option α} {P : α → Bool} (h : o.any P = true) : ∃ x, o = some x ∧ P x = true := by
  cases o with
  | none => simp at h
  | some x => exact ⟨x, rfl, by simpa using h⟩

theorem toy_race (ls : List (Nat × LockLevel.FChoice Nat Nat)) (l : Loc)
    (hp : (start ls).any (fun p => p.1.crashed.isNone && ((overActions ReadToy.env p.1 p.1.root).any fun r => decide (l ∈ r.reads p.1)) &&
      decide (l ∈ followReads p.1 p.1.root 0) &&
      (p.1.ws.head?).any fun pc => decide ((l, true) ∈ accesses pc)) = true) :
    ∃ s h r, Reachable ReadToy.env mgr LockLevel.Toy.hash ReadToy.alg ReadToy.code 1 0 0 0 [] none s h ∧ s.pool.cl = .idle ∧ s.entry = none ∧
      overActions ReadToy.env s.search s.search.root = some r ∧ l ∈ r.reads s.search ∧ ReadRace s.search (r.reads s.search) ∧
      ReadRace s.search (followReads s.search s.search.root 0) := by
  obtain ⟨⟨f, hf⟩, e, hp⟩ := any_some hp
  simp only [Bool.and_eq_true, Option.isNone_iff_eq_none] at hp
  obtain ⟨⟨⟨hc, h1⟩, h5⟩, h2⟩ := hp
  obtain ⟨r, e1, h3⟩ := any_some h1
  obtain ⟨pc, e2, h4⟩ := any_some h2
  obtain ⟨s, h, hr, L⟩ := lift_reach (env := ReadToy.env) (m := mgr) (hash := LockLevel.Toy.hash) (alg := ReadToy.alg) (code := ReadToy.code)
    (n := 1) (s0 := 0) (dp := 0) (tm := 0) (tb := []) false ⟨ls, e⟩ hc 0 (by omega)
  have hs := L.search
  subst hs
  refine ⟨s, h, r, hr, L.cl, L.entry, e1, of_decide_eq_true h3, ⟨0, pc, l, ?_, of_decide_eq_true h3, of_decide_eq_true h4⟩,
    ⟨0, pc, l, ?_, of_decide_eq_true h5, of_decide_eq_true h4⟩⟩ <;>
  rwa [← List.head?_eq_getElem?]

/-- **C103** is false while trials are running: after a non-blocking `run_trials` of a UCT search the client is free to ask for a
recommendation while a worker is about to count its visit of the root, whose map of children and visit count are being read,
or to follow an action through the tree (`EvalPolicy::update_step`), ... -/
theorem c103_race_false : ∃ s h r, Reachable ReadToy.env mgr LockLevel.Toy.hash ReadToy.alg ReadToy.code 1 0 0 0 [] none s h ∧
    s.pool.cl = .idle ∧ s.entry = none ∧ overActions ReadToy.env s.search s.search.root = some r ∧ Loc.d 0 ∈ r.reads s.search ∧
    ReadRace s.search (r.reads s.search) ∧ ReadRace s.search (followReads s.search s.search.root 0) :=
  toy_race (first ++ (oldTrial 0).take 2) _ (by decide +kernel)

/-- ... or is about to count its visit of the child that is being read. -/
theorem c103_child_race_false : ∃ s h r, Reachable ReadToy.env mgr LockLevel.Toy.hash ReadToy.alg ReadToy.code 1 0 0 0 [] none s h ∧
    s.pool.cl = .idle ∧ s.entry = none ∧ overActions ReadToy.env s.search s.search.root = some r ∧ Loc.c 0 ∈ r.reads s.search ∧
    ReadRace s.search (r.reads s.search) ∧ ReadRace s.search (followReads s.search s.search.root 0) :=
  toy_race (first ++ (oldTrial 0).take 7) _ (by decide +kernel)

/-- The view of the root. -/
def rootView (f : F) : Option (View Nat Nat (Uct.Stats ℚ) (Uct.Stats ℚ)) :=
  (f.dn[f.root]?).map fun nd => viewOf ReadToy.env mgr (quietState id id f) nd

/-- A node with two children, visited `a` and `b` times. -/
def Counts (v : View Nat Nat (Uct.Stats ℚ) (Uct.Stats ℚ)) (a b : Int) : Bool :=
  decide (v.actions.filterMap (fun x => (Uct.kid v x).map fun y => (x, (y.1 : Int))) = [(0, a), (1, b)])

theorem getMaxKey_two {a b low : Int} {raw : Nat} {iter : List (Nat × Int) → List (Nat × Int)} (hi : Uct.IterOk iter) (ha : low ≤ a) (hb : low ≤ b) :
    (b < a → Sampling.getMaxKey low (iter [(0, a), (1, b)]) raw = some 0) ∧
    (a < b → Sampling.getMaxKey low (iter [(0, a), (1, b)]) raw = some 1) := by
  obtain ⟨k, h1, h2⟩ := Sampling.c22_returns_maximiser low (iter [(0, a), (1, b)]) raw ⟨(0, a), (hi _ _).2 (by simp), ha⟩
  obtain ⟨v, h3, h4⟩ := (Uct.isBest_iter hi).1 h2
  have h5 := h4 (0, a) (by simp)
  have h6 := h4 (1, b) (by simp)
  simp only [List.mem_cons, Prod.mk.injEq, List.not_mem_nil, or_false] at h3
  rw [h1]
  constructor <;> intro hlt <;> rcases h3 with ⟨rfl, rfl⟩ | ⟨rfl, rfl⟩ <;> simp at * <;> omega

/-- Action `a` is the one recommended, whatever the random numbers and the orders of iteration. -/
def Recommends (v : View Nat Nat (Uct.Stats ℚ) (Uct.Stats ℚ)) (a : Nat) : Prop :=
  ∀ raw iter iterI, Uct.IterOk iterI → Uct.recommend ReadToy.cfg (-2147483648) v raw iter iterI = some a

theorem recommends {v : View Nat Nat (Uct.Stats ℚ) (Uct.Stats ℚ)} {a b : Nat} (h : Counts v a b = true) :
    (b < a → Recommends v 0) ∧ (a < b → Recommends v 1) := by
  have h := of_decide_eq_true h
  constructor <;> intro hlt raw iter iterI hi <;>
  · unfold Uct.recommend Uct.recommendVisited
    simp only [show ReadToy.cfg.mostVisited = true from rfl, if_true, h, List.length_cons, List.length_nil, Nat.reduceAdd, OfNat.ofNat_ne_zero, if_false]
    have := getMaxKey_two (a := a) (b := b) (low := -2147483648) (raw := raw) hi (by omega) (by omega)
    first | exact this.1 (by omega) | exact this.2 (by omega)

/-- **C103** is false while trials are running: after a non-blocking `run_trials` of a UCT search that recommends the most visited
action, an action can be recommended that was recommended neither by the tree at the beginning nor by the tree at the end of the call:
the count of the first child is read early, that of the second one late. -/
theorem c103_torn_false : ∃ s h r v s' h' r' v' ls,
    Reachable ReadToy.env mgr LockLevel.Toy.hash ReadToy.alg ReadToy.code 1 0 0 0 [] none s h ∧ s.pool.cl = .idle ∧ s.entry = none ∧
    overActions ReadToy.env s.search s.search.root = some r ∧
    readExec ReadToy.env mgr LockLevel.Toy.hash ReadToy.alg ReadToy.code s h r ls = some (s', h', r') ∧ r'.todo = [] ∧
    s'.pool.cl = .idle ∧ s'.entry = none ∧
    rootView s.search = some v ∧ Recommends v 0 ∧ rootView s'.search = some v' ∧ Recommends v' 0 ∧
    Recommends (r'.view ReadToy.env mgr) 1 := by
  have key : (start first).any (fun p => (goOn p second).any fun q => p.1.crashed.isNone && q.1.crashed.isNone &&
      (rootView p.1).any (fun v => Counts v (2 : Nat) (1 : Nat)) && (rootView q.1).any (fun v => Counts v (4 : Nat) (3 : Nat)) &&
      (overActions ReadToy.env p.1 p.1.root).any fun r => (r.next p.1).any fun r1 => (r1.next q.1).any fun r2 =>
        decide (r2.todo = []) && Counts (r2.view ReadToy.env mgr) (2 : Nat) (3 : Nat)) = true := by decide +kernel
  obtain ⟨⟨f, hf⟩, e, key⟩ := any_some key
  obtain ⟨⟨f', hf'⟩, e', key⟩ := any_some key
  simp only [Bool.and_eq_true, Option.isNone_iff_eq_none] at key
  obtain ⟨⟨⟨⟨hc, hc'⟩, k1⟩, k2⟩, k3⟩ := key
  obtain ⟨v, ev, j1⟩ := any_some k1
  obtain ⟨v', ev', j2⟩ := any_some k2
  obtain ⟨r, er, k4⟩ := any_some k3
  obtain ⟨r1, er1, k5⟩ := any_some k4
  obtain ⟨r2, er2, j3⟩ := any_some k5
  simp only [Bool.and_eq_true, decide_eq_true_eq] at j3
  obtain ⟨s, h, hr, L⟩ := lift_reach (env := ReadToy.env) (m := mgr) (hash := LockLevel.Toy.hash) (alg := ReadToy.alg) (code := ReadToy.code)
    (n := 1) (s0 := 0) (dp := 0) (tm := 0) (tb := []) false ⟨first, e⟩ hc (0 + second.length) (by omega)
  obtain ⟨ls, s', h', hx, L'⟩ := lift_path 0 (by omega) hc' second s h _ _ hr L e'
  have hs := L.search
  have hs' := L'.search
  subst hs
  subst hs'
  refine ⟨s, h, r, v, s', h', r2, v', none :: (ls.map some ++ [none]), hr, L.cl, L.entry, er, ?_, j3.1, L'.cl, L'.entry, ev,
    (recommends j1).1 (by omega), ev', (recommends j2).1 (by omega), (recommends j3.2).2 (by omega)⟩
  simp only [readExec, er1, readExec_append, readExec_exec hx, Option.bind_some, er2]

/-- At rest after a blocking `run_trials(2)` that has tried both actions; a recommendation reads the two children, and in between the
clock ticks and the client calls `join` once more. -/
example : ∃ s h r s' h' r' ls, Reachable ReadToy.env mgr LockLevel.Toy.hash ReadToy.alg ReadToy.code 1 0 0 0 [] none s h ∧ AtRest s h ∧
    numCompleted h = 2 ∧ overActions ReadToy.env s.search s.search.root = some r ∧
    readExec ReadToy.env mgr LockLevel.Toy.hash ReadToy.alg ReadToy.code s h r ls = some (s', h', r') ∧ r'.todo = [] ∧
    (∀ l, some l ∈ ls → l.isEnter = false) ∧ ls.length = 4 ∧ Counts (r'.view ReadToy.env mgr) 1 1 = true := by
  have key : (execFrom ReadToy.env mgr LockLevel.Toy.hash ReadToy.alg ReadToy.code (init ReadToy.env mgr ReadToy.alg 1 0 0 0 [] none) []
      ([.enter 2 none true, .run, .run, .pool .client] ++ List.replicate 4 (.pool (.worker 0)) ++ (newTrial 0).map (fun p => .search p.1 p.2) ++
        List.replicate 5 (.pool (.worker 0)) ++ (newTrial 1).map (fun p => .search p.1 p.2) ++ List.replicate 5 (.pool (.worker 0)) ++
        List.replicate 2 (.pool .client))).any (fun p => decide (p.1.entry = none) && Pool.settled (poolPart p.2) &&
      decide (numCompleted p.2 = 2) && (overActions ReadToy.env p.1.search p.1.search.root).any fun r =>
        (readExec ReadToy.env mgr LockLevel.Toy.hash ReadToy.alg ReadToy.code p.1 p.2 r [none, some (.pool .tick), some (.pool .join), none]).any
          fun q => decide (q.2.2.todo = []) && Counts (q.2.2.view ReadToy.env mgr) 1 1) = true := by decide +kernel
  obtain ⟨⟨s, h⟩, e, key⟩ := any_some key
  simp only [Bool.and_eq_true, decide_eq_true_eq] at key
  obtain ⟨⟨⟨k1, k2⟩, k3⟩, k4⟩ := key
  obtain ⟨r, er, k5⟩ := any_some k4
  obtain ⟨⟨s', h', r'⟩, ex, k6⟩ := any_some k5
  simp only [Bool.and_eq_true, decide_eq_true_eq] at k6
  exact ⟨s, h, r, s', h', r', _, ⟨_, e⟩, ⟨k1, k2⟩, k3, er, ex, k6.1, by simp [Label.isEnter], rfl, k6.2⟩

end Running

end Verif.Prog
