import Verif.Proofs.LockAccess
import Verif.Spec.LockToy

/-! # C78: no data races inside the search -/

namespace Verif.LockLevel

open Verif.Search

variable {S A R X Y : Type} [DecidableEq S] [DecidableEq A] [Add R] [Zero R] {env : Env S A R} {m : Manager S R} {hash : Int × S → Nat}
  {alg : Alg S A R X Y} {code : Code S A R X Y} {k : Nat} {s0 : S} {dp tm : Int} {tb : List ((Int × S) × Option Nat)}

/-- **C78** (partial: at most one table mutex, or no table).  Whatever the schedule, the environment and the algorithm, two
workers are never about to access the same node, or the table, with one of them writing. -/
theorem c78_no_data_race_partial (hm : m.useTable = true → m.numMutexes ≤ 1) {f : FSt S A R X Y} {h : List (Event S A R)}
    (hr : FReachable env m hash alg code k s0 dp tm tb f h) : ¬ Race f := no_race (linv_reach hr) hm

/-- Nodes are protected with any number of table mutexes: a race can only be about the table. -/
theorem c78_races_only_on_table {f : FSt S A R X Y} {h : List (Event S A R)} (hr : FReachable env m hash alg code k s0 dp tm tb f h)
    {w1 w2 : Nat} {p1 p2 : Pc S A R X Y} {l : Loc} {b1 b2 : Bool} (hne : w1 ≠ w2) (h1 : f.ws[w1]? = some p1) (h2 : f.ws[w2]? = some p2)
    (ha1 : (l, b1) ∈ accesses p1) (ha2 : (l, b2) ∈ accesses p2) : l = .table := by
  have I := linv_reach hr
  have q1 := access_protected (I.ok _ _ h1) ha1
  have q2 := access_protected (I.ok _ _ h2) ha2
  have key : ∀ x, x ∈ holds p1 → x ∈ holds p2 → False := by
    intro x hx1 hx2
    have g1 := I.own _ _ h1 x hx1
    have g2 := I.own _ _ h2 x hx2
    rw [g1] at g2
    exact hne (by simpa using g2)
  cases l with
  | d i => exact (key _ q1 q2).elim
  | c i => exact (key _ q1 q2).elim
  | table => rfl

/-- With two table mutexes there is a run in which one worker is about to insert into the table while another one looks something up
in it: the mutexes are chosen by key (thts_chance_node.cpp:111-116), but there is only one hash map. -/
theorem c78_table_race : ∃ f h, FReachable Search.Toy.env (Search.Toy.mgr false true 2) Toy.hash Search.Toy.alg Toy.code 2 0 0 0 [] f h ∧
    Race f := by
  obtain ⟨f, h, hr, hp⟩ := Toy.run (cd := Toy.code) (table := true) (mutexes := 2)
    (Toy.toTable 0 0 1 ++ Toy.toTable 1 1 2 ++ [(0, .go), (0, .go)])
    (fun f _ => decide (f.ws = [.post (.sel 1 [(0, 0)] [1] true) [.ins (0, 1) 1, .rel (.t 1), .rel (.c 0)],
      .tab (.samp 0 1 1 [] [] false) 2 0])) (by decide +kernel)
  refine ⟨f, h, hr, 0, 1, .post (.sel 1 [(0, 0)] [1] true) [.ins (0, 1) 1, .rel (.t 1), .rel (.c 0)], .tab (.samp 0 1 1 [] [] false) 2 0,
    .table, true, false, by decide, ?_, ?_, ?_, ?_, .inl rfl⟩
  · simp at hp; simp [hp]
  · simp at hp; simp [hp]
  · simp [accesses]
  · simp [accesses]

/-- `accesses` lists everything: changing the visit count, the children or the data of a decision node that is not listed neither
changes what the step does nor is undone by it. -/
theorem c78_accesses_complete_d {f : FSt S A R X Y} {w : Nat} {ch : FChoice S A} {pc : Pc S A R X Y} {i : Nat}
    {visits : Nat → Nat} {kids : List (A × Nat) → List (A × Nat)} {x : X → X} (hw : f.ws[w]? = some pc) (hi : i < f.dn.length)
    (ha : ∀ b, (Loc.d i, b) ∉ accesses pc) :
    let u := fun nd : DNode S A R X => { nd with visits := visits nd.visits, kids := kids nd.kids, x := x nd.x }
    fstep env m hash alg code { f with dn := f.dn.modify i u } w ch =
      (fstep env m hash alg code f w ch).map fun r => ({ r.1 with dn := r.1.dn.modify i u }, r.2) :=
  fstep_modD hw hi (fun _ => rfl) ha

/-- The same for chance nodes. -/
theorem c78_accesses_complete_c {f : FSt S A R X Y} {w : Nat} {ch : FChoice S A} {pc : Pc S A R X Y} {i : Nat}
    {visits : Nat → Nat} {kids : List (S × Nat) → List (S × Nat)} {y : Y → Y} (hw : f.ws[w]? = some pc) (hi : i < f.cn.length)
    (ha : ∀ b, (Loc.c i, b) ∉ accesses pc) :
    let u := fun nc : CNode S A R Y => { nc with visits := visits nc.visits, kids := kids nc.kids, y := y nc.y }
    fstep env m hash alg code { f with cn := f.cn.modify i u } w ch =
      (fstep env m hash alg code f w ch).map fun r => ({ r.1 with cn := r.1.cn.modify i u }, r.2) :=
  fstep_modC hw hi ha

/-- The same for the table. -/
theorem c78_accesses_complete_table {f : FSt S A R X Y} {w : Nat} {ch : FChoice S A} {pc : Pc S A R X Y}
    {u : List ((Int × S) × Option Nat) → List ((Int × S) × Option Nat)} (hw : f.ws[w]? = some pc)
    (ha : ∀ b, (Loc.table, b) ∉ accesses pc) :
    fstep env m hash alg code { f with table := u f.table } w ch =
      (fstep env m hash alg code f w ch).map fun r => ({ r.1 with table := u r.1.table }, r.2) :=
  fstep_modT hw ha

/-- A mutex has at most one owner, who is inside a block that took it. -/
theorem c78_mutual_exclusion {f : FSt S A R X Y} {h : List (Event S A R)} (hr : FReachable env m hash alg code k s0 dp tm tb f h)
    {w1 w2 : Nat} {p1 p2 : Pc S A R X Y} {l : Lk} (h1 : f.ws[w1]? = some p1) (h2 : f.ws[w2]? = some p2) (hl1 : l ∈ holds p1)
    (hl2 : l ∈ holds p2) : w1 = w2 := by
  have I := linv_reach hr
  have g1 := I.own _ _ h1 l hl1
  have g2 := I.own _ _ h2 l hl2
  rw [g1] at g2
  simpa using g2

/-- Two workers inside blocks at the same time: one reads children of the root, the other one is about to visit a chance node. -/
example : ∃ f h, FReachable Search.Toy.env (Search.Toy.mgr false true 1) Toy.hash Search.Toy.alg Toy.codeR 2 0 0 0 [] f h ∧
    f.ws.map (fun p => (accesses p).length) = [1, 1] ∧ ¬ Race f := by
  obtain ⟨f, h, hr, hp⟩ := Toy.run (cd := Toy.codeR) (table := true) (mutexes := 1)
    ([(0, .go), (0, .go), (0, .go), (0, .order []), (0, .go), (0, .act 0), (0, .go), (0, .go), (0, .go)] ++
     [(1, .go), (1, .go), (1, .go), (1, .order [0]), (1, .go), (1, .go), (1, .go), (1, .act 1), (1, .go), (1, .go), (1, .go), (1, .go),
       (0, .go), (1, .go)])
    (fun f _ => decide (f.ws.map (fun p => (accesses p).length) = [1, 1])) (by decide +kernel)
  exact ⟨f, h, hr, by simpa using hp, c78_no_data_race_partial (by simp [Search.Toy.mgr]) hr⟩

end Verif.LockLevel
