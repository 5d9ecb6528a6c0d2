import Verif.Proofs.MemoryStack
import Verif.Props.Search
import Verif.Props.Live
import Verif.Props.Program
import Verif.Spec.Memory
import Verif.Spec.SearchToy

/-!
# C82: the memory of a tree

`drop k s x` is the destructor of a `shared_ptr`, with room for `k` nested destructors on the stack.  Handles are whatever
`shared_ptr`s to nodes or the manager are held from outside of the tree: those of the client, the pool and the running trials.
-/

set_option linter.unusedSectionVars false

namespace Verif.Mem

open Verif Verif.Search

section
variable {S A R X Y : Type} [DecidableEq S] [DecidableEq A] [AddMonoid R]
variable {env : Env S A R} {m : Manager S R} {alg : Alg S A R X Y} {n : Nat} {s0 : S} {dp tm : Int} {tb : List ((Int × S) × Option Nat)}
  {st : Search.St S A R X Y} {h : List (Event S A R)} {xs hs : List Obj} {k : Nat} {s : Mem}

/-! ## What is destroyed, and when -/

/-- **C82**.  When some of the handles of a tree are released, what stays alive is exactly what can be reached, through children, from the
other handles.  Everything else is destroyed, each object once. -/
theorem c82_release (hv : alg.Valid) (htb : Leftover tb) (hr : Search.Reachable env m alg n s0 dp tm tb st h) (hroot : .d st.root ∈ xs ++ hs)
    (hex : ∀ x ∈ xs ++ hs, Exists st x) (hd : xs.foldlM (drop k) (memOf st (xs ++ hs)) = .ok s) :
    (∀ x, s.alive x = true ↔ Needed st hs x) ∧ s.freed.Nodup ∧ (∀ x, x ∈ s.freed ↔ Exists st x ∧ ¬ Needed st hs x) :=
  release (reach_inv hv htb hr).tree hroot hex hd

/-- **C82**.  No destroyed object is ever touched while handles are released: there is no double free, whatever the stack. -/
theorem c82_no_double_free (hv : alg.Valid) (htb : Leftover tb) (hr : Search.Reachable env m alg n s0 dp tm tb st h)
    (hroot : .d st.root ∈ xs ++ hs) (hex : ∀ x ∈ xs ++ hs, Exists st x) :
    xs.foldlM (drop k) (memOf st (xs ++ hs)) ≠ .error .dangling :=
  dropAll_safe xs _ (memOf_acc (reach_inv hv htb hr).tree hroot hex)

/-- **C82**.  Nothing leaks: when all handles are gone, all nodes and the manager have been destroyed, each once. -/
theorem c82_no_leak (hv : alg.Valid) (htb : Leftover tb) (hr : Search.Reachable env m alg n s0 dp tm tb st h) (hroot : .d st.root ∈ xs)
    (hex : ∀ x ∈ xs, Exists st x) (hd : xs.foldlM (drop k) (memOf st xs) = .ok s) :
    s.heap = [] ∧ ∀ x, s.freed.count x = 1 ↔ Exists st x := by
  obtain ⟨h1, h2, h3⟩ := c82_release (xs := xs) (hs := []) hv htb hr (by simpa using hroot) (by simpa using hex) (by simpa using hd)
  have hn : ∀ x, ¬ Needed st [] x := by rintro x ⟨y, hy, -⟩; simp at hy
  refine ⟨?_, ?_⟩
  · rw [List.eq_nil_iff_forall_not_mem]
    rintro ⟨x, c⟩ hx
    refine hn x ((h1 x).1 ?_)
    rw [alive_mem]
    exact List.mem_map.2 ⟨_, hx, rfl⟩
  · intro x
    constructor
    · intro hc
      exact ((h3 x).1 (List.count_pos_iff.1 (by omega))).1
    · intro hx
      exact List.count_eq_one_of_mem h2 ((h3 x).2 ⟨hx, hn x⟩)

/-- **C82**.  A running trial keeps the nodes it works on: they exist, and they, and all below them, survive whatever others release. -/
theorem c82_trials_keep_their_nodes (hv : alg.Valid) (htb : Leftover tb) (hr : Search.Reachable env m alg n s0 dp tm tb st h) {w : Nat}
    {p : Phase S A R} (hw : st.ws[w]? = some p) :
    (∀ x ∈ localHandles p, Exists st x) ∧
    (.d st.root ∈ xs ++ hs → (∀ x ∈ xs ++ hs, Exists st x) → xs.foldlM (drop k) (memOf st (xs ++ hs)) = .ok s → (∀ x ∈ localHandles p, x ∈ hs) →
      ∀ x ∈ localHandles p, ∀ y, Relation.ReflTransGen (Holds st) x y → s.alive y = true) := by
  refine ⟨local_exists (reach_inv hv htb hr) hw, ?_⟩
  intro h1 h2 h3 h4 x hx y hy
  exact ((c82_release hv htb hr h1 h2 h3).1 y).2 ⟨x, h4 x hx, hy⟩

/-! ## The stack -/

/-- **C82** (partial).  Releasing handles succeeds if the stack has room for two nested destructors per level of the tree up to the depth limit.
Missing: a bound that does not depend on the depth limit; there is none, see `c82_stack_false`. -/
theorem c82_stack_partial (hv : alg.Valid) (htb : Leftover tb) (hr : Search.Reachable env m alg n s0 dp tm tb st h) (hroot : .d st.root ∈ xs ++ hs)
    (hex : ∀ x ∈ xs ++ hs, Exists st x) (hdp : dp ≤ m.maxDepth) (hk : 2 * (m.maxDepth - dp).toNat + 3 ≤ k) :
    ∃ s, xs.foldlM (drop k) (memOf st (xs ++ hs)) = .ok s :=
  release_ok (reach_inv hv htb hr).tree hroot hex (fun _ _ hd => c09_depth_limit hv htb hr hdp hd) hk

/-- **C82**.  Without the transposition table: if somebody holds the root and nobody else any node, releasing the root needs room for two nested
destructors per level, down to the deepest node that a path leads to. -/
theorem c82_stack_needed (hv : alg.Valid) (htb : Leftover tb) (hr : Search.Reachable env m alg n s0 dp tm tb st h) (ht : m.useTable = false)
    (hhs : ∀ x ∈ hs, x = .mgr) {ss : List (Step S A R)} {e : Nat} (hp : IsPath env st st.root ss e) (hk : k ≤ 2 * ss.length) :
    drop k (memOf st (.d st.root :: hs)) (.d st.root) = .error .overflow := by
  have T := (reach_inv hv htb hr).tree
  cases hd : drop k (memOf st (.d st.root :: hs)) (.d st.root) with
  | ok s => have := stack_lower T ht hhs hd hp; omega
  | error e =>
    cases e with
    | overflow => rfl
    | dangling =>
      refine absurd hd (drop_safe k _ _ hs (memOf_acc T (by simp) ?_))
      intro x hx
      rcases List.mem_cons.1 hx with rfl | hx
      · obtain ⟨r, h3, -⟩ := T.heap.root
        have := (List.getElem?_eq_some_iff.1 h3).1
        rw [T.root]
        simpa [Exists] using this
      · rw [hhs x hx]; trivial

/-- **C82**.  In an environment without sinks, without mcts mode and without the table, a single trial can make a tree, at rest, whose
destruction by the pool overflows a stack with room for less than two destructors per level of the depth limit. -/
theorem c82_deep_tree (hl : env.Live) (hsink : ∀ x, env.isSink x = false) (hv : alg.Valid) (htb : Leftover tb) (ht : m.useTable = false)
    (hm : m.mctsMode = false) (hs : Selects env m alg n s0 dp tm tb) (hdp : dp ≤ m.maxDepth) (hn : 0 < n) :
    ∃ st h, Search.Reachable env m alg n s0 dp tm tb st h ∧ Quiescent st ∧
      ∀ k : Nat, (k : Int) ≤ 2 * (m.maxDepth - dp) → (poolHandles st).foldlM (drop k) (memOf st (poolHandles st ++ [.mgr])) = .error .overflow := by
  have tok : TableOk m tb := by intro h; simp [ht] at h
  have r0 : Search.Reachable env m alg n s0 dp tm tb (init env m alg n s0 dp tm tb) [] := ⟨[], rfl⟩
  obtain ⟨st1, ext, r1, h1⟩ := c74_any_number_of_trials hl hv htb tok hs hdp r0 hn 1
  obtain ⟨ls, st2, ext2, h2, h3, -⟩ := c74_can_finish hl hv htb tok hs hdp r1
  have r2 := reach_append r1 h2
  obtain ⟨w, hw⟩ : ∃ w, Event.completed w ∈ ext := by
    have : 0 < trialsCompleted ext := h1
    obtain ⟨e, he, hp⟩ := List.countP_pos_iff.1 this
    cases e <;> simp at hp
    exact ⟨_, he⟩
  obtain ⟨ss, e, nd, g1, g2, g3⟩ := completed_leaf hv htb hm r2 (w := w) (by simp [hw])
  refine ⟨st2, _, r2, h3, ?_⟩
  intro k hk
  have T := (reach_inv hv htb r2).tree
  obtain ⟨r, hr0, -, hrd, -⟩ := T.heap.root
  simp only [List.getElem?_map, Option.map_eq_some_iff] at hr0
  obtain ⟨nr, hr0, rfl⟩ := hr0
  have hlen := path_depth T ss st2.root e nr nd g1 (by rw [T.root]; exact hr0) g2
  have hdeep : m.maxDepth ≤ nd.depth := by simpa [isLeaf, hsink] using g3
  simp only [DNode.skel] at hrd
  have := c82_stack_needed hv htb r2 ht (hs := [.mgr, .mgr]) (by simp) g1 (k := k) (by omega)
  simp only [poolHandles, List.cons_append, List.nil_append, List.foldlM_cons, this]
  rfl

/-! ## The transposition table, and the next tree -/

/-- **C82**.  The table keeps no node alive: an entry is valid as long as its node can be reached from a handle. -/
theorem c82_table (hv : alg.Valid) (htb : Leftover tb) (hr : Search.Reachable env m alg n s0 dp tm tb st h) (hroot : .d st.root ∈ xs ++ hs)
    (hex : ∀ x ∈ xs ++ hs, Exists st x) (hd : xs.foldlM (drop k) (memOf st (xs ++ hs)) = .ok s) (key : Int × S) (i : Nat) :
    (key, some i) ∈ expire s st.table ↔ (key, some i) ∈ st.table ∧ Needed st hs (.d i) := by
  rw [← (c82_release hv htb hr hroot hex hd).1]
  simp only [expire, List.mem_map, Prod.mk.injEq, Option.filter_eq_some_iff]
  constructor
  · rintro ⟨⟨k', v⟩, h1, rfl, h2, h3⟩
    simp only at h2
    subst h2
    exact ⟨h1, h3⟩
  · rintro ⟨h1, h2⟩
    exact ⟨_, h1, rfl, rfl, h2⟩

theorem needed_mgr {x : Obj} : Needed st [.mgr] x ↔ x = .mgr := by
  constructor
  · rintro ⟨y, hy, hr⟩
    rw [List.mem_singleton] at hy
    subst hy
    rcases Relation.ReflTransGen.cases_head hr with h | ⟨z, h, -⟩
    · exact h.symm
    · cases h
  · rintro rfl
    exact ⟨.mgr, by simp, .refl⟩

theorem pool_exist (hv : alg.Valid) (htb : Leftover tb) (hr : Search.Reachable env m alg n s0 dp tm tb st h) :
    ∀ x ∈ poolHandles st ++ [.mgr], Exists st x := by
  have T := (reach_inv hv htb hr).tree
  obtain ⟨r, h3, -⟩ := T.heap.root
  have := (List.getElem?_eq_some_iff.1 h3).1
  intro x hx
  simp only [poolHandles, List.cons_append, List.nil_append, List.mem_cons, List.not_mem_nil, or_false] at hx
  rcases hx with rfl | rfl | rfl
  · rw [T.root]; simpa [Exists] using this
  · trivial
  · trivial

theorem expire_all (hv : alg.Valid) (htb : Leftover tb) (hr : Search.Reachable env m alg n s0 dp tm tb st h)
    (hd : (poolHandles st).foldlM (drop k) (memOf st (poolHandles st ++ [.mgr])) = .ok s) :
    expire s st.table = st.table.map fun p => (p.1, none) := by
  have R := (c82_release hv htb hr (by simp [poolHandles]) (pool_exist hv htb hr) hd).1
  refine List.map_congr_left ?_
  intro p _
  have : ∀ i, s.alive (.d i) = false := by
    intro i
    rw [Bool.eq_false_iff, Ne, R, needed_mgr]
    simp
  simp [this]

/-- **C82**.  Whatever trees were built and destroyed with a manager before, its table holds expired entries only: so every theorem about
searches that begin with a table of leftovers (`Leftover`) applies to every tree in turn. -/
theorem c82_history (hv : alg.Valid) (H : History env m alg tb) : Leftover tb := by
  induction H with
  | fresh => simp [Leftover]
  | next hist tree destroyed ih =>
    rw [expire_all hv ih tree destroyed]
    intro p hp
    obtain ⟨q, -, rfl⟩ := List.mem_map.1 hp
    rfl

/-- **C82**.  After a tree that used the table has been destroyed, the next tree of the same manager finds an expired entry for every
key that was looked up. -/
theorem c82_leftovers (hv : alg.Valid) (H : History env m alg tb) (hr : Search.Reachable env m alg n s0 dp tm tb st h)
    (hd : (poolHandles st).foldlM (drop k) (memOf st (poolHandles st ++ [.mgr])) = .ok s) (key : Int × S) :
    find? key (expire s st.table) = (find? key st.table).map fun _ => none := by
  rw [expire_all hv (c82_history hv H) hr hd]
  generalize st.table = l
  induction l with
  | nil => rfl
  | cons p l ih =>
    simp only [List.map_cons, find?]
    split <;> simp_all

end

/-! ## The whole program -/

section
variable {S A R X Y : Type} [DecidableEq S] [DecidableEq A] [AddMonoid R]
variable {env : Env S A R} {m : Manager S R} {hash : Int × S → Nat} {alg : Alg S A R X Y} {code : LockLevel.Code S A R X Y}
variable {n : Nat} {s0 : S} {dp tm : Int} {tb : List ((Int × S) × Option Nat)} {lg : Option Log.Logger} {p : Prog.St S A R X Y}
  {h : List (Prog.Event S A R)}

/-- **C82** (partial: at most one mutex of the table).  When `join` has returned, the pool and the last handle of the manager can be released,
with a stack for the depth limit, and then nothing is left of the tree or the manager. -/
theorem c82_program_partial (hv : alg.Valid) (hb : ∀ v as ctx a, code.selBlind v as ctx a = true → a ∈ v.actions)
    (hctx : ∀ v ctx a, alg.selCtx v ctx a = ctx) (hm : m.useTable = true → m.numMutexes ≤ 1) (htb : Leftover tb)
    (hr : Prog.Reachable env m hash alg code n s0 dp tm tb lg p h) (hs : Pool.settled (Prog.poolPart h) = true) (hc : p.search.crashed = none)
    (hdp : dp ≤ m.maxDepth) {k : Nat} (hk : 2 * (m.maxDepth - dp).toNat + 3 ≤ k) :
    let st : Search.St S A R Unit Unit := LockLevel.quietState (fun _ => ()) (fun _ => ()) p.search
    ∃ s : Mem, (poolHandles st ++ [Obj.mgr]).foldlM (drop k) (memOf st (poolHandles st ++ [Obj.mgr])) = .ok s ∧ s.heap = [] ∧
      (∀ i < p.search.dn.length, s.freed.count (.d i) = 1) ∧ (∀ i < p.search.cn.length, s.freed.count (.c i) = 1) ∧ s.freed.count .mgr = 1 := by
  intro st
  obtain ⟨h', hr', -⟩ := LockLevel.c79_tree_atomic_partial hv hb hctx hm htb (Prog.reach_project hr).2 hc
    (fun w pc hw => ⟨_, (Prog.c81_when_joined hr hs).2.1 w pc hw⟩)
  have hex := pool_exist (LockLevel.anyAlg_valid _) htb hr'
  obtain ⟨s, hd⟩ := c82_stack_partial (k := k) (xs := poolHandles st ++ [.mgr]) (hs := []) (LockLevel.anyAlg_valid _) htb hr' (by simp [poolHandles, st])
    (by simpa using hex) hdp hk
  rw [List.append_nil] at hd
  obtain ⟨h1, h2⟩ := c82_no_leak (LockLevel.anyAlg_valid _) htb hr' (by simp [poolHandles, st]) hex hd
  refine ⟨s, hd, h1, ?_, ?_, ?_⟩
  · intro i hi
    exact (h2 _).2 (by simpa [Exists, LockLevel.quietState] using hi)
  · intro i hi
    exact (h2 _).2 (by simpa [Exists, LockLevel.quietState] using hi)
  · exact (h2 _).2 trivial

end

/-! ## Counterexamples -/

/-- One action, one successor, no end. -/
def lineEnv : Env Nat Nat Int where
  isSink _ := false
  actions _ := [0]
  succ s _ := [s + 1]
  reward _ _ _ := 1

def lineMgr (D : Int) : Manager Nat Int where
  maxDepth := D
  mctsMode := false
  twoPlayer := false
  useTable := false
  numMutexes := 0
  heuristic := none

theorem line_selects (D : Int) : Selects lineEnv (lineMgr D) Toy.alg 1 0 0 0 [] := by
  intro st h w cur path rs new nd _ hc hw hd hs
  obtain ⟨st', e, h1⟩ := selStep (env := lineEnv) (m := lineMgr D) (alg := Toy.alg) (a := 0) hc hw hd hs
    (by simp [Toy.alg, viewOf, lineEnv])
  exact ⟨0, st', e, h1⟩

/-- **C82**.  No stack is big enough for all trees: for every size there is a search, with one worker and one state after the other, whose
tree, at rest, cannot be destroyed. -/
theorem c82_stack_false (K : Nat) : ∃ st h, Search.Reachable lineEnv (lineMgr K) Toy.alg 1 0 0 0 [] st h ∧ Quiescent st ∧
    (poolHandles st).foldlM (drop K) (memOf st (poolHandles st ++ [.mgr])) = .error .overflow := by
  have hl : lineEnv.Live := ⟨by simp [lineEnv], by simp [lineEnv]⟩
  obtain ⟨st, h, h1, h2, h3⟩ := c82_deep_tree hl (by simp [lineEnv]) Toy.alg_valid (by simp [Leftover]) (tb := []) rfl rfl
    (line_selects K) (by simp [lineMgr]) (by omega)
  exact ⟨st, h, h1, h2, h3 K (by simp only [lineMgr]; omega)⟩

/-- **C82**.  A manager with the table cannot be used for a second tree: after the first tree has been destroyed, the first trial of the second
dereferences an expired entry. -/
theorem c82_second_tree_false : ∃ tb, History Toy.env (Toy.mgr true true 1) Toy.alg tb ∧
    ∃ st h, Search.Reachable Toy.env (Toy.mgr true true 1) Toy.alg 2 0 0 0 tb st h ∧ st.crashed = some .badWeakPtr := by
  obtain ⟨⟨st2, h2, r2, c2⟩, st, h, r, -, ht⟩ := c19_expired_entry_false
  have hl : Leftover ([] : List ((Int × Nat) × Option Nat)) := by simp [Leftover]
  obtain ⟨s, hd⟩ := c82_stack_partial (k := 9) (xs := poolHandles st) (hs := [.mgr]) Toy.alg_valid hl r (by simp [poolHandles])
    (pool_exist Toy.alg_valid hl r) (by decide) (by decide)
  refine ⟨_, .next .fresh r hd, st2, h2, ?_, c2⟩
  rw [expire_all Toy.alg_valid hl r hd]
  have : (st.table.map fun p => (p.1, (none : Option Nat))) = (st.table.map Prod.fst).map fun k => (k, none) := by simp
  rw [this, ht]
  exact r2

/-! ## Examples -/

/-- Two trials with the table share a node (`.d 3`); somebody holds the node of the second trial's first step.  When the pool is destroyed, that
node and the shared one stay, the root and the node of the first trial's first step go. -/
example : ∃ st h, Search.Reachable Toy.env (Toy.mgr false true 1) Toy.alg 2 0 0 0 [] st h ∧ Quiescent st ∧
    .d st.root ∈ poolHandles st ++ [Obj.d 2] ∧ (∀ x ∈ poolHandles st ++ [Obj.d 2], Exists st x) ∧
    ∃ s, (poolHandles st).foldlM (drop 9) (memOf st (poolHandles st ++ [Obj.d 2])) = .ok s ∧ s.alive (.d 2) = true ∧ s.alive (.d 3) = true ∧
      s.alive (.d 0) = false ∧ s.alive (.d 1) = false ∧ s.alive .mgr = true := by
  obtain ⟨st, h, h1, h2⟩ := Toy.run (mcts := false) (table := true) (mutexes := 1) (tb := []) Toy.sched
    (fun st _ => decide (st.ws = [.idle, .idle] ∧ 2 < st.dn.length ∧ st.root < st.dn.length) &&
      match (poolHandles st).foldlM (drop 9) (memOf st (poolHandles st ++ [Obj.d 2])) with
      | .ok s => s.alive (.d 2) && s.alive (.d 3) && !s.alive (.d 0) && !s.alive (.d 1) && s.alive .mgr
      | .error _ => false) (by decide +kernel)
  rw [Bool.and_eq_true, decide_eq_true_eq] at h2
  obtain ⟨⟨h3, h4, h5⟩, h6⟩ := h2
  refine ⟨st, h, h1, ?_, by simp [poolHandles], ?_, ?_⟩
  · intro w p hp
    rw [h3] at hp
    have := List.mem_of_getElem? hp
    simpa using this
  · intro x hx
    simp only [poolHandles, List.cons_append, List.nil_append, List.mem_cons, List.not_mem_nil, or_false] at hx
    rcases hx with rfl | rfl | rfl
    · exact h5
    · trivial
    · exact h4
  · split at h6
    · rename_i s hs
      refine ⟨s, hs, ?_⟩
      simp only [Bool.and_eq_true, Bool.not_eq_true'] at h6
      exact ⟨h6.1.1.1.1, h6.1.1.1.2, h6.1.1.2, h6.1.2, h6.2⟩
    · simp at h6

/-- In the middle of a trial: the worker holds three nodes, and the client releases the root. -/
example : ∃ st h p, Search.Reachable Toy.env (Toy.mgr false false 0) Toy.alg 2 0 0 0 [] st h ∧ st.ws[0]? = some p ∧
    localHandles p = [.d 1, .d 0, .c 0] ∧
    ∃ s, [Obj.d st.root].foldlM (drop 9) (memOf st (.d st.root :: localHandles p)) = .ok s ∧ s.freed = [] := by
  obtain ⟨st, h, h1, h2⟩ := Toy.run (mcts := false) (table := false) (mutexes := 0) (tb := []) [(0, .go), (0, .act 0), (0, .obs 1)]
    (fun st _ => match st.ws[0]? with
      | some p => decide (localHandles p = [.d 1, .d 0, .c 0]) &&
        match [Obj.d st.root].foldlM (drop 9) (memOf st (.d st.root :: localHandles p)) with
        | .ok s => decide (s.freed = [])
        | .error _ => false
      | none => false) (by decide +kernel)
  split at h2
  · rename_i p hp
    rw [Bool.and_eq_true, decide_eq_true_eq] at h2
    refine ⟨st, h, p, h1, hp, h2.1, ?_⟩
    have h3 := h2.2
    split at h3
    · rename_i s hs
      exact ⟨s, hs, by simpa using h3⟩
    · simp at h3
  · simp at h2

end Verif.Mem
