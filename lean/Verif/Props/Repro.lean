import Verif.Proofs.Repro
import Verif.Spec.ReproToy
import Verif.Props.Reader

/-!
# C105: a search with one thread and a fixed seed is reproducible

Two runs of the whole program (`Verif.Model.Program`), with one worker and the same rule `pick` for the random numbers; schedules of the
threads, ticks of the clock, spurious wake-ups, the calls the client makes and the loggers may differ.
-/

namespace Verif.Prog

section General
variable {S A R X Y : Type} [DecidableEq S] [DecidableEq A] [Add R] [Zero R] {env : Search.Env S A R} {m : Search.Manager S R}
  {hash : Int × S → Nat} {alg : Search.Alg S A R X Y} {code : LockLevel.Code S A R X Y}
  {pick : List (Nat × LockLevel.FChoice S A) → Nat → LockLevel.FChoice S A} {n : Nat} {s0 : S} {dp tm : Int}
  {tb : List ((Int × S) × Option Nat)} {lg lg1 lg2 : Option Log.Logger} {s s1 s2 : St S A R X Y} {h h1 h2 : List (Event S A R)}

/-- **C105.**  If all calls are without time limit and each is made after the one before it has been waited for, then the number of trials
run is the sum of the numbers asked for (with any number of workers). -/
theorem c105_number (hr : Reachable env m hash alg code n s0 dp tm tb lg s h) (ht : InTurn h) (hs : Pool.settled (poolPart h) = true) :
    (numCompleted h : Int) = allAsked h :=
  completes _ h s (Nat.le_refl _) hr ht hs

/-- **C105.**  What happens in the tree is the same in both runs as far as both go. -/
theorem c105_comparable (hr1 : SeededRun env m hash alg code pick 1 s0 dp tm tb lg1 s1 h1)
    (hr2 : SeededRun env m hash alg code pick 1 s0 dp tm tb lg2 s2 h2) :
    searchPart h1 <:+ searchPart h2 ∨ searchPart h2 <:+ searchPart h1 := by
  rcases comparable hr1 hr2 with ⟨ms, hx, -⟩ | ⟨ms, hx, -⟩
  · exact .inl (fexec_suffix' _ hx)
  · exact .inr (fexec_suffix' _ hx)

/-- **C105.**  When the trials have been waited for and the same number has been run, also if a time limit was the reason to stop, then
the trees are the same: all nodes with all their values, the transposition table, and everything that happened in them. -/
theorem c105_same_number (hr1 : SeededRun env m hash alg code pick 1 s0 dp tm tb lg1 s1 h1)
    (hr2 : SeededRun env m hash alg code pick 1 s0 dp tm tb lg2 s2 h2) (hs1 : Pool.settled (poolPart h1) = true)
    (hs2 : Pool.settled (poolPart h2) = true) (hn : numCompleted h1 = numCompleted h2) :
    s1.search = s2.search ∧ searchPart h1 = searchPart h2 := by
  obtain ⟨-, i1, -, b1, c1⟩ := c81_when_joined hr1.reach hs1
  obtain ⟨-, i2, -, b2, c2⟩ := c81_when_joined hr2.reach hs2
  rcases comparable hr1 hr2 with ⟨ms, hx, -⟩ | ⟨ms, hx, -⟩
  · have := rest_ends i1 hx (by omega)
    subst this
    simp only [LockLevel.fexec, Option.some.injEq, Prod.mk.injEq] at hx
    exact hx
  · have := rest_ends i2 hx (by omega)
    subst this
    simp only [LockLevel.fexec, Option.some.injEq, Prod.mk.injEq] at hx
    exact ⟨hx.1.symm, hx.2.symm⟩

/-- **C105.**  One worker, no time limits, each call made after the one before it has been waited for: when as many trials have been asked
for in total, in one call or in several, the trees are the same. -/
theorem c105_reproducible (hr1 : SeededRun env m hash alg code pick 1 s0 dp tm tb lg1 s1 h1)
    (hr2 : SeededRun env m hash alg code pick 1 s0 dp tm tb lg2 s2 h2) (ht1 : InTurn h1) (ht2 : InTurn h2)
    (hs1 : Pool.settled (poolPart h1) = true) (hs2 : Pool.settled (poolPart h2) = true) (hn : allAsked h1 = allAsked h2) :
    s1.search = s2.search ∧ searchPart h1 = searchPart h2 := by
  have e1 := c105_number hr1.reach ht1 hs1
  have e2 := c105_number hr2.reach ht2 hs2
  exact c105_same_number hr1 hr2 hs1 hs2 (by omega)

/-- **C105.**  A run that asked for fewer trials, or was stopped earlier, did the same as the beginning of the longer run. -/
theorem c105_prefix (hr1 : SeededRun env m hash alg code pick 1 s0 dp tm tb lg1 s1 h1)
    (hr2 : SeededRun env m hash alg code pick 1 s0 dp tm tb lg2 s2 h2) (hs1 : Pool.settled (poolPart h1) = true)
    (hn : numCompleted h1 ≤ numCompleted h2) : searchPart h1 <:+ searchPart h2 := by
  obtain ⟨-, i1, -, b1, c1⟩ := c81_when_joined hr1.reach hs1
  rcases comparable hr1 hr2 with ⟨ms, hx, -⟩ | ⟨ms, hx, -⟩
  · exact fexec_suffix' _ hx
  · have h3 : numBegun h2 ≤ numBegun h1 := (fexec_suffix' _ hx).sublist.countP_le
    have h4 := completed_le_begun hr2.reach
    have := rest_ends (idle_of_equal hr2.reach (by omega)) hx (by omega)
    subst this
    simp only [LockLevel.fexec, Option.some.injEq, Prod.mk.injEq] at hx
    exact hx.2 ▸ List.suffix_refl _

/-- **C105.**  If one run crashes then every other run crashes in the same state, or has done only a part of what the first one did; it
has not completed more trials. -/
theorem c105_crash (hr1 : SeededRun env m hash alg code pick 1 s0 dp tm tb lg1 s1 h1)
    (hr2 : SeededRun env m hash alg code pick 1 s0 dp tm tb lg2 s2 h2) (hc : s1.search.crashed ≠ none) :
    searchPart h2 <:+ searchPart h1 ∧ numCompleted h2 ≤ numCompleted h1 ∧ (s2.search.crashed ≠ none → s1.search = s2.search) := by
  have stop : ∀ {f f' : LockLevel.FSt S A R X Y} {g g' : List (Search.Event S A R)} {ms : List (Nat × LockLevel.FChoice S A)},
      f.crashed ≠ none → LockLevel.fexec env m hash alg code f g ms = some (f', g') → f = f' ∧ g = g' := by
    intro f f' g g' ms hc hx
    cases ms with
    | nil => simpa [LockLevel.fexec] using hx
    | cons p ms =>
      have : f.crashed.isSome = true := by rwa [Option.isSome_iff_ne_none]
      simp [LockLevel.fexec, LockLevel.fstep, this] at hx
  have key : searchPart h2 <:+ searchPart h1 ∧ (s2.search.crashed ≠ none → s1.search = s2.search) := by
    rcases comparable hr1 hr2 with ⟨ms, hx, -⟩ | ⟨ms, hx, -⟩
    · obtain ⟨e1, e2⟩ := stop hc hx
      exact ⟨e2 ▸ List.suffix_refl _, fun _ => e1⟩
    · exact ⟨fexec_suffix' _ hx, fun hc2 => (stop hc2 hx).1.symm⟩
  exact ⟨key.1, key.1.sublist.countP_le, key.2⟩

end General

/-! ## More workers, time limits -/

section Toy
open SeedToy LockLevel

theorem gen_exec : ∀ (is : List Nat) (f : F) (g : List (Search.Event Nat Nat ℚ)) (k : Nat),
    ∃ q, fexec SeedToy.env SeedToy.mgr LockLevel.Toy.hash SeedToy.alg SeedToy.code f g (gen f k is) = some q := by
  intro is
  induction is with
  | nil => intro f g k; exact ⟨_, rfl⟩
  | cons i is ih =>
    intro f g k
    simp only [gen]
    cases hst : fstep SeedToy.env SeedToy.mgr LockLevel.Toy.hash SeedToy.alg SeedToy.code f i (choice f i k) with
    | none => exact ⟨_, rfl⟩
    | some x =>
      simp only [fexec, hst]
      exact ih _ _ _

/-- The moves of the toy search follow the rule. -/
theorem gen_seeded {n : Nat} : ∀ (is : List Nat) (done : List (Nat × FChoice Nat Nat)) (f : F) (g : List (Search.Event Nat Nat ℚ)),
    fexec SeedToy.env SeedToy.mgr LockLevel.Toy.hash SeedToy.alg SeedToy.code (finit SeedToy.env SeedToy.mgr SeedToy.alg n 0 0 0 []) [] done = some (f, g) →
    ∀ before i ch after, gen f (drawn done) is = before ++ (i, ch) :: after → ch = SeedToy.pick n (done ++ before) i := by
  intro is
  induction is with
  | nil => intro done f g _ before i ch after h; simp [gen] at h
  | cons j is ih =>
    intro done f g hx before i ch after h
    simp only [gen] at h
    cases hst : fstep SeedToy.env SeedToy.mgr LockLevel.Toy.hash SeedToy.alg SeedToy.code f j (choice f j (drawn done)) with
    | none => rw [hst] at h; simp at h
    | some x =>
      rw [hst] at h
      cases before with
      | nil =>
        simp only [List.nil_append, List.cons.injEq, Prod.mk.injEq] at h
        obtain ⟨⟨rfl, rfl⟩, -⟩ := h
        simp [SeedToy.pick, hx]
      | cons p before =>
        simp only [List.cons_append, List.cons.injEq] at h
        obtain ⟨rfl, h⟩ := h
        have hx' : fexec SeedToy.env SeedToy.mgr LockLevel.Toy.hash SeedToy.alg SeedToy.code (finit SeedToy.env SeedToy.mgr SeedToy.alg n 0 0 0 []) []
            (done ++ [(j, choice f j (drawn done))]) = some (x.1, x.2.toList ++ g) := by
          rw [fexec_append, hx]
          simp [fexec, hst]
        have hd : drawn (done ++ [(j, choice f j (drawn done))]) = (match choice f j (drawn done) with | .act _ => drawn done + 1 | _ => drawn done) := by
          rw [drawn, List.countP_append, List.countP_singleton]
          cases choice f j (drawn done) <;> rfl
        have := ih _ _ _ hx' before i ch after (by rw [hd]; exact h)
        simpa using this

theorem seeded_of_moves {S A : Type} {pick : List (Nat × FChoice S A) → Nat → FChoice S A} {ls : List (Label S A)}
    (h : ∀ before i ch after, moves ls = before ++ (i, ch) :: after → ch = pick before i) : Seeded pick ls := by
  rintro before i ch after rfl
  exact h (moves before) i ch (moves after) (by rw [moves_append]; rfl)

theorem play_seeded {n : Nat} (is : List Nat) {ls : List (Label Nat Nat)} (h : moves ls = play n is) : Seeded (SeedToy.pick n) ls := by
  refine seeded_of_moves ?_
  rw [h]
  intro before i ch after he
  have := gen_seeded (n := n) is [] _ _ rfl before i ch after he
  simpa using this

/-- A blocking `run_trials(2)` with two workers whose trials take their turns as given. -/
def twoWorkers (is : List Nat) : List (Label Nat Nat) :=
  [.enter 2 none true, .run, .run, .pool .client] ++ List.replicate 4 (.pool (.worker 0)) ++ List.replicate 4 (.pool (.worker 1)) ++
    (play 2 is).map (fun p => .search p.1 p.2) ++ List.replicate 5 (.pool (.worker 0)) ++ List.replicate 5 (.pool (.worker 1)) ++
    List.replicate 2 (.pool .client)

theorem moves_map {S A : Type} (ms : List (Nat × FChoice S A)) : moves (ms.map fun p => .search p.1 p.2) = ms := by
  rw [moves, List.filterMap_map]
  exact (List.filterMap_congr (by intro p _; rfl)).trans List.filterMap_some

theorem moves_two (is : List Nat) : moves (twoWorkers is) = play 2 is := by
  unfold twoWorkers
  simp only [moves_append, moves_map]
  simp [moves, List.replicate]

/-- The actions that have been tried at the root. -/
def tried (s : St Nat Nat ℚ (Uct.Stats ℚ) (Uct.Stats ℚ)) : List Nat := ((s.search.dn[s.search.root]?).map fun nd => nd.kids.map (·.1)).getD []

theorem two_run (is : List Nat) (as : List Nat)
    (hk : (execFrom SeedToy.env SeedToy.mgr LockLevel.Toy.hash SeedToy.alg SeedToy.code (init SeedToy.env SeedToy.mgr SeedToy.alg 2 0 0 0 [] none) []
      (twoWorkers is)).any (fun p => Pool.settled (poolPart p.2) && decide (numCompleted p.2 = 2) && decide (asked p.2 = [2]) && decide (tried p.1 = as)) = true) :
    ∃ s h, SeededRun SeedToy.env SeedToy.mgr LockLevel.Toy.hash SeedToy.alg SeedToy.code (SeedToy.pick 2) 2 0 0 0 [] none s h ∧
      Pool.settled (poolPart h) = true ∧ asked h = [2] ∧ numCompleted h = 2 ∧ tried s = as := by
  obtain ⟨⟨s, h⟩, e, key⟩ := any_some hk
  simp only [Bool.and_eq_true, decide_eq_true_eq] at key
  obtain ⟨⟨⟨k1, k2⟩, k3⟩, k4⟩ := key
  exact ⟨s, h, ⟨twoWorkers is, play_seeded is (moves_two is), e⟩, k1, k3, k2, k4⟩

/-- **C105 is false** with two workers: after `run_trials(2)` both actions have been tried at the root, or only one, depending on which
worker gets which random number. -/
theorem c105_two_workers_false : ∃ s1 h1 s2 h2,
    SeededRun SeedToy.env SeedToy.mgr LockLevel.Toy.hash SeedToy.alg SeedToy.code (SeedToy.pick 2) 2 0 0 0 [] none s1 h1 ∧
    SeededRun SeedToy.env SeedToy.mgr LockLevel.Toy.hash SeedToy.alg SeedToy.code (SeedToy.pick 2) 2 0 0 0 [] none s2 h2 ∧
    Pool.settled (poolPart h1) = true ∧ Pool.settled (poolPart h2) = true ∧ asked h1 = [2] ∧ asked h2 = [2] ∧
    numCompleted h1 = 2 ∧ numCompleted h2 = 2 ∧ tried s1 = [0, 1] ∧ tried s2 = [0] := by
  obtain ⟨s1, h1, a1, a2, a3, a4, a5⟩ := two_run (List.replicate 50 0 ++ List.replicate 50 1) [0, 1] (by decide +kernel)
  obtain ⟨s2, h2, b1, b2, b3, b4, b5⟩ :=
    two_run (List.replicate 6 0 ++ List.replicate 5 1 ++ List.replicate 44 0 ++ List.replicate 41 1) [0] (by decide +kernel)
  exact ⟨s1, h1, s2, h2, a1, b1, a2, b2, a3, b3, a4, b4, a5, b5⟩

/-- One worker: `run_trials(2, lim)`, with `t` ticks of the clock after the first trial, in which the worker makes `k` trials. -/
def oneWorker (lim : Option Nat) (t k : Nat) : List (Label Nat Nat) :=
  [.enter 2 lim true, .run, .run, .pool .client] ++ List.replicate 4 (.pool (.worker 0)) ++
    ((play 1 (List.replicate (50 * k) 0)).take 50).map (fun p => .search p.1 p.2) ++ List.replicate t (.pool .tick) ++
    List.replicate 5 (.pool (.worker 0)) ++ ((play 1 (List.replicate (50 * k) 0)).drop 50).map (fun p => .search p.1 p.2) ++
    List.replicate (if k = 2 then 5 else 0) (.pool (.worker 0)) ++ List.replicate 2 (.pool .client)

theorem moves_oneWorker (lim : Option Nat) (t k : Nat) : moves (oneWorker lim t k) = play 1 (List.replicate (50 * k) 0) := by
  have hr : ∀ (j : Nat) (l : Pool.Label), moves (List.replicate j (.pool l) : List (Label Nat Nat)) = [] := by
    intro j l
    rw [moves, List.filterMap_eq_nil_iff]
    intro x hx
    rw [List.eq_of_mem_replicate hx]
  unfold oneWorker
  simp only [moves_append, moves_map, hr, List.append_nil, List.take_append_drop]
  simp [moves]

theorem one_run (lim : Option Nat) (t k : Nat)
    (hk : (execFrom SeedToy.env SeedToy.mgr LockLevel.Toy.hash SeedToy.alg SeedToy.code (init SeedToy.env SeedToy.mgr SeedToy.alg 1 0 0 0 [] none) []
      (oneWorker lim t k)).any (fun p => Pool.settled (poolPart p.2) && decide (numCompleted p.2 = k) && decide (asked p.2 = [2]) &&
        decide (tried p.1 = List.range k)) = true) :
    ∃ s h, SeededRun SeedToy.env SeedToy.mgr LockLevel.Toy.hash SeedToy.alg SeedToy.code (SeedToy.pick 1) 1 0 0 0 [] none s h ∧
      Pool.settled (poolPart h) = true ∧ asked h = [2] ∧ numCompleted h = k ∧ tried s = List.range k := by
  obtain ⟨⟨s, h⟩, e, key⟩ := any_some hk
  simp only [Bool.and_eq_true, decide_eq_true_eq] at key
  obtain ⟨⟨⟨k1, k2⟩, k3⟩, k4⟩ := key
  exact ⟨s, h, ⟨oneWorker lim t k, play_seeded _ (moves_oneWorker lim t k), e⟩, k1, k3, k2, k4⟩

/-- **C105 is false** with a time limit: the number of trials depends on the clock. -/
theorem c105_time_limit_false : ∃ s1 h1 s2 h2,
    SeededRun SeedToy.env SeedToy.mgr LockLevel.Toy.hash SeedToy.alg SeedToy.code (SeedToy.pick 1) 1 0 0 0 [] none s1 h1 ∧
    SeededRun SeedToy.env SeedToy.mgr LockLevel.Toy.hash SeedToy.alg SeedToy.code (SeedToy.pick 1) 1 0 0 0 [] none s2 h2 ∧
    Pool.settled (poolPart h1) = true ∧ Pool.settled (poolPart h2) = true ∧ asked h1 = [2] ∧ asked h2 = [2] ∧
    numCompleted h1 = 2 ∧ numCompleted h2 = 1 ∧ tried s1 = [0, 1] ∧ tried s2 = [0] := by
  obtain ⟨s1, h1, a1, a2, a3, a4, a5⟩ := one_run (some 1) 0 2 (by decide +kernel)
  obtain ⟨s2, h2, b1, b2, b3, b4, b5⟩ := one_run (some 1) 1 1 (by decide +kernel)
  exact ⟨s1, h1, s2, h2, a1, b1, a2, b2, a3, b3, a4, b4, a5, b5⟩

/-- Two runs with one worker that meet the hypotheses: one call of `run_trials(2)`, and two of `run_trials(1)`. -/
example : ∃ s1 h1 s2 h2,
    SeededRun SeedToy.env SeedToy.mgr LockLevel.Toy.hash SeedToy.alg SeedToy.code (SeedToy.pick 1) 1 0 0 0 [] none s1 h1 ∧
    SeededRun SeedToy.env SeedToy.mgr LockLevel.Toy.hash SeedToy.alg SeedToy.code (SeedToy.pick 1) 1 0 0 0 [] none s2 h2 ∧
    Pool.settled (poolPart h1) = true ∧ Pool.settled (poolPart h2) = true ∧ asked h1 = [2] ∧ asked h2 = [1, 1] ∧ allAsked h1 = allAsked h2 ∧
    InTurn h1 ∧ InTurn h2 ∧ s1.search = s2.search := by
  have hr : ∀ (j : Nat) (l : Pool.Label), moves (List.replicate j (.pool l) : List (Label Nat Nat)) = [] := by
    intro j l
    rw [moves, List.filterMap_eq_nil_iff]
    intro x hx
    rw [List.eq_of_mem_replicate hx]
  obtain ⟨ls, hls⟩ : ∃ ls : List (Label Nat Nat), ls =
      [.enter 1 none true, .run, .run, .pool .client] ++ List.replicate 4 (.pool (.worker 0)) ++
      ((play 1 (List.replicate (50 * 2) 0)).take 50).map (fun p => .search p.1 p.2) ++ List.replicate 5 (.pool (.worker 0)) ++
      List.replicate 2 (.pool .client) ++ [.enter 1 none true, .run, .run, .pool .client] ++ List.replicate 3 (.pool (.worker 0)) ++
      ((play 1 (List.replicate (50 * 2) 0)).drop 50).map (fun p => .search p.1 p.2) ++ List.replicate 5 (.pool (.worker 0)) ++
      List.replicate 2 (.pool .client) := ⟨_, rfl⟩
  have hm : moves ls = play 1 (List.replicate (50 * 2) 0) := by
    rw [hls]
    simp only [moves_append, moves_map, hr, List.append_nil]
    simp [moves]
  have k1 : (execFrom SeedToy.env SeedToy.mgr LockLevel.Toy.hash SeedToy.alg SeedToy.code (init SeedToy.env SeedToy.mgr SeedToy.alg 1 0 0 0 [] none) []
      (oneWorker none 1 2)).any (fun p => Pool.settled (poolPart p.2) && inTurn (poolPart p.2) && decide (asked p.2 = [2])) = true := by
    decide +kernel
  have k2 : (execFrom SeedToy.env SeedToy.mgr LockLevel.Toy.hash SeedToy.alg SeedToy.code (init SeedToy.env SeedToy.mgr SeedToy.alg 1 0 0 0 [] none) []
      ls).any (fun p => Pool.settled (poolPart p.2) && inTurn (poolPart p.2) && decide (asked p.2 = [1, 1])) = true := by
    rw [hls]
    decide +kernel
  obtain ⟨⟨s1, h1⟩, e1, k1⟩ := any_some k1
  obtain ⟨⟨s2, h2⟩, e2, k2⟩ := any_some k2
  simp only [Bool.and_eq_true, decide_eq_true_eq] at k1 k2
  have r1 : SeededRun SeedToy.env SeedToy.mgr LockLevel.Toy.hash SeedToy.alg SeedToy.code (SeedToy.pick 1) 1 0 0 0 [] none s1 h1 :=
    ⟨_, play_seeded _ (moves_oneWorker none 1 2), e1⟩
  have r2 : SeededRun SeedToy.env SeedToy.mgr LockLevel.Toy.hash SeedToy.alg SeedToy.code (SeedToy.pick 1) 1 0 0 0 [] none s2 h2 :=
    ⟨_, play_seeded _ hm, e2⟩
  have he : allAsked h1 = allAsked h2 := by rw [allAsked, allAsked, k1.2, k2.2]; rfl
  exact ⟨s1, h1, s2, h2, r1, r2, k1.1.1, k2.1.1, k1.2, k2.2, he, inTurn_of k1.1.2, inTurn_of k2.1.2,
    (c105_reproducible r1 r2 (inTurn_of k1.1.2) (inTurn_of k2.1.2) k1.1.1 k2.1.1 he).1⟩

end Toy

end Verif.Prog
