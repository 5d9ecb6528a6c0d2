import Verif.Proofs.Whole
import Verif.Props.System
import Verif.Props.Live

/-!
# C112: a call of `run_trials` on a real search returns

The system is `Verif.Model.System`: pool, trials, tree and logger together.  `isProgress` and `isSpurious` are defined in `Verif.Spec.Whole`, `Env.Live`, `TableOk` and
`Selects` in `Verif.Spec.Live`.
-/

set_option linter.unusedSectionVars false

namespace Verif.Sys

section
variable {S A R X Y : Type} [DecidableEq S] [DecidableEq A] [AddMonoid R]
variable {env : Search.Env S A R} {m : Search.Manager S R} {alg : Search.Alg S A R X Y}
variable {n : Nat} {s0 : S} {dp tm : Int} {tb : List ((Int × S) × Option Nat)} {lg : Option Log.Logger}
variable {s : St S A R X Y} {h : List (Event S A R)}

/-- C112.  While the client is inside `run_trials` or `join` and the time limit has not been reached, some thread can go on. -/
theorem c112_never_stuck (hl : env.Live) (hv : alg.Valid) (htb : Search.Leftover tb) (ht : Search.TableOk m tb) (hs : Search.Selects env m alg n s0 dp tm tb)
    (hn : 0 < n) (hr : Reachable env m alg n s0 dp tm tb lg s h) (hb : s.pool.cl.busy = true) (hlim : s.pool.expired = false) :
    ∃ l r, l.isProgress = true ∧ step env m alg s l = some r :=
  whole_enabled hl hv htb ht hs hn hr hb hlim

theorem phi_run (hv : alg.Valid) (htb : Search.Leftover tb) (ht : Search.TableOk m tb) (hdp : dp ≤ m.maxDepth) {L : Nat} (hL : 4 * (m.maxDepth - dp) + 5 ≤ L) :
    ∀ (ls : List (Label S A)) {s s' : St S A R X Y} {h h' : List (Event S A R)}, Reachable env m alg n s0 dp tm tb lg s h →
    execFrom env m alg s h ls = some (s', h') →
    (∀ l1 l2 s1 h1, ls = l1 ++ l2 → execFrom env m alg s h l1 = some (s1, h1) → s1.pool.cl ≠ .idle) →
    phi L n s' h' + ls.countP Label.isProgress ≤ phi L n s h + 3 * L * ls.countP Label.isSpurious := by
  intro ls
  induction ls with
  | nil => intro s s' h h' _ hx _; simp [execFrom] at hx; obtain ⟨rfl, rfl⟩ := hx; simp
  | cons l ls ih =>
    intro s s' h h' hr hx hin
    have h0 : s.pool.cl ≠ .idle := hin [] (l :: ls) s h rfl rfl
    simp only [execFrom] at hx
    split at hx
    · simp at hx
    · rename_i s1 es hst
      have h1 := ih (reach_step hr hst) hx (by
        intro l1 l2 t g hls hg
        exact hin (l :: l1) l2 t g (by simp [hls]) (by simp [execFrom, hst, hg]))
      have h2 := phi_step hv htb ht hdp hL hr h0 hst
      rw [List.countP_cons, List.countP_cons, Nat.mul_add]
      have e1 : l.isProgress.toNat = if l.isProgress = true then 1 else 0 := by cases l.isProgress <;> rfl
      have e2 : l.isSpurious.toNat = if l.isSpurious = true then 1 else 0 := by cases l.isSpurious <;> rfl
      rw [← e1, ← e2]
      omega

/-- C112.  From every reachable state there are bounds `B` and `C` such that every continuation with more than `B` steps of the program, plus `C` for each spurious
wake-up, lets the client return from its call. -/
theorem c112_bounded_wait (hv : alg.Valid) (htb : Search.Leftover tb) (ht : Search.TableOk m tb) (hdp : dp ≤ m.maxDepth)
    (hr : Reachable env m alg n s0 dp tm tb lg s h) :
    ∃ B C, ∀ ls' s' h', execFrom env m alg s h ls' = some (s', h') → B + C * ls'.countP Label.isSpurious < ls'.countP Label.isProgress →
      ∃ l1 l2 s1 h1, ls' = l1 ++ l2 ∧ execFrom env m alg s h l1 = some (s1, h1) ∧ s1.pool.cl = .idle := by
  refine ⟨phi (4 * (m.maxDepth - dp) + 5).toNat n s h, 3 * (4 * (m.maxDepth - dp) + 5).toNat, fun ls' s' h' hx hlt => ?_⟩
  apply Classical.byContradiction
  intro hno
  have := phi_run hv htb ht hdp (L := (4 * (m.maxDepth - dp) + 5).toNat) (by omega) ls' hr hx (by
    intro l1 l2 s1 h1 he hx1 hi
    exact hno ⟨l1, l2, s1, h1, he, hx1, hi⟩)
  omega

/-- C112.  A call without time limit returns in every fair infinite run of the system: let the client be inside a call in a reachable state, let spurious wake-ups stop at
some point, and let the scheduler not ignore for ever that the program can go on. -/
theorem c112_fair_run_returns (hl : env.Live) (hv : alg.Valid) (htb : Search.Leftover tb) (ht : Search.TableOk m tb) (hs : Search.Selects env m alg n s0 dp tm tb)
    (hdp : dp ≤ m.maxDepth) (hn : 0 < n) (hr : Reachable env m alg n s0 dp tm tb lg s h) (hb : s.pool.cl.busy = true) (hlim : s.pool.limit = none)
    (st : Nat → St S A R X Y) (lab : Nat → Label S A) (h0 : st 0 = s) (hstep : ∀ k, ∃ es, step env m alg (st k) (lab k) = some (st (k + 1), es))
    (hspur : ∃ N, ∀ k, N ≤ k → (lab k).isSpurious = false)
    (hfair : ∀ N, (∀ k, N ≤ k → ∃ l r, l.isProgress = true ∧ step env m alg (st k) l = some r) → ∃ k, N ≤ k ∧ (lab k).isProgress = true) :
    ∃ k, (st k).pool.cl = .idle := by
  apply Classical.byContradiction
  intro hno
  have hne : ∀ k, (st k).pool.cl ≠ .idle := fun k hk => hno ⟨k, hk⟩
  have hinv : ∀ k, (∃ g, Reachable env m alg n s0 dp tm tb lg (st k) g) ∧ (st k).pool.cl.busy = true ∧ (st k).pool.limit = none := by
    intro k
    induction k with
    | zero => rw [h0]; exact ⟨⟨h, hr⟩, hb, hlim⟩
    | succ k ih =>
      obtain ⟨⟨g, hg⟩, hbk, hlk⟩ := ih
      obtain ⟨es, he⟩ := hstep k
      have := busy_step hbk he
      refine ⟨⟨_, reach_step hg he⟩, ?_, by rw [this.2, hlk]⟩
      rcases this.1 with h1 | h1
      · exact h1
      · exact absurd h1 (hne (k + 1))
  have hfair' : ∀ N, ∃ k, N ≤ k ∧ (lab k).isProgress = true := by
    intro N
    refine hfair N (fun k _ => ?_)
    obtain ⟨⟨g, hg⟩, hbk, hlk⟩ := hinv k
    exact whole_enabled hl hv htb ht hs hn hg hbk (by simp [Pool.St.expired, hlk])
  obtain ⟨N, hN⟩ := hspur
  obtain ⟨⟨gN, hgN⟩, _⟩ := hinv N
  have hL : 4 * (m.maxDepth - dp) + 5 ≤ ((4 * (m.maxDepth - dp) + 5).toNat : Int) := by omega
  -- from `N` on the measure never rises and falls at every step of the program
  have key : ∀ j, ∃ g, Reachable env m alg n s0 dp tm tb lg (st (N + j)) g ∧
      phi (4 * (m.maxDepth - dp) + 5).toNat n (st (N + j)) g + (List.range j).countP (fun i => (lab (N + i)).isProgress) ≤
        phi (4 * (m.maxDepth - dp) + 5).toNat n (st N) gN := by
    intro j
    induction j with
    | zero => exact ⟨gN, hgN, by simp⟩
    | succ j ih =>
      obtain ⟨g, hg, hle⟩ := ih
      obtain ⟨es, he⟩ := hstep (N + j)
      have h1 := phi_step hv htb ht hdp hL hg (hne _) he
      rw [hN (N + j) (by omega)] at h1
      refine ⟨es ++ g, reach_step hg he, ?_⟩
      rw [List.range_succ, List.countP_append, List.countP_singleton]
      have e1 : (lab (N + j)).isProgress.toNat = if (lab (N + j)).isProgress = true then 1 else 0 := by cases (lab (N + j)).isProgress <;> rfl
      rw [← e1]
      simp only [Bool.toNat_false, Nat.mul_zero, Nat.add_zero] at h1
      show phi _ n (st (N + j + 1)) (es ++ g) + _ ≤ _
      omega
  have many : ∀ c, ∃ j, c ≤ (List.range j).countP (fun i => (lab (N + i)).isProgress) := by
    intro c
    induction c with
    | zero => exact ⟨0, Nat.zero_le _⟩
    | succ c ih =>
      obtain ⟨j, hj⟩ := ih
      obtain ⟨k, hk, hp⟩ := hfair' (N + j)
      refine ⟨k - N + 1, ?_⟩
      rw [List.range_succ, List.countP_append, List.countP_singleton]
      have e : N + (k - N) = k := by omega
      rw [e, hp, if_pos rfl]
      have hmono : (List.range j).countP (fun i => (lab (N + i)).isProgress) ≤ (List.range (k - N)).countP (fun i => (lab (N + i)).isProgress) :=
        (List.range_sublist.2 (by omega)).countP_le
      omega
  obtain ⟨j, hj⟩ := many (phi (4 * (m.maxDepth - dp) + 5).toNat n (st N) gN + 1)
  obtain ⟨g, _, hle⟩ := key j
  omega

/-- The client is in a call that ends with `join`. -/
def joining (c : Pool.CPc) : Bool :=
  match c with
  | .publish b => b
  | .joinWant | .joinChk | .joinWait | .joinWoken => true
  | _ => false

theorem joining_notify (c : Pool.CPc) (h : joining c = true) : joining c.notify = true := by cases c <;> simp_all [joining, Pool.CPc.notify]

theorem joining_step {p p' : Pool.St} {l : Pool.Label} {e : Option Pool.Event} (hl : l.isProgress = true) (hj : joining p.cl = true)
    (hs : Pool.step p l = some (p', e)) :
    (∀ x, e = some x → x.isCall = false) ∧ (joining p'.cl = true ∨ (p'.cl = .idle ∧ e = some .joined)) := by
  cases l <;> simp [Pool.Label.isProgress] at hl <;> simp only [Pool.step] at hs
  · split at hs
    · rename_i i q hq
      have hn := joining_notify _ hj
      cases q <;> simp only [Pool.stepWorker] at hs
      all_goals
        try split at hs
        all_goals first
          | (simp at hs; done)
          | (simp only [Option.some.injEq, Prod.mk.injEq] at hs
             obtain ⟨rfl, rfl⟩ := hs
             simp [Pool.St.setW, Pool.St.notifyAll, hj, hn, Pool.Event.isCall])
    · simp at hs
  · unfold Pool.stepClient at hs
    split at hs
    all_goals rename_i hcl
    all_goals
      try split at hs
      all_goals first
        | (simp at hs; done)
        | (simp only [Option.some.injEq, Prod.mk.injEq] at hs
           obtain ⟨rfl, rfl⟩ := hs
           simp_all [joining, Pool.Event.isCall])

/-- A call that ends with `join` and has no time limit can be carried out to its end, by steps of the program only. -/
theorem c112_can_return (hl : env.Live) (hv : alg.Valid) (htb : Search.Leftover tb) (ht : Search.TableOk m tb) (hs : Search.Selects env m alg n s0 dp tm tb)
    (hdp : dp ≤ m.maxDepth) (hn : 0 < n) (hr : Reachable env m alg n s0 dp tm tb lg s h) (hb : joining s.pool.cl = true) (hlim : s.pool.limit = none) :
    ∃ ls s' ext, (∀ l ∈ ls, l.isProgress = true) ∧ execFrom env m alg s h ls = some (s', ext ++ h) ∧ s'.pool.cl = .idle ∧
      (∃ pe, poolPart ext = .joined :: pe) ∧ (∀ x ∈ poolPart ext, x.isCall = false) ∧ numEntered ext = 0 := by
  obtain ⟨k, hk⟩ : ∃ k, phi (4 * (m.maxDepth - dp) + 5).toNat n s h ≤ k := ⟨_, Nat.le_refl _⟩
  induction k generalizing s h with
  | zero =>
    exfalso
    have hbusy : s.pool.cl.busy = true := by revert hb; cases s.pool.cl <;> simp [joining, Pool.CPc.busy]
    have hne : s.pool.cl ≠ .idle := by intro h0; rw [h0] at hbusy; simp [Pool.CPc.busy] at hbusy
    obtain ⟨l, ⟨s1, es⟩, hp, hst⟩ := whole_enabled hl hv htb ht hs hn hr hbusy (by simp [Pool.St.expired, hlim])
    have := phi_step hv htb ht hdp (L := (4 * (m.maxDepth - dp) + 5).toNat) (by omega) hr hne hst
    have hsp : l.isSpurious = false := by
      cases l with
      | pool l => cases l <;> simp_all [Label.isProgress, Label.isSpurious, Pool.Label.isProgress, Pool.Label.isSpurious]
      | search => rfl
      | prep => rfl
    rw [hp, hsp] at this
    simp only [Bool.toNat_true, Bool.toNat_false] at this
    omega
  | succ k ih =>
    have hbusy : s.pool.cl.busy = true := by revert hb; cases s.pool.cl <;> simp [joining, Pool.CPc.busy]
    have hne : s.pool.cl ≠ .idle := by intro h0; rw [h0] at hbusy; simp [Pool.CPc.busy] at hbusy
    obtain ⟨l, ⟨s1, es⟩, hp, hst⟩ := whole_enabled hl hv htb ht hs hn hr hbusy (by simp [Pool.St.expired, hlim])
    have hphi := phi_step hv htb ht hdp (L := (4 * (m.maxDepth - dp) + 5).toNat) (by omega) hr hne hst
    have hsp : l.isSpurious = false := by
      cases l with
      | pool l => cases l <;> simp_all [Label.isProgress, Label.isSpurious, Pool.Label.isProgress, Pool.Label.isSpurious]
      | search => rfl
      | prep => rfl
    rw [hp, hsp] at hphi
    simp only [Bool.toNat_true, Bool.toNat_false] at hphi
    have hr1 := reach_step hr hst
    have hlim1 : s1.pool.limit = none := by rw [(busy_step hbusy hst).2, hlim]
    obtain ⟨hent, hcall⟩ : numEntered es = 0 ∧
        ((∀ x ∈ poolPart es, x.isCall = false) ∧ (joining s1.pool.cl = true ∨ (s1.pool.cl = .idle ∧ ∃ pe, poolPart es = .joined :: pe))) := by
      cases step_did hst with
      | pool l p e es _ hps hpool _ _ hpp hne0 _ =>
        obtain ⟨j1, j2⟩ := joining_step hp hb hps
        refine ⟨hne0, ?_, ?_⟩
        · intro x hx
          rw [hpp] at hx
          exact j1 x (by cases e <;> simp at hx ⊢; exact hx.symm)
        · rw [hpool]
          rcases j2 with j2 | ⟨j2, rfl⟩
          · exact .inl j2
          · exact .inr ⟨j2, [], by rw [hpp]; rfl⟩
      | search i ch q e g _ _ _ _ hpool _ _ =>
        refine ⟨rfl, ?_, .inl (by rw [hpool]; exact hb)⟩
        intro x hx
        simp [poolPart] at hx
      | prep _ _ hi => exact absurd hi hne
    rcases hcall.2 with hj | ⟨hi, hjo⟩
    · obtain ⟨ls, s', ext, g1, g2, g3, ⟨pe, g4⟩, g5, g6⟩ := ih hr1 hj hlim1 (by omega)
      refine ⟨l :: ls, s', ext ++ es, ?_, ?_, g3, ⟨pe ++ poolPart es, ?_⟩, ?_, ?_⟩
      · intro x hx
        rcases List.mem_cons.1 hx with rfl | hx
        · exact hp
        · exact g1 x hx
      · simp only [execFrom, hst]; rw [List.append_assoc]; exact g2
      · rw [poolPart_append, g4]; rfl
      · intro x hx
        rw [poolPart_append] at hx
        rcases List.mem_append.1 hx with hx | hx
        · exact g5 x hx
        · exact hcall.1 x hx
      · unfold numEntered at *; rw [List.countP_append]; omega
    · refine ⟨[l], s1, es, ?_, ?_, hi, hjo, hcall.1, hent⟩
      · intro x hx; rw [List.mem_singleton.1 hx]; exact hp
      · simp [execFrom, hst]

theorem quiet_calls : ∀ {a b : List Pool.Event}, (∀ x ∈ a, x.isCall = false) → oneRunAtATime (a ++ b) = oneRunAtATime b ∧ requested (a ++ b) = requested b := by
  intro a b
  induction a with
  | nil => intro _; exact ⟨rfl, rfl⟩
  | cons e a ih =>
    intro h
    obtain ⟨h1, h2⟩ := ih fun x hx => h x (List.mem_cons_of_mem _ hx)
    have := h e List.mem_cons_self
    cases e <;> first | (simp [Pool.Event.isCall] at this; done) | exact ⟨h1, h2⟩

/-- C112.  `run_trials(N)` can be carried out in every state in which the client is idle, earlier calls have returned and the pool's mutex is free; and when it has
returned, exactly `N` more trials have been completed, and the root has been visited that many times more. -/
theorem c112_run (hl : env.Live) (hv : alg.Valid) (htb : Search.Leftover tb) (ht : Search.TableOk m tb) (hs : Search.Selects env m alg n s0 dp tm tb)
    (hdp : dp ≤ m.maxDepth) (hn : 0 < n) (hr : Reachable env m alg n s0 dp tm tb lg s h) (hi : s.pool.cl = .idle) (hlock : s.pool.lock = none)
    (hp : s.prep = false) (hone : oneRunAtATime (poolPart h) = true) (hset : Pool.settled (poolPart h) = true) (N : Nat) :
    ∃ ls s' ext, execFrom env m alg s h (.prep :: .pool (.call N none true) :: ls) = some (s', ext ++ h) ∧ (∀ l ∈ ls, l.isProgress = true) ∧ s'.pool.cl = .idle ∧
      Reachable env m alg n s0 dp tm tb lg s' (ext ++ h) ∧ oneRunAtATime (poolPart (ext ++ h)) = true ∧ Pool.settled (poolPart (ext ++ h)) = true ∧
      numEntered ext = 1 ∧ Search.trialsCompleted (searchPart (ext ++ h)) = Search.trialsCompleted (searchPart h) + N ∧
      Search.visitsD s'.search s'.search.root = Search.visitsD s.search s.search.root + N ∧ finishedIn (ext ++ h) = finishedIn h + N := by
  have hcr := Search.safe_reach hv htb ht (reach_project hr).2
  have hst1 : step env m alg s .prep = some ({ s with prep := true, lg := s.lg.map fun L => L.beginRun s.pool.now }, [.entered s.pool.now]) := by
    simp [step, hcr, hi, hp]
  have hr1 := reach_step hr hst1
  have hst2 : step env m alg { s with prep := true, lg := s.lg.map fun L => L.beginRun s.pool.now } (.pool (.call N none true)) =
      some ({ s with pool := { s.pool with cl := .publish true, remaining := N, start := s.pool.now, limit := none }, prep := false, numTrials := N,
                     lg := s.lg.map fun L => L.beginRun s.pool.now }, [.pool (.called N none)]) := by
    simp [step, hcr, poolStep, Pool.step, hi, hlock]
  have hr2 := reach_step hr1 hst2
  obtain ⟨ls, s', ext, g1, g2, g3, ⟨pe, g4⟩, g5, g6⟩ := c112_can_return hl hv htb ht hs hdp hn hr2 rfl rfl
  have hpp : poolPart (ext ++ ([.pool (.called N none)] ++ ([.entered s.pool.now] ++ h))) = poolPart ext ++ (.called N none :: poolPart h) := by
    rw [poolPart_append]; rfl
  have happ : (ext ++ [.pool (.called N none), .entered s.pool.now]) ++ h = ext ++ ([.pool (.called N none)] ++ ([.entered s.pool.now] ++ h)) := by simp
  obtain ⟨ls0, hx0⟩ := hr2
  have hr3 : Reachable env m alg n s0 dp tm tb lg s' ((ext ++ [.pool (.called N none), .entered s.pool.now]) ++ h) := by
    rw [happ]
    have : ∀ (ls : List (Label S A)) {a b : St S A R X Y} {ha hb : List (Event S A R)}, Reachable env m alg n s0 dp tm tb lg a ha → execFrom env m alg a ha ls = some (b, hb) →
        Reachable env m alg n s0 dp tm tb lg b hb := by
      intro ls
      induction ls with
      | nil => intro a b ha hb h1 h2; simp [execFrom] at h2; obtain ⟨rfl, rfl⟩ := h2; exact h1
      | cons l ls ih =>
        intro a b ha hb h1 h2
        simp only [execFrom] at h2
        split at h2
        · simp at h2
        · exact ih (reach_step h1 (by assumption)) h2
    exact this ls ⟨ls0, hx0⟩ g2
  obtain ⟨q1, q2⟩ := quiet_calls (b := .called N none :: poolPart h) g5
  have hone' : oneRunAtATime (poolPart ((ext ++ [.pool (.called N none), .entered s.pool.now]) ++ h)) = true := by
    rw [happ, hpp, q1]
    simp [oneRunAtATime, hset, hone]
  have hset' : Pool.settled (poolPart ((ext ++ [.pool (.called N none), .entered s.pool.now]) ++ h)) = true := by
    rw [happ, hpp, g4]; rfl
  have hreq : requested (poolPart ((ext ++ [.pool (.called N none), .entered s.pool.now]) ++ h)) = N + requested (poolPart h) := by
    rw [happ, hpp, q2]
    simp [requested]
  obtain ⟨a1, a2, _⟩ := c64_runs_what_was_asked hv htb hr hone hset
  obtain ⟨b1, b2, _⟩ := c64_runs_what_was_asked hv htb hr3 hone' hset'
  obtain ⟨_, c2, c3⟩ := settled_done hr hset
  obtain ⟨_, d2, d3⟩ := settled_done hr3 hset'
  have e : ∀ g : List (Event S A R), (searchPart g).countP Search.Event.isCompleted = Search.trialsCompleted (searchPart g) := fun g =>
    Search.countP_congr' _ (fun e => by cases e <;> rfl)
  rw [e] at c2 d2
  refine ⟨ls, s', ext ++ [.pool (.called N none), .entered s.pool.now], ?_, g1, g3, hr3, hone', hset', ?_, ?_, ?_, ?_⟩
  · rw [happ]
    simp only [execFrom, hst1, hst2]
    exact g2
  · unfold numEntered at *
    rw [List.countP_append, g6]; rfl
  · omega
  · omega
  · unfold finishedIn; omega

/-- C112.  In particular the first call on a new pool. -/
theorem c112_first_run (hl : env.Live) (hv : alg.Valid) (htb : Search.Leftover tb) (ht : Search.TableOk m tb) (hs : Search.Selects env m alg n s0 dp tm tb)
    (hdp : dp ≤ m.maxDepth) (hn : 0 < n) (N : Nat) :
    ∃ s h, Reachable env m alg n s0 dp tm tb lg s h ∧ Pool.settled (poolPart h) = true ∧ numEntered h = 1 ∧ finishedIn h = N ∧
      Search.trialsCompleted (searchPart h) = N := by
  obtain ⟨ls, s', ext, _, _, _, h1, _, h2, h3, h4, _, h5⟩ := c112_run (s := init env m alg n s0 dp tm tb lg) (h := []) hl hv htb ht hs hdp hn ⟨[], rfl⟩ rfl rfl rfl rfl rfl N
  rw [List.append_nil] at h1 h2 h4 h5
  exact ⟨s', ext, h1, h2, h3, h5.trans (Nat.zero_add N), h4.trans (Nat.zero_add N)⟩

end

/-- The hypotheses hold for a MENTS search with three workers. -/
example (N : Nat) (lg : Option Log.Logger) : ∃ s h, Reachable Ments.exEnv Ments.exMgr (Ments.ments 0 Ments.exCfg fun _ _ => 1) 3 () 0 0 [] lg s h ∧
    Pool.settled (poolPart h) = true ∧ numEntered h = 1 ∧ finishedIn h = N ∧ Search.trialsCompleted (searchPart h) = N :=
  have hl : Ments.exEnv.Live := ⟨by simp [Ments.exEnv], by simp [Ments.exEnv]⟩
  c112_first_run hl (Ments.ments_valid _ _ _) (by simp [Search.Leftover]) (by simp [Search.TableOk, Ments.exMgr])
    (Search.c74_ments_selects Ments.exGood hl (by simp [Ments.exEnv]) (by simp [Search.Leftover]) le_rfl) (by simp [Ments.exMgr]) (by decide) N

end Verif.Sys
