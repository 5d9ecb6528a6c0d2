import Verif.Spec.Repro
import Verif.Proofs.ProgramReturn
import Verif.Props.Program

/-! # Uniqueness of seeded runs with one worker -/

namespace Verif.Prog

variable {S A R X Y : Type} [DecidableEq S] [DecidableEq A] [Add R] [Zero R] {env : Search.Env S A R} {m : Search.Manager S R}
  {hash : Int × S → Nat} {alg : Search.Alg S A R X Y} {code : LockLevel.Code S A R X Y}
  {pick : List (Nat × LockLevel.FChoice S A) → Nat → LockLevel.FChoice S A} {n : Nat} {s0 : S} {dp tm : Int}
  {tb : List ((Int × S) × Option Nat)} {lg lg1 lg2 : Option Log.Logger} {s s1 s2 : St S A R X Y} {h h1 h2 : List (Event S A R)}

theorem SeededRun.reach (hr : SeededRun env m hash alg code pick n s0 dp tm tb lg s h) : Reachable env m hash alg code n s0 dp tm tb lg s h := by
  obtain ⟨ls, -, hx⟩ := hr
  exact ⟨ls, hx⟩

omit [DecidableEq S] [DecidableEq A] [Add R] [Zero R] in
theorem moves_append (l1 l2 : List (Label S A)) : moves (l1 ++ l2) = moves l1 ++ moves l2 := by simp [moves, List.filterMap_append]

/-- The search goes through the moves of the program. -/
theorem exec_moves : ∀ (ls : List (Label S A)) (a : St S A R X Y) (ha : List (Event S A R)), execFrom env m hash alg code a ha ls = some (s, h) →
    LockLevel.fexec env m hash alg code a.search (searchPart ha) (moves ls) = some (s.search, searchPart h) := by
  intro ls
  induction ls with
  | nil =>
    intro a ha hx
    simp only [execFrom, Option.some.injEq, Prod.mk.injEq] at hx
    obtain ⟨rfl, rfl⟩ := hx
    rfl
  | cons l ls ih =>
    intro a ha hx
    simp only [execFrom] at hx
    cases hst : step env m hash alg code a l with
    | none => rw [hst] at hx; simp at hx
    | some x =>
      rw [hst] at hx
      obtain ⟨a', es⟩ := x
      have h1 := ih a' _ hx
      have E := (step_eff hst).2
      rw [searchPart_append] at h1
      cases E with
      | quiet hp =>
        rw [searchPart_pool] at h1
        exact h1
      | @search i ch q e g hq =>
        rw [searchPart_search] at h1
        show LockLevel.fexec env m hash alg code a.search (searchPart ha) ((i, ch) :: moves ls) = _
        simp only [LockLevel.fexec, hq]
        exact h1
      | start | finish | call | take | write | release | enter | prep => exact h1

/-- With one worker all moves are its own. -/
theorem moves_one : ∀ (ls : List (Label S A)) (a : St S A R X Y) (ha : List (Event S A R)), Reachable env m hash alg code 1 s0 dp tm tb lg a ha →
    execFrom env m hash alg code a ha ls = some (s, h) → ∀ p ∈ moves ls, p.1 = 0 := by
  intro ls
  induction ls with
  | nil => intro a ha _ _ p hp; simp [moves] at hp
  | cons l ls ih =>
    intro a ha hr hx p hp
    simp only [execFrom] at hx
    cases hst : step env m hash alg code a l with
    | none => rw [hst] at hx; simp at hx
    | some x =>
      rw [hst] at hx
      obtain ⟨a', es⟩ := x
      rw [show l :: ls = [l] ++ ls from rfl, moves_append] at hp
      rcases List.mem_append.1 hp with hp | hp
      · cases l with
        | search i ch =>
          simp only [moves, List.filterMap_cons, List.filterMap_nil, List.mem_singleton] at hp
          subst hp
          simp only [step] at hst
          split at hst
          · simp at hst
          unfold searchStep at hst
          split at hst
          · next hg =>
            have hi : i < a.stages.length := by
              rcases hg with hg | hg <;> exact (List.getElem?_eq_some_iff.1 hg).1
            rw [(sinv_reach hr).slen] at hi
            show i = 0
            omega
          · simp at hst
        | _ => simp [moves] at hp
      · exact ih a' _ (reach_snoc hr hst) hx p hp

omit [DecidableEq S] [DecidableEq A] in
theorem moves_seeded {ls : List (Label S A)} (hs : Seeded pick ls) {before after : List (Nat × LockLevel.FChoice S A)} {i : Nat}
    {ch : LockLevel.FChoice S A} (h : moves ls = before ++ (i, ch) :: after) : ch = pick before i := by
  obtain ⟨l1, l2, rfl, e1, e2⟩ := List.filterMap_eq_append_iff.1 h
  obtain ⟨l3, x, l4, rfl, e3, e4, -⟩ := List.filterMap_eq_cons_iff.1 e2
  cases x with
  | search j ch' =>
    simp only [Option.some.injEq, Prod.mk.injEq] at e4
    obtain ⟨rfl, rfl⟩ := e4
    have := hs (l1 ++ l3) j ch' l4 (by simp)
    rw [moves_append] at this
    have e5 : moves l3 = [] := by
      rw [moves, List.filterMap_eq_nil_iff]
      exact e3
    rw [e5, List.append_nil] at this
    rw [this, ← e1]
    rfl
  | _ => simp at e4

/-- Two lists in which each element is a function of the ones before it. -/
theorem take_unique {α : Type} {f : List α → α} : ∀ (k : Nat) {l1 l2 : List α}, (∀ a x b, l1 = a ++ x :: b → x = f a) →
    (∀ a x b, l2 = a ++ x :: b → x = f a) → k ≤ l1.length → k ≤ l2.length → l1.take k = l2.take k := by
  intro k
  induction k with
  | zero => intros; simp
  | succ k ih =>
    intro l1 l2 h1 h2 g1 g2
    have e := ih h1 h2 (by omega) (by omega)
    have key : ∀ {l : List α}, (∀ a x b, l = a ++ x :: b → x = f a) → (hk : k + 1 ≤ l.length) → l.take (k + 1) = l.take k ++ [f (l.take k)] := by
      intro l hl hk
      have hlt : k < l.length := by omega
      rw [List.take_succ_eq_append_getElem hlt, hl (l.take k) l[k] (l.drop (k + 1)) (by simp)]
    rw [key h1 g1, key h2 g2, e]

/-- What one of two seeded runs with one worker does in the tree is the beginning of what the other one does. -/
theorem comparable (hr1 : SeededRun env m hash alg code pick 1 s0 dp tm tb lg1 s1 h1) (hr2 : SeededRun env m hash alg code pick 1 s0 dp tm tb lg2 s2 h2) :
    (∃ ms, LockLevel.fexec env m hash alg code s1.search (searchPart h1) ms = some (s2.search, searchPart h2) ∧ ∀ p ∈ ms, p.1 = 0) ∨
    (∃ ms, LockLevel.fexec env m hash alg code s2.search (searchPart h2) ms = some (s1.search, searchPart h1) ∧ ∀ p ∈ ms, p.1 = 0) := by
  obtain ⟨l1, c1, x1⟩ := hr1
  obtain ⟨l2, c2, x2⟩ := hr2
  have o1 := moves_one l1 _ _ ⟨[], rfl⟩ x1
  have o2 := moves_one l2 _ _ ⟨[], rfl⟩ x2
  have u1 : ∀ a x b, moves l1 = a ++ x :: b → x = (0, pick a 0) := by
    rintro a ⟨i, ch⟩ b e
    have hi : i = 0 := o1 (i, ch) (by rw [e]; simp)
    subst hi
    rw [moves_seeded c1 e]
  have u2 : ∀ a x b, moves l2 = a ++ x :: b → x = (0, pick a 0) := by
    rintro a ⟨i, ch⟩ b e
    have hi : i = 0 := o2 (i, ch) (by rw [e]; simp)
    subst hi
    rw [moves_seeded c2 e]
  have y1 := exec_moves l1 _ _ x1
  have y2 := exec_moves l2 _ _ x2
  change LockLevel.fexec env m hash alg code (LockLevel.finit env m alg 1 s0 dp tm tb) [] _ = _ at y1
  change LockLevel.fexec env m hash alg code (LockLevel.finit env m alg 1 s0 dp tm tb) [] _ = _ at y2
  rcases Nat.le_total (moves l1).length (moves l2).length with hle | hle
  · left
    have e := take_unique (f := fun a => (0, pick a 0)) _ u1 u2 (Nat.le_refl _) hle
    rw [List.take_length] at e
    refine ⟨(moves l2).drop (moves l1).length, ?_, fun p hp => o2 p (List.mem_of_mem_drop hp)⟩
    rw [← List.take_append_drop (moves l1).length (moves l2), ← e, LockLevel.fexec_append, y1] at y2
    exact y2
  · right
    have e := take_unique (f := fun a => (0, pick a 0)) _ u2 u1 (Nat.le_refl _) hle
    rw [List.take_length] at e
    refine ⟨(moves l1).drop (moves l2).length, ?_, fun p hp => o1 p (List.mem_of_mem_drop hp)⟩
    rw [← List.take_append_drop (moves l2).length (moves l1), ← e, LockLevel.fexec_append, y2] at y1
    exact y1

theorem fexec_suffix' : ∀ (ms : List (Nat × LockLevel.FChoice S A)) {f f' : LockLevel.FSt S A R X Y} {g g' : List (Search.Event S A R)},
    LockLevel.fexec env m hash alg code f g ms = some (f', g') → g <:+ g' := by
  intro ms
  induction ms with
  | nil =>
    intro f f' g g' h
    simp only [LockLevel.fexec, Option.some.injEq, Prod.mk.injEq] at h
    rw [h.2]
  | cons p ms ih =>
    intro f f' g g' h
    simp only [LockLevel.fexec] at h
    split at h
    · exact (List.suffix_append _ _).trans (ih h)
    · simp at h

/-- A worker that is not in a trial can only begin one. -/
theorem goes_on_begins {ms : List (Nat × LockLevel.FChoice S A)} {f f' : LockLevel.FSt S A R X Y} {g g' : List (Search.Event S A R)}
    (hi : ∀ (w : Nat) pc, f.ws[w]? = some pc → pc = .out .idle) (hx : LockLevel.fexec env m hash alg code f g ms = some (f', g')) :
    ms = [] ∨ ∃ w, .began w :: g <:+ g' := by
  cases ms with
  | nil => exact .inl rfl
  | cons p ms =>
    right
    obtain ⟨w, ch⟩ := p
    simp only [LockLevel.fexec] at hx
    cases hst : LockLevel.fstep env m hash alg code f w ch with
    | none => rw [hst] at hx; simp at hx
    | some x =>
      rw [hst] at hx
      have h1 := fexec_suffix' _ hx
      have h2 : x.2 = some (.began w) := by
        unfold LockLevel.fstep at hst
        split at hst
        · simp at hst
        · cases hw : f.ws[w]? with
          | none => rw [hw] at hst; simp at hst
          | some pc =>
            rw [hw, hi w pc hw] at hst
            cases ch <;> simp at hst
            rw [← hst]
      rw [h2] at h1
      exact ⟨w, by simpa using h1⟩

/-- If a run that has come to rest has begun at least as many trials as another, the other one has done no more. -/
theorem rest_ends {ms : List (Nat × LockLevel.FChoice S A)} (hi : ∀ (w : Nat) pc, s1.search.ws[w]? = some pc → pc = .out .idle)
    (hx : LockLevel.fexec env m hash alg code s1.search (searchPart h1) ms = some (s2.search, searchPart h2)) (hn : numBegun h2 ≤ numBegun h1) :
    ms = [] := by
  rcases goes_on_begins hi hx with h | ⟨w, h⟩
  · exact h
  · have h3 : numBegun h1 + 1 ≤ numBegun h2 := by
      unfold numBegun
      refine Nat.le_trans ?_ h.sublist.countP_le
      rw [List.countP_cons]
      simp
    omega

theorem completed_le_begun (hr : Reachable env m hash alg code n s0 dp tm tb lg s h) : numCompleted h ≤ numBegun h := by
  have I := sinv_reach hr
  have h1 := I.begun
  have h2 := I.complete
  have : s.stages.countP Stage.isReady ≤ s.stages.countP Stage.isOpen :=
    List.countP_mono_left fun g _ hg => by cases g <;> simp_all [Stage.isReady, Stage.isOpen]
  omega

/-- When as many trials have been completed as begun, nobody is in a trial. -/
theorem idle_of_equal (hr : Reachable env m hash alg code n s0 dp tm tb lg s h) (hn : numBegun h ≤ numCompleted h) :
    ∀ (w : Nat) pc, s.search.ws[w]? = some pc → pc = .out .idle := by
  intro w pc hw
  have I := sinv_reach hr
  have hlt : w < s.stages.length := by
    rw [I.slen, ← I.wlen]
    exact (List.getElem?_eq_some_iff.1 hw).1
  have hg := List.getElem?_eq_getElem hlt
  have hle : s.stages.countP Stage.isOpen ≤ s.stages.countP Stage.isReady := by
    have h1 := I.begun
    have h2 := I.complete
    omega
  have hne : s.stages[w] ≠ .running := by
    intro hx
    have key : ∀ l : List Stage, .running ∈ l → l.countP Stage.isReady < l.countP Stage.isOpen := by
      intro l
      have mono : ∀ l : List Stage, l.countP Stage.isReady ≤ l.countP Stage.isOpen := fun l =>
        List.countP_mono_left fun g _ hg => by cases g <;> simp_all [Stage.isReady, Stage.isOpen]
      induction l with
      | nil => simp
      | cons g l ih =>
        intro hm
        have := mono l
        rw [List.countP_cons, List.countP_cons]
        rcases List.mem_cons.1 hm with rfl | hm
        · simp [Stage.isReady, Stage.isOpen]; omega
        · have := ih hm
          cases g <;> simp [Stage.isReady, Stage.isOpen] <;> omega
    have := key s.stages (hx ▸ List.getElem_mem hlt)
    omega
  have := I.idle w _ hg hne
  rw [hw] at this
  exact Option.some.inj this

/-! ## The number of trials -/

/-- `InTurn`, computed from the events of the pool. -/
def inTurn : List Pool.Event → Bool
  | [] => true
  | .called _ lim :: g => lim.isNone && Pool.settled g && inTurn g
  | _ :: g => inTurn g

theorem inTurn_app {N : Int} {lim : Option Nat} {g : List Pool.Event} : ∀ l : List Pool.Event, inTurn (l ++ .called N lim :: g) = true →
    lim = none ∧ Pool.settled g = true := by
  intro l
  induction l with
  | nil =>
    intro h
    simp only [List.nil_append, inTurn, Bool.and_eq_true, Option.isNone_iff_eq_none] at h
    exact h.1
  | cons e l ih =>
    intro h
    cases e <;> first | exact ih h | exact ih (by simp only [List.cons_append, inTurn, Bool.and_eq_true] at h; exact h.2)

omit [DecidableEq S] [DecidableEq A] [Add R] [Zero R] in
theorem inTurn_of {h : List (Event S A R)} (hh : inTurn (poolPart h) = true) : InTurn h := by
  rintro later N lim before rfl
  have : poolPart (later ++ .pool (.called N lim) :: before) = poolPart later ++ .called N lim :: poolPart before := by
    simp [poolPart, List.filterMap_append]
  rw [this] at hh
  exact inTurn_app _ hh

/-- The limit in force is the one of the last call. -/
def lastLimit : List Pool.Event → Option Nat
  | [] => some 0
  | .called _ lim :: _ => lim
  | _ :: h => lastLimit h

theorem pool_limit {p q : Pool.St} {l : Pool.Label} {e : Option Pool.Event} {g : List Pool.Event} (hs : Pool.step p l = some (q, e))
    (hl : p.limit = lastLimit g) : q.limit = lastLimit (e.toList ++ g) := by
  cases l with
  | tick | look i | spuriousW i | spuriousC | call _ _ _ | join | swap _ | dtor =>
    simp only [Pool.step] at hs
    repeat' split at hs
    all_goals simp at hs
    all_goals obtain ⟨rfl, rfl⟩ := hs
    all_goals first | rfl | exact hl
  | client =>
    simp only [Pool.step, Pool.stepClient] at hs
    repeat' split at hs
    all_goals simp at hs
    all_goals obtain ⟨rfl, rfl⟩ := hs
    all_goals exact hl
  | worker i =>
    simp only [Pool.step] at hs
    split at hs
    · next p _ =>
      cases p <;> simp only [Pool.stepWorker] at hs
      all_goals repeat' split at hs
      all_goals simp at hs
      all_goals obtain ⟨rfl, rfl⟩ := hs
      all_goals exact hl
    · simp at hs

theorem pool_limit_exec {n : Nat} {ls : List Pool.Label} {p : Pool.St} {g : List Pool.Event} (hx : Pool.exec n ls = some (p, g)) :
    p.limit = lastLimit g := by
  have key : ∀ (ls : List Pool.Label) (a : Pool.St) ga, a.limit = lastLimit ga → Pool.execFrom a ga ls = some (p, g) → p.limit = lastLimit g := by
    intro ls
    induction ls with
    | nil =>
      intro a ga ha hx
      simp only [Pool.execFrom, Option.some.injEq, Prod.mk.injEq] at hx
      obtain ⟨rfl, rfl⟩ := hx
      exact ha
    | cons l ls ih =>
      intro a ga ha hx
      simp only [Pool.execFrom] at hx
      split at hx
      · exact ih _ _ (pool_limit ‹_› ha) hx
      · simp at hx
  exact key ls _ _ rfl hx

theorem lastLimit_app {l g : List Pool.Event} {N : Int} {lim : Option Nat} (hl : ∀ e ∈ l, (!Pool.Event.isCall e) = true) :
    lastLimit (l ++ .called N lim :: g) = lim ∧ Pool.budget (l ++ .called N lim :: g) = N ∧ Pool.sinceCall (l ++ .called N lim :: g) = l := by
  refine ⟨?_, ?_, ?_⟩
  · induction l with
    | nil => rfl
    | cons e l ih =>
      have he := hl e (by simp)
      have := ih fun e he => hl e (by simp [he])
      cases e <;> simp_all [lastLimit, Pool.Event.isCall]
  · induction l with
    | nil => rfl
    | cons e l ih =>
      have he := hl e (by simp)
      have := ih fun e he => hl e (by simp [he])
      cases e <;> simp_all [Pool.budget, Pool.Event.isCall]
  · rw [Pool.sinceCall, List.takeWhile_append_of_pos hl]
    simp [Pool.Event.isCall]

theorem no_call_hist {l : List Pool.Event} (hl : ∀ e ∈ l, (!Pool.Event.isCall e) = true) : Pool.budget l = 0 ∧ Pool.sinceCall l = l := by
  constructor
  · induction l with
    | nil => rfl
    | cons e l ih =>
      have he := hl e (by simp)
      have := ih fun e he => hl e (by simp [he])
      cases e <;> simp_all [Pool.budget, Pool.Event.isCall]
  · have := List.takeWhile_append_of_pos (l₂ := []) hl
    simpa [Pool.sinceCall] using this

omit [DecidableEq S] [DecidableEq A] [Add R] [Zero R] in
/-- A history without a call, or with a last call. -/
theorem last_call : ∀ h : List (Event S A R), (∀ N lim, .pool (.called N lim) ∉ h) ∨
    ∃ later N lim before, h = later ++ .pool (.called N lim) :: before ∧ ∀ N' lim', .pool (.called N' lim') ∉ later := by
  intro h
  induction h with
  | nil => left; simp
  | cons e h ih =>
    by_cases he : ∃ N lim, e = .pool (.called N lim)
    · obtain ⟨N, lim, rfl⟩ := he
      exact .inr ⟨[], N, lim, h, rfl, by simp⟩
    · have he' : ∀ N lim, .pool (.called N lim) ≠ e := fun N lim hx => he ⟨N, lim, hx.symm⟩
      rcases ih with ih | ⟨later, N, lim, before, rfl, hn⟩
      · exact .inl fun N lim => by simp [he' N lim, ih N lim]
      · exact .inr ⟨e :: later, N, lim, before, rfl, fun N' lim' => by simp [he' N' lim', hn N' lim']⟩

omit [DecidableEq S] [DecidableEq A] [Add R] [Zero R] in
theorem poolPart_no_call {h : List (Event S A R)} (hn : ∀ N lim, .pool (.called N lim) ∉ h) : ∀ e ∈ poolPart h, (!Pool.Event.isCall e) = true := by
  intro e he
  obtain ⟨x, hx, hxe⟩ := List.mem_filterMap.1 he
  cases x with
  | pool y =>
    simp only [Option.some.injEq] at hxe
    subst hxe
    cases y with
    | called N' lim' => exact absurd hx (hn N' lim')
    | _ => rfl
  | _ => simp at hxe

omit [DecidableEq S] [DecidableEq A] [Add R] [Zero R] in
theorem asked_no_call {h : List (Event S A R)} (hn : ∀ N lim, .pool (.called N lim) ∉ h) : asked h = [] := by
  rw [asked, List.filterMap_eq_nil_iff]
  intro e he
  cases e with
  | pool y =>
    cases y with
    | called N lim => exact absurd he (hn N lim)
    | _ => rfl
  | _ => rfl

theorem completes : ∀ (k : Nat) (h : List (Event S A R)) (s : St S A R X Y), h.length ≤ k → Reachable env m hash alg code n s0 dp tm tb lg s h →
    InTurn h → Pool.settled (poolPart h) = true → (numCompleted h : Int) = allAsked h := by
  intro k
  induction k with
  | zero =>
    intro h s hk _ _ _
    have : h = [] := by simpa using hk
    subst this
    rfl
  | succ k ih =>
    intro h s hk hr ht hs
    have w := (c81_when_joined hr hs).2.2.2.2
    obtain ⟨⟨ls, hp⟩, -⟩ := reach_project hr
    have H := Pool.inv_exec hp
    rcases last_call h with hno | ⟨later, N, lim, before, rfl, hno⟩
    · obtain ⟨e1, e2⟩ := no_call_hist (poolPart_no_call hno)
      have h1 := H.rem
      have h2 := H.rem0
      rw [e1] at h1
      rw [e2] at h1 h2
      rw [w, allAsked, asked_no_call hno]
      simp only [List.map_nil, List.sum_nil]
      omega
    · obtain ⟨rfl, hb⟩ := ht _ _ _ _ rfl
      obtain ⟨sb, hrb⟩ := reach_suffix (a := later ++ [.pool (.called N none)]) (b := before) (by simpa using hr)
      have I := ih before sb (by simp at hk; omega) hrb
        (fun l N' lim' b e => ht (later ++ .pool (.called N none) :: l) N' lim' b (by simp [e])) hb
      have wb := (c81_when_joined hrb hb).2.2.2.2
      have hpp : poolPart (later ++ .pool (.called N none) :: before) = poolPart later ++ .called N none :: poolPart before := by
        simp [poolPart, List.filterMap_append]
      obtain ⟨e0, e1, e2⟩ := lastLimit_app (N := N) (lim := none) (g := poolPart before) (poolPart_no_call hno)
      have hlim := pool_limit_exec hp
      have h1 := H.rem
      have h2 := H.rem0
      have hw := (H.sett hs).1
      rw [hpp] at hlim h1 h2
      rw [e0] at hlim
      rw [e1, e2] at h1
      rw [e2] at h2
      simp only [Pool.St.workLeft, Pool.St.expired, hlim] at hw
      have hrem : s.pool.remaining ≤ 0 := by
        by_contra hx
        simp [hx] at hw
      have ha : asked (later ++ .pool (.called N none) :: before) = N :: asked before := by
        have := asked_no_call hno
        unfold asked at this ⊢
        rw [List.filterMap_append, this]
        rfl
      rw [allAsked, ha]
      simp only [List.map_cons, List.sum_cons]
      rw [allAsked] at I
      rw [← I, wb, w, hpp]
      simp only [Pool.numStarted, List.countP_append, List.countP_cons, Pool.Event.isStart] at h1 h2 ⊢
      simp only [Bool.false_eq_true, if_false, Nat.add_zero]
      push_cast
      omega

end Verif.Prog
