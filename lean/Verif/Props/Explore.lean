import Verif.Proofs.Converge
import Verif.Props.Live

/-! # Property C75: UCT and PUCT keep trying every action -/

namespace Verif.Uct

open Verif.Search Verif.Backups

set_option linter.unusedSectionVars false

section
variable {S A : Type} [DecidableEq S] [DecidableEq A] {env : Env S A ℝ} {m : Manager S ℝ} {cfg : Cfg S A ℝ} {lo hi : ℝ} {next : S → A → S}

/-- C75.  For every number `B` there is a number `N` such that, in every search and at every moment, a node of state `s` through which
at least `N` trials went on has had each of its actions selected at least `B` times, and each has a child with at least `B` visits.
`N` depends on the environment, the configuration, the number of threads and the depth of the root, but not on the schedule, the
random draws, the node or the root state. -/
theorem c75_every_action_visited (F : Fair env cfg) (hb : Bounded env m lo hi) (hg : Growing cfg.term) (k : Nat) (dp : Int) (s : S)
    (B : Nat) : ∃ N : Nat, ∀ {s0 : S} {tm : Int} {tb : List ((Int × S) × Option Nat)} {st : St S A ℝ (Stats ℝ) (Stats ℝ)}
      {h : List (Event S A ℝ)}, Leftover tb → Reachable env m (uct cfg m) k s0 dp tm tb st h → ∀ {d : Nat} {nd}, st.dn[d]? = some nd →
      nd.state = s → N ≤ trialsThrough d h → ∀ a ∈ env.actions s, B ≤ timesSelected d a h ∧
        ∃ c nc, childC st d a = some c ∧ st.cn[c]? = some nc ∧ B ≤ nc.visits := by
  obtain ⟨N, hN⟩ := backed_often F hb hg k dp s (B + k + 1)
  refine ⟨N, ?_⟩
  intro s0 tm tb st h htb hr d nd hd hs hn a ha
  obtain ⟨h1, h2⟩ := hN st h ⟨s0, tm, tb, htb, hr⟩ d nd hd hs hn a ha
  obtain ⟨c, nc, h3, h4, _, h5⟩ := h2 (by omega)
  exact ⟨by omega, c, nc, h3, h4, by omega⟩

/-- C75 for UCT. -/
theorem c75_uct (F : Fair env cfg) (hb : Bounded env m lo hi) (ht : cfg.term = uctTerm) (k : Nat) (dp : Int) (s : S)
    (B : Nat) : ∃ N : Nat, ∀ {s0 : S} {tm : Int} {tb : List ((Int × S) × Option Nat)} {st : St S A ℝ (Stats ℝ) (Stats ℝ)}
      {h : List (Event S A ℝ)}, Leftover tb → Reachable env m (uct cfg m) k s0 dp tm tb st h → ∀ {d : Nat} {nd}, st.dn[d]? = some nd →
      nd.state = s → N ≤ trialsThrough d h → ∀ a ∈ env.actions s, B ≤ timesSelected d a h ∧
        ∃ c nc, childC st d a = some c ∧ st.cn[c]? = some nc ∧ B ≤ nc.visits :=
  c75_every_action_visited F hb (by rw [ht]; exact uct_growing) k dp s B

/-- C75 for PUCT, with any positive power. -/
theorem c75_puct (F : Fair env cfg) (hb : Bounded env m lo hi) {p : ℝ} (hp : 0 < p) (ht : cfg.term = puctTerm p) (k : Nat) (dp : Int)
    (s : S) (B : Nat) : ∃ N : Nat, ∀ {s0 : S} {tm : Int} {tb : List ((Int × S) × Option Nat)} {st : St S A ℝ (Stats ℝ) (Stats ℝ)}
      {h : List (Event S A ℝ)}, Leftover tb → Reachable env m (uct cfg m) k s0 dp tm tb st h → ∀ {d : Nat} {nd}, st.dn[d]? = some nd →
      nd.state = s → N ≤ trialsThrough d h → ∀ a ∈ env.actions s, B ≤ timesSelected d a h ∧
        ∃ c nc, childC st d a = some c ∧ st.cn[c]? = some nc ∧ B ≤ nc.visits :=
  c75_every_action_visited F hb (by rw [ht]; exact puct_growing hp) k dp s B

variable {k : Nat} {s0 : S} {dp tm : Int} {tb : List ((Int × S) × Option Nat)} {st : St S A ℝ (Stats ℝ) (Stats ℝ)}
  {h : List (Event S A ℝ)}

/-- Every completed trial went on from the root, unless the root is a leaf. -/
theorem root_trials (htb : Leftover tb) (hr : Reachable env m (uct cfg m) k s0 dp tm tb st h) (hs : env.isSink s0 = false)
    (hd : dp < m.maxDepth) : ∃ nd, st.dn[st.root]? = some nd ∧ nd.state = s0 ∧ nd.depth = dp ∧ nd.time = tm ∧
      trialsCompleted h ≤ trialsThrough st.root h := by
  obtain ⟨I, C⟩ := reach_both (uct_valid cfg m) htb hr
  obtain ⟨nd, h1, h2, h3, h4⟩ := root_node I.tree
  refine ⟨nd, h1, h2, h3, h4, ?_⟩
  have hl : isLeaf env m nd = false := by
    unfold isLeaf
    rw [h2, hs, h3]
    simpa using hd
  have e1 := root_ends (uct_valid cfg m) htb hr h1 hl
  have e2 := C.v4 st.root
  rw [if_pos rfl] at e2
  have e3 := C.v5
  have e4 : st.ws.countP (Phase.inSel st.root) ≤ st.ws.countP Phase.busy := by
    apply List.countP_mono_left
    intro p _
    cases p <;> simp [Phase.inSel, Phase.busy]
  have e5 : h.countP Event.isCompleted = trialsCompleted h := countP_congr' h (fun e => by cases e <;> rfl)
  rw [trials_eq]
  omega

/-- C75 at the root, in terms of completed trials. -/
theorem c75_root (F : Fair env cfg) (hb : Bounded env m lo hi) (hg : Growing cfg.term) (k : Nat) {dp : Int} {s : S}
    (hs : env.isSink s = false) (hd : dp < m.maxDepth) (B : Nat) :
    ∃ N : Nat, ∀ {tm : Int} {tb : List ((Int × S) × Option Nat)} {st : St S A ℝ (Stats ℝ) (Stats ℝ)} {h : List (Event S A ℝ)},
      Leftover tb → Reachable env m (uct cfg m) k s dp tm tb st h → N ≤ trialsCompleted h → ∀ a ∈ env.actions s,
        ∃ c nc, childC st st.root a = some c ∧ st.cn[c]? = some nc ∧ B ≤ nc.visits := by
  obtain ⟨N, hN⟩ := c75_every_action_visited F hb hg k dp s B
  refine ⟨N, ?_⟩
  intro tm tb st h htb hr hn a ha
  obtain ⟨nd, h1, h2, _, _, h3⟩ := root_trials htb hr hs hd
  exact (hN htb hr h1 h2 (hn.trans h3) a ha).2

/-- The visits of the successor of an action in a deterministic environment. -/
theorem next_visits (hdet : ∀ s a, a ∈ env.actions s → env.succ s a = [next s a]) (htb : Leftover tb)
    (hr : Reachable env m (uct cfg m) k s0 dp tm tb st h) {d c : Nat} {a : A} {nd : DNode S A ℝ (Stats ℝ)} {nc : CNode S A ℝ (Stats ℝ)}
    (hd : st.dn[d]? = some nd) (hc : childC st d a = some c) (hnc : st.cn[c]? = some nc) (hv : 0 < nc.visits) :
    ∃ d' nd', childD st c (next nd.state a) = some d' ∧ st.dn[d']? = some nd' ∧ nd'.state = next nd.state a ∧ nd'.depth = nd.depth + 1 ∧
      nc.visits ≤ nd'.visits + k := by
  obtain ⟨I, C⟩ := reach_both (uct_valid cfg m) htb hr
  obtain ⟨B, _⟩ := reach_bk hr
  obtain ⟨nd1, nc1, k1, k2, k3, k4, k5, k6, k7, k8⟩ := childC_facts I.tree hc
  rw [hd] at k1; simp at k1; subst k1
  rw [hnc] at k2; simp at k2; subst k2
  have hev : ∀ w d1 a1 o d' r g, Event.stepped w d1 a1 c o d' r g ∈ h → o = next nd.state a ∧ childD st c (next nd.state a) = some d' := by
    intro w d1 a1 o d' r g he
    have h1 := (C.evStep w d1 a1 c o d' r g he).1
    obtain ⟨nc', nd', g1, _, _, _, _, _, g2⟩ := childD_facts I.tree h1
    rw [hnc] at g1; simp at g1; subst g1
    rw [k4, k5, hdet _ _ k8] at g2
    simp at g2
    subst g2
    exact ⟨rfl, h1⟩
  have h2 := C.v2 c nc hnc
  obtain ⟨e, he, hs⟩ := List.countP_pos_iff.1 (by omega : 0 < h.countP (Event.stepVia c))
  obtain ⟨d', hd'⟩ : ∃ d', childD st c (next nd.state a) = some d' := by
    cases e with
    | stepped w d1 a1 c1 o d' r g =>
      have hcc : c1 = c := by simpa [Event.stepVia] using hs
      subst hcc
      exact ⟨d', (hev w d1 a1 o d' r g he).2⟩
    | _ => simp [Event.stepVia] at hs
  obtain ⟨nc', nd', g1, g2, g3, g4, g5, g6, _⟩ := childD_facts I.tree hd'
  rw [hnc] at g1; simp at g1; subst g1
  refine ⟨d', nd', hd', g2, g4, by omega, ?_⟩
  have h3 : h.countP (Event.stepVia c) ≤ h.countP (Event.stepInto d') := by
    apply List.countP_mono_left
    intro e he hs
    cases e with
    | stepped w d1 a1 c1 o d2 r g =>
      have hcc : c1 = c := by simpa [Event.stepVia] using hs
      subst hcc
      have := (hev w d1 a1 o d2 r g he).2
      rw [hd'] at this
      simp at this
      subst this
      simp [Event.stepInto]
    | _ => simp [Event.stepVia] at hs
  have h4 := C.v4 d'
  have h5 := C.v1 d' nd' g2
  have h6 := List.countP_le_length (p := Phase.inSel d') (l := st.ws)
  have h7 := reach_len hr
  omega

/-- C75, below the root: in a deterministic environment every line of play is played again and again. -/
theorem c75_every_line (hdet : ∀ s a, a ∈ env.actions s → env.succ s a = [next s a]) (F : Fair env cfg) (hb : Bounded env m lo hi)
    (hg : Growing cfg.term) (hnt : m.useTable = false) (k : Nat) (dp : Int) (s : S) {as : List A} (hval : ValidLine env next s as)
    (hlen : as.length ≤ m.maxDepth - dp) (B : Nat) :
    ∃ N : Nat, ∀ {tm : Int} {tb : List ((Int × S) × Option Nat)} {st : St S A ℝ (Stats ℝ) (Stats ℝ)} {h : List (Event S A ℝ)},
      Leftover tb → Reachable env m (uct cfg m) k s dp tm tb st h → N ≤ trialsCompleted h →
        ∃ d nd, follow st next st.root s as = some d ∧ st.dn[d]? = some nd ∧ nd.state = as.foldl next s ∧ B ≤ nd.visits := by
  have gen : ∀ (as : List A) (s : S), ValidLine env next s as → ∃ N : Nat, ∀ {s0 : S} {tm : Int} {tb : List ((Int × S) × Option Nat)}
      {st : St S A ℝ (Stats ℝ) (Stats ℝ)} {h : List (Event S A ℝ)}, Leftover tb → Reachable env m (uct cfg m) k s0 dp tm tb st h →
      ∀ {d : Nat} {nd}, st.dn[d]? = some nd → nd.state = s → as.length ≤ m.maxDepth - nd.depth → N ≤ nd.visits →
        ∃ d' nd', follow st next d s as = some d' ∧ st.dn[d']? = some nd' ∧ nd'.state = as.foldl next s ∧ B ≤ nd'.visits := by
    intro as
    induction as with
    | nil =>
      intro s _
      exact ⟨B, fun htb hr d nd hd hs _ hn => ⟨d, nd, rfl, hd, hs, hn⟩⟩
    | cons a as ih =>
      rintro s ⟨v1, v2, v3⟩
      obtain ⟨N', hN'⟩ := ih (next s a) v3
      obtain ⟨N, hN⟩ := c75_every_action_visited F hb hg k dp s (N' + k + 1)
      refine ⟨N + (uct cfg m).initVisits + 1, ?_⟩
      intro s0 tm tb st h htb hr d nd hd hs hlen hn
      obtain ⟨I, C⟩ := reach_both (uct_valid cfg m) htb hr
      have hl : isLeaf env m nd = false := by
        unfold isLeaf
        rw [hs, v1]
        simp only [Bool.false_or, decide_eq_false_iff_not]
        simp only [List.length_cons] at hlen
        push_cast at hlen
        omega
      have e1 := ends_le_one (uct_valid cfg m) htb hnt hr hd hl
      have e2 := C.v1 d nd hd
      rw [← trials_eq] at e2
      obtain ⟨_, c, nc, g1, g2, g3⟩ := hN htb hr hd hs (by omega) a v2
      obtain ⟨d', nd', q1, q2, q3, q4, q5⟩ := next_visits hdet htb hr hd g1 g2 (by omega)
      rw [hs] at q1 q3
      obtain ⟨d'', nd'', r1, r2⟩ := hN' htb hr q2 q3 (by
        simp only [List.length_cons] at hlen; push_cast at hlen; omega) (by omega)
      refine ⟨d'', nd'', ?_, r2⟩
      simp only [follow, g1, q1, Option.bind_some]
      exact r1
  obtain ⟨N, hN⟩ := gen as s hval
  refine ⟨N, ?_⟩
  intro tm tb st h htb hr hn
  obtain ⟨I, C⟩ := reach_both (uct_valid cfg m) htb hr
  obtain ⟨nd, h1, h2, h3, h4⟩ := root_node I.tree
  refine hN htb hr h1 h2 (by rw [h3]; exact hlen) ?_
  have e1 := C.v1 st.root nd h1
  have e2 := C.v4 st.root
  rw [if_pos rfl] at e2
  have e3 := C.v5
  have e4 : st.ws.countP (Phase.inSel st.root) ≤ st.ws.countP Phase.busy := by
    apply List.countP_mono_left
    intro p _
    cases p <;> simp [Phase.inSel, Phase.busy]
  have e5 : h.countP Event.isCompleted = trialsCompleted h := countP_congr' h (fun e => by cases e <;> rfl)
  omega

theorem Solvable.growing (G : Solvable env m cfg next lo hi) : Growing cfg.term := by
  rcases G.term with h | ⟨p, h1, _, h⟩ | h
  · rw [h]; exact uct_growing
  · rw [h]; exact puct_growing h1
  · exact h.1

theorem Solvable.vanishing (G : Solvable env m cfg next lo hi) : Vanishing cfg.term := by
  rcases G.term with h | ⟨p, _, h2, h⟩ | h
  · rw [h]; exact uct_vanishing
  · rw [h]; exact puct_vanishing h2
  · exact h.2

end

/-! ## A game -/

namespace Game

/-- A game of two moves, the opponent second: the replies to move 0 are worth 3 and 5, those to move 1 are worth 0 and 9.  The averages
of the replies favour move 1; the value of the game is 3, by move 0. -/
def env : Env Nat Nat ℝ where
  isSink s := decide (3 ≤ s)
  actions s := if s < 3 then [0, 1] else []
  succ s a := [2 * s + 1 + a]
  reward _ _ o := if o = 3 then 3 else if o = 4 then 5 else if o = 6 then 9 else 0

def mgr : Manager Nat ℝ := { maxDepth := 2, mctsMode := true, twoPlayer := true, useTable := false, numMutexes := 1, heuristic := none }

def next (s a : Nat) : Nat := 2 * s + 1 + a

noncomputable def cfg (mv : Bool) (prior : Option (Nat → List (Nat × ℝ))) (term : Nat → Nat → ℝ) : Cfg Nat Nat ℝ :=
  { bias := -1, pseudo := 0, mostVisited := mv, epsilon := 0, prior := prior, term := term, low := -1000 }

theorem bounded : Bounded env mgr 0 9 where
  lo0 := le_refl _
  hi0 := by norm_num
  reward s a o _ _ := by
    simp only [env]
    split_ifs <;> norm_num
  heur s := by simp [heurOf, mgr]

theorem solvable (mv : Bool) {prior : Option (Nat → List (Nat × ℝ))} {term : Nat → Nat → ℝ}
    (hp : prior = none ∨ prior = some (fun _ => [(0, 1 / 4), (1, 3 / 4)])) (ht : term = uctTerm ∨ term = puctTerm (1 / 2)) :
    Solvable env mgr (cfg mv prior term) next 0 9 where
  det s a _ := rfl
  bounded := bounded
  noTable := rfl
  fair :=
    { eps := le_refl _
      bias := .inl rfl
      prior := by
        intro f hf s a ha
        rcases hp with rfl | rfl
        · simp [cfg] at hf
        · simp only [cfg, Option.some.injEq] at hf
          subst hf
          simp only [env] at ha
          split at ha
          · simp at ha
            rcases ha with rfl | rfl
            · exact ⟨1 / 4, by simp [find?], by norm_num⟩
            · exact ⟨3 / 4, by simp [find?], by norm_num⟩
          · simp at ha }
  term := by
    rcases ht with rfl | rfl
    · exact .inl rfl
    · exact .inr (.inl ⟨1 / 2, by norm_num, by norm_num, rfl⟩)

theorem live : env.Live where
  acts s h := by simp only [env, decide_eq_false_iff_not, not_le] at h ⊢; simp [h]
  succs s _ a _ := by simp [env]

theorem uctOk (mv : Bool) {prior : Option (Nat → List (Nat × ℝ))} {term : Nat → Nat → ℝ}
    (hp : prior = none ∨ prior = some (fun _ => [(0, 1 / 4), (1, 3 / 4)])) (ht : term = uctTerm ∨ term = puctTerm (1 / 2)) :
    UctOk (cfg mv prior term) env mgr 0 0 9 where
  bounded := bounded
  term := (solvable mv hp ht).growing.1
  bias := .inl rfl
  prior := by
    intro f hf s a ha
    obtain ⟨p, h1, h2⟩ := (solvable mv hp ht).fair.prior f hf s a ha
    exact ⟨p, h1, h2.le⟩
  low := by norm_num [cfg, remaining, mgr, show Int.toNat 2 = 2 from rfl]

/-- The hypotheses hold for this game: after some number of trials of three workers the line of moves 1, 0 has been played a
hundred times, and searches of that many trials exist. -/
example : ∃ N, (∀ {st : St Nat Nat ℝ (Stats ℝ) (Stats ℝ)} {h : List (Event Nat Nat ℝ)},
      Reachable env mgr (uct (cfg true none uctTerm) mgr) 3 0 0 0 [] st h → N ≤ trialsCompleted h →
      ∃ d nd, follow st next st.root 0 [1, 0] = some d ∧ st.dn[d]? = some nd ∧ nd.state = 5 ∧ 100 ≤ nd.visits) ∧
    ∃ (st : St Nat Nat ℝ (Stats ℝ) (Stats ℝ)) (h : List (Event Nat Nat ℝ)),
      Reachable env mgr (uct (cfg true none uctTerm) mgr) 3 0 0 0 [] st h ∧ N ≤ trialsCompleted h := by
  have G := solvable true (prior := none) (term := uctTerm) (.inl rfl) (.inl rfl)
  obtain ⟨N, hN⟩ := c75_every_line G.det G.fair G.bounded G.growing rfl 3 0 0 (as := [1, 0]) (by simp [ValidLine, env, next]) (by simp [mgr]) 100
  refine ⟨N, fun hr hn => hN (by simp [Leftover]) hr hn, ?_⟩
  obtain ⟨st, ext, h1, h2⟩ := c74_any_number_of_trials (h := []) live (uct_valid _ _) (by simp [Leftover]) (by simp [TableOk, mgr])
    (c74_uct_selects (uctOk true (.inl rfl) (.inl rfl)) live (by simp [Leftover])) (by simp [mgr])
    (⟨[], rfl⟩ : Reachable env mgr (uct (cfg true none uctTerm) mgr) 3 0 0 0 [] _ []) (w := 0) (by norm_num) N
  exact ⟨st, ext, by simpa using h1, h2⟩

end Game

end Verif.Uct
