import Verif.Proofs.SoftGame
import Verif.Proofs.Erase
import Verif.Proofs.Between
import Verif.Props.Dents
import Verif.Props.Tree

/-!
# What the soft values of a finished search mean: C68, C69

`softTree` (the soft minimax value of the search tree) is defined in `Verif.Spec.SoftTree`, `gameValue` in `Verif.Spec.Tree`.  The
theorems hold for every algorithm that keeps soft values through the MENTS classes (`HasSoft`), that is for MENTS and DB-MENTS
(`c68_instances`).
-/

namespace Verif.Ments

open Verif.Search Verif.Backups Verif.Dents
open Verif.Uct (IterOk)

set_option linter.unusedSimpArgs false
set_option linter.unusedSectionVars false

variable {S A X Y : Type} [DecidableEq S] [DecidableEq A]
  {env : Env S A ℝ} {m : Manager S ℝ} {alg : Alg S A ℝ X Y} {px : X → Soft} {py : Y → Soft} {lr : S → A → ℝ} {cfg : Cfg S A}
  {k : Nat} {s0 : S} {dp tm : Int} {tb : List ((Int × S) × Option Nat)} {st : St S A ℝ X Y} {h : List (Event S A ℝ)}
  {next : S → A → S}

/-! ## C68 -/

/-- MENTS and DB-MENTS keep soft values. -/
theorem c68_instances (eps : ℝ) (cfg : Cfg S A) (lr : S → A → ℝ) :
    HasSoft (ments eps cfg lr) id id cfg lr ∧ HasSoft (dbments eps cfg lr) DB.soft DB.soft cfg lr :=
  ⟨ments_hasSoft eps cfg lr, ⟨fun _ _ _ _ => rfl, fun _ _ _ _ => rfl, fun _ _ => rfl, fun _ => rfl, fun _ _ _ => rfl, fun _ _ _ _ _ => rfl⟩⟩

/-- C68.  Constant temperature, no transposition table: whenever no trial is running the soft value of every decision node is the soft
minimax value of the tree below it. -/
theorem c68_soft_value_of_tree (hv : alg.Valid) (H : HasSoft alg px py cfg lr) (hp : PriorTotal cfg env) (hdec : cfg.decay = none)
    (hvis : ∀ x, alg.visitD false x = x)
    (hu : m.useTable = false) (htb : Leftover tb) (hr : Reachable env m alg k s0 dp tm tb st h) (hq : Quiescent st)
    {d : Nat} {nd : DNode S A ℝ X} (hd : st.dn[d]? = some nd) :
    softD px st d = some (softTree cfg env m lr st h (remaining m nd.depth) d) :=
  soft_tree hv H hp hdec hvis hu htb hr hq _ d nd hd (by simp [remaining])

/-- C68.  If moreover the environment is deterministic and every action of every node that is not a leaf has been tried, the soft value
of a node differs from the value of the game by at most `temp * log B` per move to go, where no state has more than `B` actions. -/
theorem c68_near_game_value (hdet : ∀ s a, a ∈ env.actions s → env.succ s a = [next s a])
    (hlr : ∀ s a, a ∈ env.actions s → lr s a = env.reward s a (next s a)) (hne : ∀ s, env.isSink s = false → env.actions s ≠ [])
    (hv : alg.Valid) (H : HasSoft alg px py cfg lr) (hp : PriorTotal cfg env) (hdec : cfg.decay = none) (ht : 0 < cfg.temp)
    (hvis : ∀ x, alg.visitD false x = x) (hu : m.useTable = false) (htb : Leftover tb)
    (hr : Reachable env m alg k s0 dp tm tb st h) (hq : Quiescent st) (hx : Exhausted env m st)
    {B : Nat} (hB : ∀ s, (env.actions s).length ≤ B) {d : Nat} {nd : DNode S A ℝ X} (hd : st.dn[d]? = some nd) :
    ∃ v, softD px st d = some v ∧
      |v - gameValue env m next (remaining m nd.depth) nd.time nd.state| ≤ remaining m nd.depth * (cfg.temp * Real.log B) :=
  ⟨_, c68_soft_value_of_tree hv H hp hdec hvis hu htb hr hq hd,
    soft_game hdet hlr hne hv htb hr hq hx ht hB _ d nd hd rfl⟩

/-- C68.  So is the soft value of an action, with one move fewer to go. -/
theorem c68_near_action_values (hdet : ∀ s a, a ∈ env.actions s → env.succ s a = [next s a])
    (hlr : ∀ s a, a ∈ env.actions s → lr s a = env.reward s a (next s a)) (hne : ∀ s, env.isSink s = false → env.actions s ≠ [])
    (hv : alg.Valid) (H : HasSoft alg px py cfg lr) (hp : PriorTotal cfg env) (hdec : cfg.decay = none) (ht : 0 < cfg.temp)
    (hvis : ∀ x, alg.visitD false x = x) (hu : m.useTable = false) (htb : Leftover tb)
    (hr : Reachable env m alg k s0 dp tm tb st h) (hq : Quiescent st) (hx : Exhausted env m st)
    {B : Nat} (hB : ∀ s, (env.actions s).length ≤ B) {d c : Nat} {a : A} {nd : DNode S A ℝ X} (hd : st.dn[d]? = some nd)
    (hc : childC st d a = some c) :
    ∃ v, softC py st c = some v ∧
      |v - (env.reward nd.state a (next nd.state a) + gameValue env m next (remaining m (nd.depth + 1)) (nd.time + 1) (next nd.state a))|
        ≤ remaining m (nd.depth + 1) * (cfg.temp * Real.log B) := by
  have I := reach_inv hv htb hr
  have hl : isLeaf env m nd = false := by
    by_contra hl
    obtain ⟨nd1, _, f1, _, f3, _⟩ := childC_facts I.tree hc
    rw [hd] at f1
    obtain rfl := Option.some.inj f1
    have hl : isLeaf env m nd = true := by simpa using hl
    rw [isLeaf_skel] at hl
    have hk : nd.kids = [] := I.tree.heap.dLeaf d nd.skel (by simp [hd]) hl
    rw [hk] at f3
    simp at f3
  have hn : (m.maxDepth - nd.depth).toNat = remaining m (nd.depth + 1) + 1 := by
    simp [isLeaf] at hl
    unfold remaining
    omega
  obtain ⟨nc, h1, h2⟩ := soft_chance (n := remaining m (nd.depth + 1)) hv H hp hvis hu htb hr hq
    (fun d nd hd hn => soft_tree hv H hp hdec hvis hu htb hr hq _ d nd hd hn) hd hn.le hc
  refine ⟨_, by simp only [softC, h1, Option.bind_some]; exact h2, ?_⟩
  exact chanceSoft_det hdet hlr hne hv htb hr hq hx
    (fun d nd hd hn => soft_game hdet hlr hne hv htb hr hq hx ht hB _ d nd hd hn) hd hc h1 hn

/-- C68.  The action recommended by soft value (with a threshold of at most one visit) at a node that is not a leaf is then within
`2 * temp * log B` per remaining move of an optimal move of the game, for the player to move there. -/
theorem c68_recommends_near_optimal (hdet : ∀ s a, a ∈ env.actions s → env.succ s a = [next s a])
    (hlr : ∀ s a, a ∈ env.actions s → lr s a = env.reward s a (next s a)) (hne : ∀ s, env.isSink s = false → env.actions s ≠ [])
    (hv : alg.Valid) (H : HasSoft alg px py cfg lr) (hp : PriorTotal cfg env) (hdec : cfg.decay = none) (ht : 0 < cfg.temp)
    (hvis : ∀ x, alg.visitD false x = x) (hu : m.useTable = false) (htb : Leftover tb)
    (hr : Reachable env m alg k s0 dp tm tb st h) (hq : Quiescent st) (hx : Exhausted env m st)
    {B : Nat} (hB : ∀ s, (env.actions s).length ≤ B) {d : Nat} {nd : DNode S A ℝ X} (hd : st.dn[d]? = some nd)
    (hleaf : isLeaf env m nd = false) (hth : cfg.threshold ≤ 1)
    (hlow : ∀ a ∈ env.actions nd.state, cfg.low + remaining m (nd.depth + 1) * (cfg.temp * Real.log B) ≤ sgn (isOpponent m nd.time) *
      (env.reward nd.state a (next nd.state a) + gameValue env m next (remaining m (nd.depth + 1)) (nd.time + 1) (next nd.state a)))
    (raw : Nat) {iter : List (A × ℝ) → List (A × ℝ)} (hi : IterOk iter) :
    ∃ a ∈ env.actions nd.state, recommendSoft cfg (mentsQ cfg py (viewOf env m st nd)) (viewOf env m st nd) raw iter = .ok (some a) ∧
      ∀ b ∈ env.actions nd.state,
        sgn (isOpponent m nd.time) * (env.reward nd.state b (next nd.state b) +
            gameValue env m next (remaining m (nd.depth + 1)) (nd.time + 1) (next nd.state b)) ≤
          sgn (isOpponent m nd.time) * (env.reward nd.state a (next nd.state a) +
            gameValue env m next (remaining m (nd.depth + 1)) (nd.time + 1) (next nd.state a)) +
          2 * (remaining m (nd.depth + 1) * (cfg.temp * Real.log B)) := by
  obtain ⟨I, C⟩ := reach_both hv htb hr
  obtain ⟨Bk, _⟩ := reach_bk hr
  set ε := remaining m (nd.depth + 1) * (cfg.temp * Real.log B) with hε
  let G : A → ℝ := fun a => env.reward nd.state a (next nd.state a) +
    gameValue env m next (remaining m (nd.depth + 1)) (nd.time + 1) (next nd.state a)
  let Q : A → ℝ := fun a => sgn (isOpponent m nd.time) * ((childC st d a).elim 0 fun c => (softC py st c).getD 0)
  have hsink : env.isSink nd.state = false := by
    simp [isLeaf] at hleaf
    exact hleaf.1
  have hfk : ∀ a, find? a (kidsY st nd) = (find? a nd.kids).bind fun c => (st.cn[c]?).map fun nc => (nc.visits, nc.y) := by
    intro a
    refine find?_kidsY a ?_
    intro p hp
    obtain ⟨_, nc, _, f2, _⟩ := childC_facts I.tree (childC_of_mem I.tree hd (show (p.1, p.2) ∈ nd.kids from hp))
    exact ⟨nc, f2⟩
  have hkv : (viewOf env m st nd).kids = kidsY st nd := rfl
  have hov : (viewOf env m st nd).opp = isOpponent m nd.time := rfl
  have hav : (viewOf env m st nd).actions = env.actions nd.state := rfl
  have key : ∀ a ∈ env.actions nd.state, ∃ c nc v, find? a nd.kids = some c ∧ st.cn[c]? = some nc ∧ (py nc.y).val = some v ∧
      Q a = sgn (isOpponent m nd.time) * v ∧ |v - G a| ≤ ε ∧ 1 ≤ nc.visits := by
    intro a ha
    obtain ⟨c, hc⟩ := hx d nd hd hleaf a ha
    obtain ⟨nd1, nc, f1, f2, _⟩ := childC_facts I.tree hc
    rw [hd] at f1
    obtain rfl := Option.some.inj f1
    obtain ⟨v, h1, h2⟩ := c68_near_action_values hdet hlr hne hv H hp hdec ht hvis hu htb hr hq hx hB hd hc
    have hfind : find? a nd.kids = some c := by simpa [childC, hd] using hc
    refine ⟨c, nc, v, hfind, f2, ?_, ?_, h2, ?_⟩
    · simpa [softC, f2] using h1
    · simp only [Q, hc, Option.elim_some, h1, Option.getD_some]
    · have := (c39_children_backed hv htb hr hq hc).2
      have h3 := Bk.c c
      have h4 := List.length_pos_iff.2 this
      have h5 := C.v2 c nc f2
      omega
  have hQ : QIs (mentsQ cfg py (viewOf env m st nd)) (viewOf env m st nd) Q := by
    intro a ha
    rw [hav] at ha
    obtain ⟨c, nc, v, k1, k2, k3, k4, _⟩ := key a ha
    unfold mentsQ
    rw [hkv, hfk, k1]
    simp only [Option.bind_some, k2, Option.map_some, k3, hov, k4]
    congr 1
    unfold Backups.oppCoeff sgn
    split <;> ring
  have hs : ∀ a ∈ env.actions nd.state, |Q a - sgn (isOpponent m nd.time) * G a| ≤ ε := by
    intro a ha
    obtain ⟨c, nc, v, k1, k2, k3, k4, k5, _⟩ := key a ha
    rw [k4, ← mul_sub, abs_mul]
    have : |sgn (isOpponent m nd.time)| = 1 := by unfold sgn; split <;> simp
    rw [this, one_mul]
    exact k5
  obtain ⟨a, ha, h1, h2, h3⟩ := c37_best_soft_value hQ (hne _ hsink) (by
    intro a ha
    have h1 := hlow a ha
    have h2 := (abs_sub_le_iff.1 (hs a ha)).2
    simp only [G] at h2
    linarith) raw hi
  refine ⟨a, ha, h1, ?_⟩
  intro b hb
  have hmeets : ∀ b ∈ env.actions nd.state, Meets cfg (viewOf env m st nd) b := by
    intro b hb
    obtain ⟨c, nc, v, k1, k2, k3, k4, _, k6⟩ := key b hb
    refine ⟨nc.visits, nc.y, ?_, by omega⟩
    rw [hkv, hfk, k1]
    simp [k2]
  have hle := (h2 ⟨a, ha, hmeets a ha⟩).2 b hb (hmeets b hb)
  have e1 := (abs_sub_le_iff.1 (hs b hb)).2
  have e2 := (abs_sub_le_iff.1 (hs a ha)).1
  simp only [G] at e1 e2
  linarith

/-- MENTS backups with an arbitrary choice of actions. -/
noncomputable def freeMents (cfg : Cfg S A) (lr : S → A → ℝ) : Alg S A ℝ Soft Soft :=
  { ments 0 cfg lr with canSelect := fun v _ a => decide (a ∈ v.actions) }

/-- The deterministic game of `Verif.Spec.DpToy` over the reals. -/
noncomputable def gEnv : Env Nat Nat ℝ where
  isSink s := decide (5 ≤ s)
  actions _ := [0, 1]
  succ s a := [Det.next s a]
  reward s a o := 7 * s - 3 * a + o

noncomputable def gMgr : Manager Nat ℝ where
  maxDepth := 2
  mctsMode := false
  twoPlayer := true
  useTable := false
  numMutexes := 1
  heuristic := some (fun s => if s % 2 = 0 then 100 else 50)

def idle? : Phase Nat Nat ℝ → Bool
  | .idle => true
  | _ => false

/-- Every action of every node that is not a leaf has been tried. -/
noncomputable def tried? (st : St Nat Nat ℝ Unit Unit) : Bool :=
  (List.range st.dn.length).all fun d => (st.dn[d]?).any fun nd => isLeaf gEnv gMgr nd ||
    (gEnv.actions nd.state).all fun a => (childC st d a).isSome

theorem g_exec : ((execFrom gEnv gMgr (free Nat Nat ℝ 0) (init gEnv gMgr (free Nat Nat ℝ 0) 2 0 0 0 []) [] Det.sched).any fun p =>
    p.1.ws.all idle? && tried? p.1 && p.1.dn.length == 7) = true := by
  decide +kernel

/-- Two workers play out the game. -/
theorem g_run (cfg : Cfg Nat Nat) (lr : Nat → Nat → ℝ) : ∃ st h, Reachable gEnv gMgr (freeMents cfg lr) 2 0 0 0 [] st h ∧
    Quiescent st ∧ Exhausted gEnv gMgr st ∧ st.dn.length = 7 := by
  obtain ⟨st, h, h1, h2⟩ := run_erase (env := gEnv) (m := gMgr) (alg := freeMents cfg lr) (fun _ _ _ => rfl) 2 0 0 0 Det.sched
    (fun st _ => (st.ws.all idle? && tried? st && st.dn.length == 7) = true) (by
      obtain ⟨p, h1, h2⟩ := (Option.any_eq_true _ _).1 g_exec
      exact ⟨p, h1, h2⟩)
  simp only [Bool.and_eq_true, List.all_eq_true, beq_iff_eq] at h2
  obtain ⟨⟨h2, h3⟩, h4⟩ := h2
  refine ⟨st, h, h1, ?_, ?_, by simpa [St.erase] using h4⟩
  · intro w p hp
    have := h2 p (by simpa [St.erase] using List.mem_of_getElem? hp)
    cases p <;> simp [idle?] at this ⊢
  · intro d nd hd hl a ha
    have hlt : d < st.dn.length := (List.getElem?_eq_some_iff.1 hd).1
    unfold tried? at h3
    have := List.all_eq_true.1 h3 d (by simpa [St.erase] using hlt)
    simp only [St.erase, List.getElem?_map, hd, Option.map_some, Option.any_some, Bool.or_eq_true, List.all_eq_true] at this
    rcases this with h5 | h5
    · rw [show isLeaf gEnv gMgr nd.erase = isLeaf gEnv gMgr nd from rfl, hl] at h5
      simp at h5
    · have h6 := h5 a ha
      obtain ⟨c, hc⟩ := Option.isSome_iff_exists.1 h6
      refine ⟨c, ?_⟩
      simpa [childC, St.erase, hd, DNode.erase] using hc

/-- A configuration with the constant temperature 1/10. -/
noncomputable def gCfg : Cfg Nat Nat :=
  { temp := 1 / 10, priorWeight := 0, epsilon := 1 / 2, rootEpsilon := -1, maxExplore := 1, decay := none, minTemp := 1 / 10 ^ 6,
    scale := 1, rootScale := -1, defaultQ := 0, shift := false, offset := 0, threshold := 0, mostVisited := false, prior := none,
    low := -10 ^ 308 }

/-- The hypotheses of C68 hold in that run, and the value of the root is within `2/10 * log 2` of that of the game. -/
example : ∃ st h v, Reachable gEnv gMgr (freeMents gCfg fun s a => gEnv.reward s a (Det.next s a)) 2 0 0 0 [] st h ∧ st.dn.length = 7 ∧
    softD id st st.root = some v ∧ |v - gameValue gEnv gMgr Det.next 2 0 0| ≤ (2 : Nat) * (gCfg.temp * Real.log (2 : Nat)) := by
  obtain ⟨st, h, h1, h2, h3, h4⟩ := g_run gCfg fun s a => gEnv.reward s a (Det.next s a)
  have hv : (freeMents gCfg fun s a => gEnv.reward s a (Det.next s a)).Valid := by
    intro v _ a h
    simpa [freeMents] using h
  obtain ⟨nd, r1, r2, r3, r4⟩ := root_node (reach_inv hv (by intro p hp; simp at hp) h1).tree
  obtain ⟨v, g1, g2⟩ := c68_near_game_value (next := Det.next) (B := 2) (px := id) (py := id) (cfg := gCfg)
    (fun _ _ _ => rfl) (fun _ _ _ => rfl) (fun _ _ => by simp [gEnv]) hv
    ⟨fun _ _ _ _ => rfl, fun _ _ _ _ => rfl, fun _ _ => rfl, fun _ => rfl, fun _ _ _ => rfl, fun _ _ _ _ _ => rfl⟩
    (by intro f hf; simp [gCfg] at hf) rfl (by norm_num [gCfg]) (fun _ => rfl) rfl (by intro p hp; simp at hp) h1 h2 h3
    (fun _ => le_rfl) r1
  rw [r2, r3, r4] at g2
  exact ⟨st, h, v, h1, h4, g1, g2⟩

/-! ## C69 -/

section
variable {𝕜 X' Y' : Type} [Field 𝕜] [LinearOrder 𝕜] [IsStrictOrderedRing 𝕜]
  {env' : Env S A 𝕜} {m' : Manager S 𝕜} {alg' : Alg S A 𝕜 X' Y'} {pdx : X' → Dp 𝕜} {pdy : Y' → Dp 𝕜} {lr' : S → A → 𝕜}
  {st' : St S A 𝕜 X' Y'} {h' : List (Event S A 𝕜)}

/-- C69 for DP values: whenever no trial is running, the value of an action is its reward plus something between the least and the
largest value of the successor nodes found so far. -/
theorem c69_dp_between (hv : alg'.Valid) (H : HasDp alg' pdx pdy lr') (hvis : ∀ x, alg'.visitD false x = x)
    (hu : m'.useTable = false) (htb : Leftover tb) (hr : Reachable env' m' alg' k s0 dp tm tb st' h') (hq : Quiescent st')
    {d c : Nat} {a : A} {nc : CNode S A 𝕜 Y'} (hc : childC st' d a = some c) (hnc : st'.cn[c]? = some nc) {lo hi : 𝕜}
    (hlo : ∀ p ∈ nc.kids, ∀ v, valD pdx st' p.2 = some v → lo ≤ v ∧ v ≤ hi) :
    ∃ v, valC pdy st' c = some v ∧ lr' nc.state nc.action + lo ≤ v ∧ v ≤ lr' nc.state nc.action + hi := by
  have hb := (c39_children_backed hv htb hr hq hc).2
  obtain ⟨l, e1, e2⟩ := (c39_bellman_consistent hv H hvis hu htb hr hq).2 c nc hnc hb
  have hall : ∀ q ∈ l, q.1 ≠ 0 ∧ lo ≤ q.2 ∧ q.2 ≤ hi := by
    intro q hq'
    have : (q.1, some q.2) ∈ nc.kids.map fun p => (cntD pdx st' p.2, valD pdx st' p.2) := by
      rw [e1]
      exact List.mem_map_of_mem (f := fun q : Nat × 𝕜 => (q.1, some q.2)) hq'
    obtain ⟨p, hp, he⟩ := List.mem_map.1 this
    simp only [Prod.mk.injEq] at he
    refine ⟨?_, hlo p hp _ he.2⟩
    obtain ⟨_, nd, _, g2, _⟩ := childD_facts (reach_inv hv htb hr).tree
      (childD_of_mem (reach_inv hv htb hr).tree hnc (show (p.1, p.2) ∈ nc.kids from hp))
    rw [← he.1, cntD_weight hv H htb hr hq, weightD, g2]
    simp
  have hne : nc.kids ≠ [] := kids_ne hv htb hr hq hc hnc
  have hlne : l ≠ [] := by
    rintro rfl
    exact hne (by simpa using e1)
  obtain ⟨q, hq'⟩ := List.exists_mem_of_ne_nil _ hlne
  obtain ⟨b1, b2⟩ := wmean_bounds l lo hi (fun p hp _ => (hall p hp).2) ⟨q, hq', (hall q hq').1⟩
  exact ⟨_, e2, by linarith, by linarith⟩
end

/-- C69 for soft values in general: only the successors that some trial went on from, or ended in as leaves, count.  Missing: the
others. -/
theorem c69_soft_between_partial (hv : alg.Valid) (H : HasSoft alg px py cfg lr) (hp : PriorTotal cfg env)
    (hdec : cfg.decay = none) (hvis : ∀ x, alg.visitD false x = x) (hu : m.useTable = false) (htb : Leftover tb)
    (hr : Reachable env m alg k s0 dp tm tb st h) (hq : Quiescent st)
    {d c : Nat} {a : A} {nc : CNode S A ℝ Y} (hc : childC st d a = some c) (hnc : st.cn[c]? = some nc) {lo hi : ℝ}
    (hlo : ∀ p ∈ nc.kids, softWeight env m st h p.2 ≠ 0 → ∀ v, softD px st p.2 = some v → lo ≤ v ∧ v ≤ hi)
    (hex : ∃ p ∈ nc.kids, softWeight env m st h p.2 ≠ 0) :
    ∃ v, softC py st c = some v ∧ lr nc.state nc.action + lo ≤ v ∧ v ≤ lr nc.state nc.action + hi := by
  have I := reach_inv hv htb hr
  obtain ⟨nd, nc2, f1, f2, _, _, _, f6, _⟩ := childC_facts I.tree hc
  rw [hnc] at f2
  obtain rfl := Option.some.inj f2
  have hS := soft_tree hv H hp hdec hvis hu htb hr hq
  obtain ⟨nc2, h1, h2⟩ := soft_chance (n := (m.maxDepth - nd.depth).toNat + 1) hv H hp hvis hu htb hr hq
    (fun d nd hd hn => hS _ d nd hd hn) f1 (by omega) hc
  rw [hnc] at h1
  obtain rfl := Option.some.inj h1
  refine ⟨_, by simp only [softC, hnc, Option.bind_some]; exact h2, ?_⟩
  have hb := wmean_bounds (nc.kids.map fun q => (softWeight env m st h q.2, softTree cfg env m lr st h ((m.maxDepth - nd.depth).toNat + 1) q.2))
    lo hi (by
      intro q hq' h0
      obtain ⟨p, hp', rfl⟩ := List.mem_map.1 hq'
      obtain ⟨nc3, nd3, g1, g2, _, _, g5, _⟩ := childD_facts I.tree (childD_of_mem I.tree hnc (show (p.1, p.2) ∈ nc.kids from hp'))
      rw [hnc] at g1
      obtain rfl := Option.some.inj g1
      exact hlo p hp' h0 _ (hS _ p.2 nd3 g2 (by omega)))
    (by
      obtain ⟨p, hp', h0⟩ := hex
      exact ⟨_, List.mem_map_of_mem hp', h0⟩)
  unfold chanceSoft
  constructor <;> linarith [hb.1, hb.2]

/-- C69 for soft values with mcts mode off: the same. -/
theorem c69_soft_between (hm : m.mctsMode = false) (hv : alg.Valid) (H : HasSoft alg px py cfg lr) (hp : PriorTotal cfg env)
    (hdec : cfg.decay = none) (hvis : ∀ x, alg.visitD false x = x) (hu : m.useTable = false) (htb : Leftover tb)
    (hr : Reachable env m alg k s0 dp tm tb st h) (hq : Quiescent st)
    {d c : Nat} {a : A} {nc : CNode S A ℝ Y} (hc : childC st d a = some c) (hnc : st.cn[c]? = some nc) {lo hi : ℝ}
    (hlo : ∀ p ∈ nc.kids, ∀ v, softD px st p.2 = some v → lo ≤ v ∧ v ≤ hi) :
    ∃ v, softC py st c = some v ∧ lr nc.state nc.action + lo ≤ v ∧ v ≤ lr nc.state nc.action + hi := by
  obtain ⟨p, hp'⟩ := List.exists_mem_of_ne_nil _ (kids_ne hv htb hr hq hc hnc)
  exact c69_soft_between_partial hv H hp hdec hvis hu htb hr hq hc hnc (fun p hp' _ => hlo p hp')
    ⟨p, hp', softWeight_full hm hv htb hr hq hnc hp'⟩

/-- In mcts mode with a heuristic that is 7 everywhere. -/
noncomputable def hMgr : Manager Unit ℝ :=
  { maxDepth := 2, mctsMode := true, twoPlayer := false, useTable := false, numMutexes := 0, heuristic := some fun _ => 7 }

theorem h_first (v : View Unit Unit Soft Soft) (h1 : v.visits = 1) (h2 : v.actions = [()]) (h3 : v.kids = []) (ctx : Ctx Unit ℝ) :
    (ments 0 (zCfgE (1 / 2)).toCfg fun _ _ => 1).canSelect v ctx () = true := by
  have hq : QIs (mentsQ (zCfgE (1 / 2)).toCfg id v) v (fun _ => (zCfgE (1 / 2)).defaultQ * oppCoeff v.opp) := by
    intro a _
    simp [mentsQ, h3, find?, untriedQ, zCfgE]
  show selectable _ _ _ _ _ = true
  unfold selectable
  rw [@decide_eq_true_eq _ (Classical.propDecidable _)]
  have hne : v.actions ≠ [] := by simp [h2]
  refine ⟨0, id, le_rfl, one_pos, fun l => List.Perm.refl l, ?_⟩
  rcases c36_selects_valid_action hq (by omega) hne (goodCfg_wellFormed (zGood (e := 1 / 2) (by norm_num)) (by rw [h2]; rfl)) (le_refl (0 : ℝ)) (iter := id)
    (fun l => List.Perm.refl l) (le_refl (0 : ℝ)) with ⟨a, _, h⟩ | ⟨_, h⟩
  · exact h
  · rw [h2] at h
    norm_num at h

/-- One complete trial of one worker in that environment. -/
theorem h_run (alg : Alg Unit Unit ℝ X Y) (hi : alg.initVisits = 0)
    (hsel : ∀ v, v.visits = 1 → v.actions = [()] → v.kids = [] → ∀ ctx, alg.canSelect v ctx () = true) :
    ∃ (v : View Unit Unit X Y) (ctx ctx' : Ctx Unit ℝ) (args args' : BArgs ℝ) (h : List (Event Unit Unit ℝ)), Reachable zEnv hMgr alg 1 () 0 0 []
      { root := 0,
        dn := [{ state := (), depth := 0, time := 0, visits := 1, heur := 7, kids := [((), 0)], x := alg.backupD v ctx args },
               { state := (), depth := 1, time := 1, visits := 1, heur := 7, kids := [], x := alg.visitD false (alg.initD () 1 1 7) }],
        cn := [{ state := (), action := (), depth := 0, time := 0, visits := 1, kids := [((), 1)],
                 y := alg.backupC () () (alg.visitC (alg.initC () () 0 0)) [((), alg.visitD false (alg.initD () 1 1 7))] args' }],
        table := [], ws := [.idle], ctxs := [ctx'], crashed := none } h := by
  obtain ⟨iv, f1, f2, f3, f4, f5, f6, f7, f8⟩ := alg
  dsimp only at hi hsel
  subst hi
  refine ⟨?_, ?_, ?_, ?_, ?_, ?_, [(0, .go), (0, .act ()), (0, .obs ()), (0, .go), (0, .go), (0, .go), (0, .go)], ?_⟩
  rotate_left 6
  · simp [execFrom, step, init, newD, St.setW, St.setCtx, shouldContinue, isLeaf, zEnv, hMgr, blockD, viewOf, kidsY]
    rw [hsel _ rfl rfl rfl _]
    rfl

/-- C69 fails for MENTS in mcts mode: after a trial that added a node of heuristic value (and soft value) 7 behind the only action, whose
reward is 1, the action's value is 1.  The value DP backups give it is 8 (next example). -/
theorem c69_ments_false : ∃ st h nc, Reachable zEnv hMgr (ments 0 (zCfgE (1 / 2)).toCfg fun _ _ => 1) 1 () 0 0 [] st h ∧ Quiescent st ∧
    childC st 0 () = some 0 ∧ st.cn[0]? = some nc ∧ nc.kids = [((), 1)] ∧ softD id st 1 = some 7 ∧ softC id st 0 = some 1 := by
  obtain ⟨v, ctx, ctx', args, args', h, hr⟩ := h_run (ments 0 (zCfgE (1 / 2)).toCfg fun _ _ => 1) rfl h_first
  refine ⟨_, h, _, hr, ?_, rfl, rfl, rfl, rfl, ?_⟩
  · intro w p hw
    match w, hw with
    | 0, hw => simpa using hw.symm
    | _ + 1, hw => simp at hw
  · simp [softC, ments, softBackupC, softVisit, softInitD, finiteSoft, meanLoop]

theorem h_first_db (v : View Unit Unit DB DB) (h1 : v.visits = 1) (h2 : v.actions = [()]) (h3 : v.kids = []) (ctx : Ctx Unit ℝ) :
    (dbments 0 (zCfgE (1 / 2)).toCfg fun _ _ => 1).canSelect v ctx () = true := by
  have hq : QIs (mentsQ (zCfgE (1 / 2)).toCfg DB.soft v) v (fun _ => (zCfgE (1 / 2)).defaultQ * oppCoeff v.opp) := by
    intro a _
    simp [mentsQ, h3, find?, untriedQ, zCfgE]
  show selectable _ _ _ _ _ = true
  unfold selectable
  rw [@decide_eq_true_eq _ (Classical.propDecidable _)]
  have hne : v.actions ≠ [] := by simp [h2]
  refine ⟨0, id, le_rfl, one_pos, fun l => List.Perm.refl l, ?_⟩
  rcases c36_selects_valid_action hq (by omega) hne (goodCfg_wellFormed (zGood (e := 1 / 2) (by norm_num)) (by rw [h2]; rfl)) (le_refl (0 : ℝ)) (iter := id)
    (fun l => List.Perm.refl l) (le_refl (0 : ℝ)) with ⟨a, _, h⟩ | ⟨_, h⟩
  · exact h
  · rw [h2] at h
    norm_num at h

/-- C69 for DP values, in the same run of DB-MENTS (whose soft value of the action is 1 as above). -/
example : ∃ st h, Reachable zEnv hMgr (dbments 0 (zCfgE (1 / 2)).toCfg fun _ _ => 1) 1 () 0 0 [] st h ∧ Quiescent st ∧
    childC st 0 () = some 0 ∧ valD DB.dp st 1 = some 7 ∧ valC DB.dp st 0 = some 8 ∧ softC DB.soft st 0 = some 1 := by
  obtain ⟨v, ctx, ctx', args, args', h, hr⟩ := h_run (dbments 0 (zCfgE (1 / 2)).toCfg fun _ _ => 1) rfl h_first_db
  refine ⟨_, h, hr, ?_, rfl, rfl, ?_, ?_⟩
  · intro w p hw
    match w, hw with
    | 0, hw => simpa using hw.symm
    | _ + 1, hw => simp at hw
  · simp [valC, dbments, dpBackupC, dpVisit, dpInitD, finiteKids, meanLoop]
    norm_num
  · simp [softC, dbments, softBackupC, softVisit, softInitD, finiteSoft, meanLoop]

/-- C69 for MENTS with mcts mode off: the run of two workers above meets the hypotheses. -/
example : ∃ st h, Reachable gEnv gMgr (freeMents gCfg fun s a => gEnv.reward s a (Det.next s a)) 2 0 0 0 [] st h ∧ Quiescent st ∧
    gMgr.mctsMode = false ∧ ∃ c nc, childC st st.root 1 = some c ∧ st.cn[c]? = some nc := by
  obtain ⟨st, h, h1, h2, h3, h4⟩ := g_run gCfg fun s a => gEnv.reward s a (Det.next s a)
  have hv : (freeMents gCfg fun s a => gEnv.reward s a (Det.next s a)).Valid := by
    intro v _ a h
    simpa [freeMents] using h
  have T := (reach_inv hv (by intro p hp; simp at hp) h1).tree
  obtain ⟨nd, r1, r2, r3, r4⟩ := root_node T
  obtain ⟨c, hc⟩ := h3 st.root nd r1 (by simp [isLeaf, r2, r3, gEnv, gMgr]) 1 (by simp [gEnv])
  obtain ⟨_, nc, _, f2, _⟩ := childC_facts T hc
  exact ⟨st, h, h1, h2, rfl, c, nc, hc, f2⟩

end Verif.Ments
