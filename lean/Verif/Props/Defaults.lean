import Verif.Proofs.Defaults
import Verif.Model.Managers
import Verif.Props.RandomSearch
import Verif.Props.TentsTree
import Verif.Props.UctStoch
import Mathlib.Analysis.Complex.ExponentialBounds

/-! # C110: the default settings work and need no depth limit -/

namespace Verif.Random

open Verif.Search Verif.Spec Verif.Backups Verif.Managers

section
variable {S A R X Y : Type} [DecidableEq S] [DecidableEq A] [AddMonoid R] {env : Env S A R} {m : Manager S R} {alg : Alg S A R X Y}
  {k : Nat} {s0 : S} {dp tm M : Int} {tb : List ((Int × S) × Option Nat)} {st : St S A R X Y} {h : List (Event S A R)} {L : Nat}

/-- C110.  If every episode ends within `L` moves, a search has the same reachable states and histories under any two depth limits of at least
`L` moves. -/
theorem c110_limit (hl : env.Live) (hv : alg.Valid) (htb : Leftover tb) (he : EndsWithin env L s0) (h1 : dp + L ≤ m.maxDepth) (h2 : dp + L ≤ M) :
    Reachable env (withLimit m M) alg k s0 dp tm tb st h ↔ Reachable env m alg k s0 dp tm tb st h := by
  constructor
  · intro hr
    exact reach_limit (m := withLimit m M) (M := m.maxDepth) (T := fun _ => True) (fun _ _ _ => trivial)
      (fun _ _ hr _ => ends_agree hl hv htb he h2 h1 hr) hr trivial
  · intro hr
    exact reach_limit (T := fun _ => True) (fun _ _ _ => trivial) (fun _ _ hr _ => ends_agree hl hv htb he h1 h2 hr) hr trivial

/-- C110.  Hence the same probabilities. -/
theorem c110_limit_prob {D : Dice S A R X Y} {N : Nat} {sched : Scheduler S A R} (hl : env.Live) (hv : alg.Valid) (htb : Leftover tb)
    (he : EndsWithin env L s0) (h1 : dp + L ≤ m.maxDepth) (h2 : dp + L ≤ M) (n : Nat) (P : St S A R X Y → List (Event S A R) → Prop) :
    probAfter env (withLimit m M) alg D k s0 dp tm tb N sched n P = probAfter env m alg D k s0 dp tm tb N sched n P :=
  expect_limit (fun _ _ hr => ends_agree hl hv htb he h1 h2 hr) n reach_start

/-- C110.  And the same schedulers keep the workers busy. -/
theorem c110_limit_productive {N : Nat} {sched : Scheduler S A R} (hl : env.Live) (hv : alg.Valid) (htb : Leftover tb)
    (he : EndsWithin env L s0) (h1 : dp + L ≤ m.maxDepth) (h2 : dp + L ≤ M) :
    Productive env (withLimit m M) alg k s0 dp tm tb N sched ↔ Productive env m alg k s0 dp tm tb N sched :=
  ⟨fun H st h hr => H st h ((c110_limit hl hv htb he h1 h2).2 hr), fun H st h hr => H st h ((c110_limit hl hv htb he h1 h2).1 hr)⟩

/-- C110.  If every episode ends within `L` moves, a worker that gets `4 L + 4` turns completes a trial, whatever the depth limit. -/
theorem c110_trials_end (hl : env.Live) (hv : alg.Valid) (htb : Leftover tb) (ht : TableOk m tb) (he : EndsWithin env L s0)
    (h1 : dp + L ≤ m.maxDepth) (hr : Reachable env m alg k s0 dp tm tb st h) {w : Nat} (hw : w < k) {ls : List (Nat × Choice S A)}
    {st' : St S A R X Y} {h' : List (Event S A R)} (hx : execFrom env m alg st h ls = some (st', h')) (hn : 4 * L + 4 ≤ turnsOf w ls) :
    ∃ ext, h' = ext ++ h ∧ Event.completed w ∈ ext := by
  have hag : ∀ st h, Reachable env m alg k s0 dp tm tb st h → True → Agree env m (dp + L) st :=
    fun _ _ hr _ => ends_agree hl hv htb he h1 (by omega) hr
  refine c74_trials_complete (m := withLimit m (dp + L)) hv htb ht (by simp [withLimit])
    (reach_limit (T := fun _ => True) (fun _ _ _ => trivial) hag hr trivial) hw
    (exec_limit (T := fun _ => True) (fun _ _ _ => trivial) hag hr hx trivial) ?_
  simp only [withLimit]
  omega

/-- C110.  In mcts mode trials come to an end also if episodes do not and the depth limit is out of reach: if at most `N` trials have begun, a
worker that got `4 N + 8` turns has completed one. -/
theorem c110_mcts_trials_end (hv : alg.Valid) (htb : Leftover tb) (ht : TableOk m tb) (hm : m.mctsMode = true) {N : Nat}
    (h1 : dp + N < m.maxDepth) (hr : Reachable env m alg k s0 dp tm tb st h) {w : Nat} (hw : w < k) {ls : List (Nat × Choice S A)}
    {st' : St S A R X Y} {h' : List (Event S A R)} (hx : execFrom env m alg st h ls = some (st', h')) (hb : trialsBegun h' ≤ N)
    (hn : 4 * N + 8 ≤ turnsOf w ls) : ∃ ext, h' = ext ++ h ∧ Event.completed w ∈ ext := by
  have hT : ∀ (e : Event S A R) h, trialsBegun (e :: h) ≤ N → trialsBegun h ≤ N := by
    intro e h he
    simp only [trialsBegun, List.countP_cons] at he ⊢
    omega
  have hag : ∀ st h, Reachable env m alg k s0 dp tm tb st h → trialsBegun h ≤ N → Agree env m (dp + N + 1) st :=
    fun _ _ hr hb => mcts_agree hv htb hm h1 (by omega) hr hb
  have hbh : trialsBegun h ≤ N := by
    obtain ⟨r, rfl⟩ := exec_induct (fun _ h' => ∃ r, h' = r ++ h) (fun st h1 w e st' hp _ _ => by
      obtain ⟨r, rfl⟩ := hp
      exact ⟨e :: r, rfl⟩) ⟨[], rfl⟩ hx
    simp only [trialsBegun, List.countP_append] at hb ⊢
    omega
  refine c74_trials_complete (m := withLimit m (dp + N + 1)) hv htb ht (by simp only [withLimit]; omega)
    (reach_limit hT hag hr hbh) hw (exec_limit hT hag hr hx hb) ?_
  simp only [withLimit]
  omega

end

section
variable {S A : Type} [DecidableEq S] [DecidableEq A] {env : Env S A ℝ} {m : Manager S ℝ} {next : S → A → S} {s0 : S} {L B N k : Nat}

/-- C110.  The value of a game whose episodes end within `L` moves does not depend on the number of moves one looks ahead, if that is at least
`L`. -/
theorem c110_value (hl : env.Live) (hdet : ∀ s a, a ∈ env.actions s → env.succ s a = [next s a]) : ∀ (L n : Nat) (t : Int) (s : S), L ≤ n →
    EndsWithin env L s → gameValue env m next n t s = gameValue env m next L t s := by
  intro L
  induction L with
  | zero =>
    intro n t s _ he
    have hs : env.isSink s = true := ends_sink (l := []) hl he trivial rfl
    cases n with
    | zero => rfl
    | succ n =>
      simp only [gameValue, hs, if_true, heurOf]
      cases m.heuristic <;> rfl
  | succ L ih =>
    intro n t s hn he
    obtain ⟨n, rfl⟩ : ∃ n', n = n' + 1 := ⟨n - 1, by omega⟩
    simp only [gameValue]
    cases hs : env.isSink s with
    | true => rfl
    | false =>
      simp only [Bool.false_eq_true, if_false]
      congr 1
      refine List.map_congr_left fun a ha => ?_
      rw [ih n (t + 1) (next s a) (by omega) ?_]
      intro play hp
      have := he ((a, next s a) :: play) ⟨hs, ha, by rw [hdet s a ha]; simp, hp⟩
      simpa using this

/-- With the zero heuristic and rewards of size at most `r`, `n` moves are worth at most `n r`. -/
theorem value_bounded {r : ℝ} (hl : env.Live) (hh : ∀ s, heurOf env m s = 0) (hr : ∀ s a, a ∈ env.actions s → |env.reward s a (next s a)| ≤ r)
    (h0 : 0 ≤ r) (n : Nat) : ∀ t s, |gameValue env m next n t s| ≤ n * r := by
  induction n with
  | zero => intro t s; simp [gameValue, hh]
  | succ n ih =>
    intro t s
    simp only [gameValue]
    split
    · rw [abs_zero]; positivity
    · next hs =>
      have hne : (env.actions s).map (fun a => env.reward s a (next s a) + gameValue env m next n (t + 1) (next s a)) ≠ [] := by
        simpa using hl.acts s (by simpa using hs)
      obtain ⟨a, ha, he⟩ := List.mem_map.1 (Uct.bestOf_spec (opp := isOpponent m t) hne).1
      rw [← he]
      refine le_trans (abs_add_le _ _) ?_
      have := ih (t + 1) (next s a)
      have := hr s a ha
      push_cast
      linarith

theorem missBound_anti {p q : ℝ} (h0 : 0 ≤ p) (h1 : p ≤ q) (L N : Nat) : missBound q L N ≤ missBound p L N := by
  unfold missBound
  have a0 : (0 : ℝ) ≤ p ^ L := pow_nonneg h0 _
  have a1 : p ^ L ≤ q ^ L := pow_le_pow_left₀ h0 h1 L
  exact div_le_div_of_nonneg_left (by positivity) (by positivity) (pow_le_pow_left₀ (by positivity) (by linarith) _)

theorem log_trials (hN : N < 2 ^ 31) : Real.log (N + 1) ≤ 43 / 2 := by
  have h1 : ((N : ℝ) + 1) ≤ 2 ^ 31 := by exact_mod_cast hN
  have h2 : Real.log (N + 1) ≤ Real.log (2 ^ 31) := Real.log_le_log (by positivity) h1
  rw [Real.log_pow] at h2
  have := Real.log_two_lt_d9
  push_cast at h2
  linarith

theorem value_limit (M : Int) : ∀ (n : Nat) (t : Int) (s : S), gameValue env (withLimit m M) next n t s = gameValue env m next n t s := by
  intro n
  induction n with
  | zero => intro t s; rfl
  | succ n ih =>
    intro t s
    simp only [gameValue, ih]
    rfl

/-- What the search part of a default manager looks like. -/
structure Default (m : Manager S ℝ) : Prop where
  depth : m.maxDepth = 2 ^ 31 - 1
  mcts : m.mctsMode = true
  table : m.useTable = false
  one : m.twoPlayer = false
  heur : ∀ env : Env S A ℝ, ∀ s, heurOf env m s = 0

theorem thts_default (hm : thtsManager (thtsArgs : ThtsArgs S A) = some m) : Default (A := A) m := by
  simp only [thtsManager, thtsArgs] at hm
  norm_num at hm
  subst hm
  refine ⟨by norm_num [intMax], rfl, rfl, rfl, fun env s => ?_⟩
  simp [heurOf, zeroHeuristic]

/-- What the default configuration of the Boltzmann searches looks like. -/
structure DefaultSoft (cfg : Ments.Cfg S A) : Prop where
  temp : cfg.temp = 1
  weight : cfg.priorWeight = 0
  eps : cfg.epsilon = 1 / 2
  root : cfg.rootEpsilon = -1
  max : cfg.maxExplore = 1
  decay : cfg.decay = none
  threshold : cfg.threshold = 0
  prior : cfg.prior = none
  low : cfg.low = lowest
  most : cfg.mostVisited = false

theorem ments_default {cfg : Ments.Cfg S A} (hm : mentsManager mentsArgs = some (m, cfg)) : Default (A := A) m ∧ DefaultSoft cfg := by
  obtain ⟨m', h1, h2⟩ := Option.map_eq_some_iff.1 hm
  obtain ⟨rfl, rfl⟩ := Prod.mk.inj h2
  exact ⟨thts_default h1, rfl, rfl, rfl, rfl, rfl, rfl, rfl, rfl, rfl, rfl⟩

theorem dents_default {cfg : Dents.DCfg S A} (hm : dentsManager dentsArgs = some (m, cfg)) :
    Default (A := A) m ∧ DefaultSoft cfg.toCfg ∧ cfg.useDp = true := by
  obtain ⟨p, h1, h2⟩ := Option.map_eq_some_iff.1 hm
  obtain ⟨rfl, rfl⟩ := Prod.mk.inj h2
  obtain ⟨q1, q2⟩ := ments_default (m := p.1) (cfg := p.2) h1
  exact ⟨q1, ⟨q2.1, q2.2, q2.3, q2.4, q2.5, q2.6, q2.7, q2.8, q2.9, q2.10⟩, rfl⟩

theorem DefaultSoft.good {cfg : Ments.Cfg S A} (D : DefaultSoft cfg) (env : Env S A ℝ) : Ments.GoodCfg cfg env := by
  refine ⟨by simp [D.decay, D.temp], by rw [D.eps]; norm_num, by rw [D.max]; norm_num, by rw [D.max], ?_, ?_, ?_, ?_, ?_⟩
  · rw [D.weight]; exact Real.log_nonneg (by norm_num)
  · rw [D.weight]; intro h; exact absurd h (lt_irrefl _)
  all_goals intro f hf; rw [D.prior] at hf; simp at hf

theorem DefaultSoft.explores {cfg : Ments.Cfg S A} (D : DefaultSoft cfg) (hB : 0 < B) (hN1 : 1 ≤ N) (hN : N < 2 ^ 31) :
    1 / (44 * B : ℝ) ≤ softExplore cfg B N := by
  have hlog := log_trials hN
  have hpos : 0 < Real.log (N + 1) := Real.log_pos (by
    have : (1 : ℝ) ≤ N := by exact_mod_cast hN1
    linarith)
  have hB' : (0 : ℝ) < B := by exact_mod_cast hB
  have he : minEps cfg = 1 / 2 := by
    unfold minEps
    rw [D.root, D.eps]
    norm_num
  rw [softExplore, he, D.max, ← div_div]
  refine div_le_div_of_nonneg_right (le_min ?_ (by norm_num)) hB'.le
  rw [le_div_iff₀ hpos]
  linarith

/-- C110.  With the default settings of MENTS, DB-MENTS and TENTS and fewer than `2^31` trials, every action of a node with at most `B` actions
has probability at least `1 / (44 B)` (see C77 for what this number means). -/
theorem c110_explores {cfg : Ments.Cfg S A} (hm : mentsManager mentsArgs = some (m, cfg)) (hB : 0 < B) (hN1 : 1 ≤ N) (hN : N < 2 ^ 31) :
    1 / (44 * B : ℝ) ≤ softExplore cfg B N := (ments_default hm).2.explores hB hN1 hN

/-- C110.  The same for DENTS and EST. -/
theorem c110_dents_explores {cfg : Dents.DCfg S A} (hm : dentsManager dentsArgs = some (m, cfg)) (hB : 0 < B) (hN1 : 1 ≤ N) (hN : N < 2 ^ 31) :
    1 / (44 * B : ℝ) ≤ softExplore cfg.toCfg B N := (dents_default hm).2.1.explores hB hN1 hN

theorem cutoff (hB : 0 < B) (hB14 : B ≤ 10 ^ 14) {p : ℝ} (hp : 1 / (44 * B : ℝ) ≤ p) : 1 / 10 ^ 16 ≤ p := by
  refine le_trans ?_ hp
  have h1 : (0 : ℝ) < B := by exact_mod_cast hB
  have h2 : (B : ℝ) ≤ 10 ^ 14 := by exact_mod_cast hB14
  exact div_le_div_of_nonneg_left (by norm_num) (by positivity) (by linarith)

/-- An environment that can be searched with default settings: it is deterministic, every state that is not a sink has actions, at most `B` and
without repetition, episodes from `s0` end within `L` moves, `s0` is not a sink, and the sum of the rewards of an episode is a finite number. -/
structure Plain (env : Env S A ℝ) (next : S → A → S) (s0 : S) (L B : Nat) (r : ℝ) : Prop where
  det : ∀ s a, a ∈ env.actions s → env.succ s a = [next s a]
  acts : ∀ s, env.isSink s = false → env.actions s ≠ []
  nodup : ∀ s, (env.actions s).Nodup
  few : ∀ s, (env.actions s).length ≤ B
  ends : EndsWithin env L s0
  short : L < 2 ^ 31
  start : env.isSink s0 = false
  reward : ∀ s a, a ∈ env.actions s → |env.reward s a (next s a)| ≤ r
  finite : L * r ≤ 2 ^ 1023

theorem Plain.live {r : ℝ} (P : Plain env next s0 L B r) : env.Live := ⟨P.acts, fun s _ a ha => by rw [P.det s a ha]; simp⟩

theorem Plain.pos {r : ℝ} (P : Plain env next s0 L B r) : 0 < B := by
  have h1 := P.few s0
  have h2 := List.length_pos_iff.2 (P.acts s0 P.start)
  omega

theorem Plain.longer {r : ℝ} (P : Plain env next s0 L B r) : 1 ≤ L := by
  obtain ⟨a, ha⟩ := List.exists_mem_of_ne_nil _ (P.acts s0 P.start)
  exact P.ends [(a, next s0 a)] ⟨P.start, ha, by rw [P.det s0 a ha]; simp, trivial⟩

theorem lowest_le : lowest ≤ -(2 ^ 1023) := by
  unfold lowest
  rw [show (1024 : Nat) = 1023 + 1 from rfl, pow_succ]
  have : (2 : ℝ) ^ 971 ≤ 2 ^ 1023 := pow_le_pow_right₀ (by norm_num) (by norm_num)
  generalize (2 : ℝ) ^ 971 = x at this ⊢
  generalize (2 : ℝ) ^ 1023 = y at this ⊢
  linarith

theorem Plain.low {r : ℝ} {t : Int} (P : Plain env next s0 L B r) (D : Default (A := A) m) {c : ℝ} (hc : c = 1 ∨ c = -1) :
    ∀ a ∈ env.actions s0, lowest ≤ c * (env.reward s0 a (next s0 a) + gameValue env m next (L - 1) t (next s0 a)) := by
  intro a ha
  have hr := P.reward s0 a ha
  have h0 : 0 ≤ r := le_trans (abs_nonneg _) hr
  have hv := value_bounded (next := next) P.live (D.heur env) P.reward h0 (L - 1) t (next s0 a)
  have hL : ((L - 1 : Nat) : ℝ) = L - 1 := by
    have := P.longer
    push_cast [this]
    ring
  rw [hL] at hv
  have hsum : |env.reward s0 a (next s0 a) + gameValue env m next (L - 1) t (next s0 a)| ≤ 2 ^ 1023 := by
    refine le_trans (abs_add_le _ _) ?_
    have := P.finite
    linarith
  have hlow := lowest_le
  have := abs_le.1 hsum
  rcases hc with rfl | rfl <;> linarith

/-- C110.  DB-MENTS with the default settings, any number of workers, `N` trials: with probability at least one minus an explicit bound the value of the root is the value of the game, and every
recommendation is an optimal move. -/
theorem c110_dbments {cfg : Ments.Cfg S A} {r eps : ℝ} {iter : View S A Dents.DB Dents.DB → List (A × ℝ) → List (A × ℝ)} {lr : S → A → ℝ}
    {sched : Scheduler S A ℝ} {n : Nat} (hm : mentsManager mentsArgs = some (m, cfg)) (P : Plain env next s0 L B r)
    (hlr : ∀ s a, a ∈ env.actions s → lr s a = env.reward s a (next s a)) (hB : B ≤ 10 ^ 14) (heps : 0 ≤ eps)
    (hit : ∀ v l, List.Perm (iter v l) l) (hk : 0 < k) (hN1 : 1 ≤ N) (hN : N < 2 ^ 31)
    (hsch : Productive env m (Dents.dbments eps cfg lr) k s0 0 0 [] N sched) (hn : (4 * L + 4) * N ≤ n) :
    1 - (plays env L s0).length * missBound (1 / (44 * B)) L N ≤
    probAfter env m (Dents.dbments eps cfg lr) (softDice eps cfg (Ments.mentsQ cfg Dents.DB.soft) iter (certain next)) k s0 0 0 [] N sched n
      (fun st h => Finished N st h ∧ valD Dents.DB.dp st st.root = some (gameValue env m next L 0 s0) ∧
        RecommendsOptimal env (withLimit m L) next Dents.DB.dp cfg.low cfg.threshold st) := by
  obtain ⟨D, C⟩ := ments_default hm
  have hl := P.live
  have htb : Leftover ([] : List ((Int × S) × Option Nat)) := by simp [Leftover]
  have h1 : (0 : Int) + L ≤ m.maxDepth := by have := P.short; rw [D.depth]; omega
  have hp := C.explores P.pos hN1 hN
  have e1 : ((withLimit m L).maxDepth - 0).toNat = L := by simp [withLimit]
  have e2 : remaining (withLimit m L) 0 = L := by simp [remaining, withLimit]
  have hL := P.longer
  rw [← c110_limit_prob hl (Dents.dbments_valid eps cfg lr) htb P.ends h1 (by omega : (0 : Int) + L ≤ L)]
  have hsch' := (c110_limit_productive hl (Dents.dbments_valid eps cfg lr) htb P.ends h1 (by omega : (0 : Int) + L ≤ L)).2 hsch
  have hlow : ∀ a ∈ env.actions s0, cfg.low ≤ (if isOpponent (withLimit m L) 0 then -1 else 1) *
      (env.reward s0 a (next s0 a) + gameValue env (withLimit m L) next (remaining (withLimit m L) (0 + 1)) (0 + 1) (next s0 a)) := by
    rw [C.low, show remaining (withLimit m L) (0 + 1) = L - 1 by simp [remaining, withLimit]]
    intro a ha
    rw [value_limit]
    exact P.low D (c := if isOpponent (withLimit m L) 0 then -1 else 1) (by split <;> simp) a ha
  have key := c77_dbments_solves (m := withLimit m L) (next := next) (lr := lr) (s0 := s0) (k := k) (N := N) (dp := 0) (tm := 0) (tb := []) (iter := iter)
    (low := cfg.low) (threshold := cfg.threshold) (n := n) P.det hlr hl  D.table htb (C.good env) P.nodup P.few heps hit (cutoff P.pos hB hp) (by simp [withLimit]; omega)
    P.start (by rw [C.threshold]; norm_num) hlow hk hsch' (by rw [e1]; exact hn)
  rw [e1] at key
  simp only [value_limit, e2] at key
  refine le_trans ?_ key
  have h2 := missBound_anti (by positivity) hp L N
  have h3 : (0 : ℝ) ≤ (plays env L s0).length := by positivity
  have := mul_le_mul_of_nonneg_left h2 h3
  linarith

/-- C110.  DENTS with the default settings, any number of workers, `N` trials: with probability at least one minus an explicit bound the value of the root is the value of the game, and every
recommendation is an optimal move. -/
theorem c110_dents {cfg : Dents.DCfg S A} {r eps : ℝ} {iter : View S A Dents.DX Dents.DY → List (A × ℝ) → List (A × ℝ)} {lr : S → A → ℝ}
    {sched : Scheduler S A ℝ} {n : Nat} (hm : dentsManager dentsArgs = some (m, cfg)) (P : Plain env next s0 L B r)
    (hlr : ∀ s a, a ∈ env.actions s → lr s a = env.reward s a (next s a)) (hB : B ≤ 10 ^ 14) (heps : 0 ≤ eps)
    (hit : ∀ v l, List.Perm (iter v l) l) (hk : 0 < k) (hN1 : 1 ≤ N) (hN : N < 2 ^ 31)
    (hsch : Productive env m (Dents.dents eps cfg env m lr) k s0 0 0 [] N sched) (hn : (4 * L + 4) * N ≤ n) :
    1 - (plays env L s0).length * missBound (1 / (44 * B)) L N ≤
    probAfter env m (Dents.dents eps cfg env m lr) (softDice eps cfg.toCfg (Dents.dentsQ cfg) iter (certain next)) k s0 0 0 [] N sched n
      (fun st h => Finished N st h ∧ valD Dents.DX.dp st st.root = some (gameValue env m next L 0 s0) ∧
        RecommendsOptimal env (withLimit m L) next Dents.DY.dp cfg.low cfg.threshold st) := by
  obtain ⟨D, C, hdp⟩ := dents_default hm
  have hl := P.live
  have htb : Leftover ([] : List ((Int × S) × Option Nat)) := by simp [Leftover]
  have h1 : (0 : Int) + L ≤ m.maxDepth := by have := P.short; rw [D.depth]; omega
  have hp := C.explores P.pos hN1 hN
  have e1 : ((withLimit m L).maxDepth - 0).toNat = L := by simp [withLimit]
  have e2 : remaining (withLimit m L) 0 = L := by simp [remaining, withLimit]
  have hL := P.longer
  rw [← c110_limit_prob hl (Dents.dents_valid eps cfg env m lr) htb P.ends h1 (by omega : (0 : Int) + L ≤ L)]
  have hsch' := (c110_limit_productive hl (Dents.dents_valid eps cfg env m lr) htb P.ends h1 (by omega : (0 : Int) + L ≤ L)).2 hsch
  have hlow : ∀ a ∈ env.actions s0, cfg.low ≤ (if isOpponent (withLimit m L) 0 then -1 else 1) *
      (env.reward s0 a (next s0 a) + gameValue env (withLimit m L) next (remaining (withLimit m L) (0 + 1)) (0 + 1) (next s0 a)) := by
    rw [C.low, show remaining (withLimit m L) (0 + 1) = L - 1 by simp [remaining, withLimit]]
    intro a ha
    rw [value_limit]
    exact P.low D (c := if isOpponent (withLimit m L) 0 then -1 else 1) (by split <;> simp) a ha
  have key := c77_dents_solves (m := withLimit m L) (next := next) (lr := lr) (s0 := s0) (k := k) (N := N) (dp := 0) (tm := 0) (tb := []) (iter := iter)
    (low := cfg.low) (threshold := cfg.threshold) (n := n) P.det hlr hl hdp D.table htb (C.good env) P.nodup P.few heps hit (cutoff P.pos hB hp) (by simp [withLimit]; omega)
    P.start (by rw [C.threshold]; norm_num) hlow hk hsch' (by rw [e1]; exact hn)
  rw [e1] at key
  simp only [value_limit, e2] at key
  refine le_trans ?_ key
  have h2 := missBound_anti (by positivity) hp L N
  have h3 : (0 : ℝ) ≤ (plays env L s0).length := by positivity
  have := mul_le_mul_of_nonneg_left h2 h3
  linarith

/-- C110.  EST with the default settings, any number of workers, `N` trials: with probability at least one minus an explicit bound the value of the root is the value of the game, and every
recommendation is an optimal move. -/
theorem c110_est {cfg : Dents.DCfg S A} {r eps : ℝ} {iter : View S A Dents.DX Dents.DY → List (A × ℝ) → List (A × ℝ)} {lr : S → A → ℝ}
    {sched : Scheduler S A ℝ} {n : Nat} (hm : dentsManager dentsArgs = some (m, cfg)) (P : Plain env next s0 L B r)
    (hlr : ∀ s a, a ∈ env.actions s → lr s a = env.reward s a (next s a)) (hB : B ≤ 10 ^ 14) (heps : 0 ≤ eps)
    (hit : ∀ v l, List.Perm (iter v l) l) (hk : 0 < k) (hN1 : 1 ≤ N) (hN : N < 2 ^ 31)
    (hsch : Productive env m (Dents.est eps cfg env m lr) k s0 0 0 [] N sched) (hn : (4 * L + 4) * N ≤ n) :
    1 - (plays env L s0).length * missBound (1 / (44 * B)) L N ≤
    probAfter env m (Dents.est eps cfg env m lr) (softDice eps cfg.toCfg (Dents.estQ cfg) iter (certain next)) k s0 0 0 [] N sched n
      (fun st h => Finished N st h ∧ valD Dents.DX.dp st st.root = some (gameValue env m next L 0 s0) ∧
        RecommendsOptimal env (withLimit m L) next Dents.DY.dp cfg.low cfg.threshold st) := by
  obtain ⟨D, C, hdp⟩ := dents_default hm
  have hl := P.live
  have htb : Leftover ([] : List ((Int × S) × Option Nat)) := by simp [Leftover]
  have h1 : (0 : Int) + L ≤ m.maxDepth := by have := P.short; rw [D.depth]; omega
  have hp := C.explores P.pos hN1 hN
  have e1 : ((withLimit m L).maxDepth - 0).toNat = L := by simp [withLimit]
  have e2 : remaining (withLimit m L) 0 = L := by simp [remaining, withLimit]
  have hL := P.longer
  rw [← c110_limit_prob hl (Dents.est_valid eps cfg env m lr) htb P.ends h1 (by omega : (0 : Int) + L ≤ L)]
  have hsch' := (c110_limit_productive hl (Dents.est_valid eps cfg env m lr) htb P.ends h1 (by omega : (0 : Int) + L ≤ L)).2 hsch
  have hlow : ∀ a ∈ env.actions s0, cfg.low ≤ (if isOpponent (withLimit m L) 0 then -1 else 1) *
      (env.reward s0 a (next s0 a) + gameValue env (withLimit m L) next (remaining (withLimit m L) (0 + 1)) (0 + 1) (next s0 a)) := by
    rw [C.low, show remaining (withLimit m L) (0 + 1) = L - 1 by simp [remaining, withLimit]]
    intro a ha
    rw [value_limit]
    exact P.low D (c := if isOpponent (withLimit m L) 0 then -1 else 1) (by split <;> simp) a ha
  have key := c77_est_solves (m := withLimit m L) (next := next) (lr := lr) (s0 := s0) (k := k) (N := N) (dp := 0) (tm := 0) (tb := []) (iter := iter)
    (low := cfg.low) (threshold := cfg.threshold) (n := n) P.det hlr hl hdp D.table htb (C.good env) P.nodup P.few heps hit (cutoff P.pos hB hp) (by simp [withLimit]; omega)
    P.start (by rw [C.threshold]; norm_num) hlow hk hsch' (by rw [e1]; exact hn)
  rw [e1] at key
  simp only [value_limit, e2] at key
  refine le_trans ?_ key
  have h2 := missBound_anti (by positivity) hp L N
  have h3 : (0 : ℝ) ≤ (plays env L s0).length := by positivity
  have := mul_le_mul_of_nonneg_left h2 h3
  linarith

/-- C110.  MENTS with the default settings, any number of workers, `N` trials: with probability at least one minus an explicit bound the soft value of the root is within `L log B` of the value of the game. -/
theorem c110_ments {cfg : Ments.Cfg S A} {r eps : ℝ} {iter : View S A Ments.Soft Ments.Soft → List (A × ℝ) → List (A × ℝ)} {lr : S → A → ℝ}
    {sched : Scheduler S A ℝ} {n : Nat} (hm : mentsManager mentsArgs = some (m, cfg)) (P : Plain env next s0 L B r)
    (hlr : ∀ s a, a ∈ env.actions s → lr s a = env.reward s a (next s a)) (hB : B ≤ 10 ^ 14) (heps : 0 ≤ eps)
    (hit : ∀ v l, List.Perm (iter v l) l) (hk : 0 < k) (hN1 : 1 ≤ N) (hN : N < 2 ^ 31)
    (hsch : Productive env m (Ments.ments eps cfg lr) k s0 0 0 [] N sched) (hn : (4 * L + 4) * N ≤ n) :
    1 - (plays env L s0).length * missBound (1 / (44 * B)) L N ≤
    probAfter env m (Ments.ments eps cfg lr) (softDice eps cfg (Ments.mentsQ cfg id) iter (certain next)) k s0 0 0 [] N sched n
      (fun st h => Finished N st h ∧ ∃ v, Ments.softD id st st.root = some v ∧ |v - gameValue env m next L 0 s0| ≤ L * Real.log B) := by
  obtain ⟨D, C⟩ := ments_default hm
  have hl := P.live
  have htb : Leftover ([] : List ((Int × S) × Option Nat)) := by simp [Leftover]
  have h1 : (0 : Int) + L ≤ m.maxDepth := by have := P.short; rw [D.depth]; omega
  have hp := C.explores P.pos hN1 hN
  have e1 : ((withLimit m L).maxDepth - 0).toNat = L := by simp [withLimit]
  have e2 : remaining (withLimit m L) 0 = L := by simp [remaining, withLimit]
  have hL := P.longer
  rw [← c110_limit_prob hl (Ments.ments_valid eps cfg lr) htb P.ends h1 (by omega : (0 : Int) + L ≤ L)]
  have hsch' := (c110_limit_productive hl (Ments.ments_valid eps cfg lr) htb P.ends h1 (by omega : (0 : Int) + L ≤ L)).2 hsch
  have key := c77_ments_solves (m := withLimit m L) (next := next) (lr := lr) (s0 := s0) (k := k) (N := N) (dp := 0) (tm := 0) (tb := []) (iter := iter)
    (n := n) P.det hlr hl D.table htb (C.good env) C.decay P.nodup P.few heps hit (cutoff P.pos hB hp) (by simp [withLimit]) hk hsch' (by rw [e1]; exact hn)
  rw [e1] at key
  simp only [value_limit, e2, C.temp, one_mul] at key
  refine le_trans ?_ key
  have h2 := missBound_anti (by positivity) hp L N
  have h3 : (0 : ℝ) ≤ (plays env L s0).length := by positivity
  have := mul_le_mul_of_nonneg_left h2 h3
  linarith

/-- C110.  TENTS with the default settings, any number of workers, `N` trials: with probability at least one minus an explicit bound the soft value of the root is within `L / 2` of the value of the game
and every play of the game is in the tree. -/
theorem c110_tents {cfg : Ments.Cfg S A} {r eps : ℝ} {iter : View S A (Except Tents.TErr (Tents.TX A)) Ments.Soft → List (A × ℝ) → List (A × ℝ)} {lr : S → A → ℝ}
    {sched : Scheduler S A ℝ} {n : Nat} (hm : mentsManager mentsArgs = some (m, cfg)) (P : Plain env next s0 L B r)
    (hlr : ∀ s a, a ∈ env.actions s → lr s a = env.reward s a (next s a)) (hB : B ≤ 10 ^ 14) (heps : 0 ≤ eps)
    (hit : ∀ v l, List.Perm (iter v l) l) (hk : 0 < k) (hN1 : 1 ≤ N) (hN : N < 2 ^ 31)
    (hsch : Productive env m (Tents.tents eps cfg env m lr) k s0 0 0 [] N sched) (hn : (4 * L + 4) * N ≤ n) :
    1 - (plays env L s0).length * missBound (1 / (44 * B)) L N ≤
    probAfter env m (Tents.tents eps cfg env m lr) (Tents.tentsDice eps cfg iter (certain next)) k s0 0 0 [] N sched n
      (fun st h => Finished N st h ∧ Exhausted env (withLimit m L) st ∧ ∃ v, Ments.softD Tents.softOfX st st.root = some v ∧ |v - gameValue env m next L 0 s0| ≤ L * (1 / 2)) := by
  obtain ⟨D, C⟩ := ments_default hm
  have hl := P.live
  have htb : Leftover ([] : List ((Int × S) × Option Nat)) := by simp [Leftover]
  have h1 : (0 : Int) + L ≤ m.maxDepth := by have := P.short; rw [D.depth]; omega
  have hp := C.explores P.pos hN1 hN
  have e1 : ((withLimit m L).maxDepth - 0).toNat = L := by simp [withLimit]
  have e2 : remaining (withLimit m L) 0 = L := by simp [remaining, withLimit]
  have hL := P.longer
  rw [← c110_limit_prob hl (Tents.tents_valid eps cfg env m lr) htb P.ends h1 (by omega : (0 : Int) + L ≤ L)]
  have hsch' := (c110_limit_productive hl (Tents.tents_valid eps cfg env m lr) htb P.ends h1 (by omega : (0 : Int) + L ≤ L)).2 hsch
  have key := Tents.c95_tents_solves (m := withLimit m L) (next := next) (lr := lr) (s0 := s0) (k := k) (N := N) (dp := 0) (tm := 0) (tb := []) (iter := iter)
    (n := n) P.det hlr hl D.table htb (C.good env) C.decay P.nodup P.few heps hit (cutoff P.pos hB hp) (by simp [withLimit]) hk hsch' (by rw [e1]; exact hn)
  rw [e1] at key
  simp only [value_limit, e2, C.temp, one_mul] at key
  refine le_trans ?_ key
  have h2 := missBound_anti (by positivity) hp L N
  have h3 : (0 : ℝ) ≤ (plays env L s0).length := by positivity
  have := mul_le_mul_of_nonneg_left h2 h3
  linarith

theorem uct_default {cfg : Uct.Cfg S A ℝ} {term : Nat → Nat → ℝ} (hm : uctManager term uctArgs = some (m, cfg)) :
    Default (A := A) m ∧ cfg.bias = -1 ∧ cfg.epsilon = 0 ∧ cfg.prior = none ∧ cfg.term = term ∧ cfg.low = lowest ∧ cfg.mostVisited = true := by
  obtain ⟨m', h1, h2⟩ := Option.map_eq_some_iff.1 hm
  obtain ⟨rfl, rfl⟩ := Prod.mk.inj h2
  exact ⟨thts_default h1, rfl, rfl, rfl, rfl, rfl, rfl⟩

/-- UCT and PUCT with default settings, for the exploration term `term`. -/
theorem uct_solves {cfg : Uct.Cfg S A ℝ} {term : Nat → Nat → ℝ} {obs : S → A → List (S × ℝ)} {r : ℝ}
    (hm : uctManager term uctArgs = some (m, cfg)) (ht : term = Uct.uctTerm ∨ ∃ p, 0 < p ∧ p < 1 ∧ term = Uct.puctTerm p)
    (hl : env.Live) (hnd : ∀ s, (env.actions s).Nodup)
    (hobs : ∀ s a, env.isSink s = false → a ∈ env.actions s → Eval.IsDistr (obs s a) ∧ ∀ p ∈ obs s a, p.2 ≠ 0 → p.1 ∈ env.succ s a)
    (hr : ∀ s a o, a ∈ env.actions s → o ∈ env.succ s a → |env.reward s a o| ≤ r) (hfin : (L + 1) * r ≤ 2 ^ 1023)
    (hends : EndsWithin env L s0) (hL : L < 2 ^ 31) (hs0 : env.isSink s0 = false) (hk : 0 < k)
    {ε δ : ℝ} (hε : 0 < ε) (hδ : 0 < δ) {lowI : Int} (hlowI : lowI ≤ 0) :
    ∃ N0 : Nat, ∀ {iter : View S A (Uct.Stats ℝ) (Uct.Stats ℝ) → List (A × ℝ) → List (A × ℝ)} {N : Nat} {sched : Scheduler S A ℝ} {n : Nat},
      N0 ≤ N → (∀ v, Uct.IterOk (iter v)) → Productive env m (Uct.uct cfg m) k s0 0 0 [] N sched → (4 * L + 4) * N ≤ n →
      1 - δ ≤ probAfter env m (Uct.uct cfg m) (uctDice cfg iter obs) k s0 0 0 [] N sched n
        (fun st h => Finished N st h ∧ Uct.SolvedAt env (withLimit m L) cfg obs lowI ε st h st.root) := by
  obtain ⟨D, c1, c2, c3, c4, c5, -⟩ := uct_default hm
  have htb : Leftover ([] : List ((Int × S) × Option Nat)) := by simp [Leftover]
  have h1 : (0 : Int) + L ≤ m.maxDepth := by rw [D.depth]; omega
  obtain ⟨a0, ha0⟩ := List.exists_mem_of_ne_nil _ (hl.acts s0 hs0)
  obtain ⟨o0, ho0⟩ := List.exists_mem_of_ne_nil _ (hl.succs s0 hs0 a0 ha0)
  have hr0 : 0 ≤ r := le_trans (abs_nonneg _) (hr s0 a0 o0 ha0 ho0)
  have hL1 : 1 ≤ L := hends [(a0, o0)] ⟨hs0, ha0, ho0, trivial⟩
  have hheur : ∀ s, heurOf env (withLimit m L) s = 0 := fun s => D.heur env s
  have G : Uct.SolvableS env (withLimit m L) cfg obs (-r) r := by
    refine ⟨hobs, ⟨by linarith, hr0, fun s a o ha ho => abs_le.1 (hr s a o ha ho), fun s => ?_⟩, D.table,
      ⟨by rw [c2], .inl c1, fun f hf => by rw [c3] at hf; simp at hf⟩, ?_⟩
    · rw [hheur]
      exact ⟨by linarith, hr0⟩
    · rw [c4]
      rcases ht with h | h
      · exact .inl h
      · exact .inr (.inl h)
  have hlow : lowest ≤ -(2 ^ 1023) := lowest_le
  have e1 : ((withLimit m L).maxDepth - 0).toNat = L := by simp [withLimit]
  have e2 : remaining (withLimit m L) 0 = L := by simp [remaining, withLimit]
  obtain ⟨N0, H⟩ := Uct.c102_uct G hl hnd hε hδ hk (s0 := s0) (dp := 0) 0 hs0 (by simp [withLimit]; omega) hlowI (by
    rw [c5, e2]
    push_cast
    constructor <;> linarith)
  refine ⟨N0, fun {iter N sched n} hN hit hsch hn => ?_⟩
  rw [← c110_limit_prob hl (Uct.uct_valid cfg m) htb hends h1 (by omega : (0 : Int) + L ≤ L)]
  have hsch' := (c110_limit_productive hl (Uct.uct_valid cfg m) htb hends h1 (by omega : (0 : Int) + L ≤ L)).2 hsch
  exact H hN hit hsch' (by rw [e1]; exact hn)

/-- C110.  UCT with the default settings, any number of workers, in every environment, also one with random outcomes, whose episodes end: for
all `ε` and `δ` and enough trials, with probability at least `1 - δ` the search has solved the game up to `ε` at the root (`SolvedAt`, C102). -/
theorem c110_uct {cfg : Uct.Cfg S A ℝ} {obs : S → A → List (S × ℝ)} {r : ℝ}
    (hm : uctManager Uct.uctTerm uctArgs = some (m, cfg)) (hl : env.Live) (hnd : ∀ s, (env.actions s).Nodup)
    (hobs : ∀ s a, env.isSink s = false → a ∈ env.actions s → Eval.IsDistr (obs s a) ∧ ∀ p ∈ obs s a, p.2 ≠ 0 → p.1 ∈ env.succ s a)
    (hr : ∀ s a o, a ∈ env.actions s → o ∈ env.succ s a → |env.reward s a o| ≤ r) (hfin : (L + 1) * r ≤ 2 ^ 1023)
    (hends : EndsWithin env L s0) (hL : L < 2 ^ 31) (hs0 : env.isSink s0 = false) (hk : 0 < k)
    {ε δ : ℝ} (hε : 0 < ε) (hδ : 0 < δ) {lowI : Int} (hlowI : lowI ≤ 0) :
    ∃ N0 : Nat, ∀ {iter : View S A (Uct.Stats ℝ) (Uct.Stats ℝ) → List (A × ℝ) → List (A × ℝ)} {N : Nat} {sched : Scheduler S A ℝ} {n : Nat},
      N0 ≤ N → (∀ v, Uct.IterOk (iter v)) → Productive env m (Uct.uct cfg m) k s0 0 0 [] N sched → (4 * L + 4) * N ≤ n →
      1 - δ ≤ probAfter env m (Uct.uct cfg m) (uctDice cfg iter obs) k s0 0 0 [] N sched n
        (fun st h => Finished N st h ∧ Uct.SolvedAt env (withLimit m L) cfg obs lowI ε st h st.root) :=
  uct_solves hm (.inl rfl) hl hnd hobs hr hfin hends hL hs0 hk hε hδ hlowI

/-- C110.  The same for PUCT with its default settings. -/
theorem c110_puct {cfg : Uct.Cfg S A ℝ} {obs : S → A → List (S × ℝ)} {r : ℝ}
    (hm : puctManager puctArgs = some (m, cfg)) (hl : env.Live) (hnd : ∀ s, (env.actions s).Nodup)
    (hobs : ∀ s a, env.isSink s = false → a ∈ env.actions s → Eval.IsDistr (obs s a) ∧ ∀ p ∈ obs s a, p.2 ≠ 0 → p.1 ∈ env.succ s a)
    (hr : ∀ s a o, a ∈ env.actions s → o ∈ env.succ s a → |env.reward s a o| ≤ r) (hfin : (L + 1) * r ≤ 2 ^ 1023)
    (hends : EndsWithin env L s0) (hL : L < 2 ^ 31) (hs0 : env.isSink s0 = false) (hk : 0 < k)
    {ε δ : ℝ} (hε : 0 < ε) (hδ : 0 < δ) {lowI : Int} (hlowI : lowI ≤ 0) :
    ∃ N0 : Nat, ∀ {iter : View S A (Uct.Stats ℝ) (Uct.Stats ℝ) → List (A × ℝ) → List (A × ℝ)} {N : Nat} {sched : Scheduler S A ℝ} {n : Nat},
      N0 ≤ N → (∀ v, Uct.IterOk (iter v)) → Productive env m (Uct.uct cfg m) k s0 0 0 [] N sched → (4 * L + 4) * N ≤ n →
      1 - δ ≤ probAfter env m (Uct.uct cfg m) (uctDice cfg iter obs) k s0 0 0 [] N sched n
        (fun st h => Finished N st h ∧ Uct.SolvedAt env (withLimit m L) cfg obs lowI ε st h st.root) :=
  uct_solves (term := Uct.puctTerm (1 / 2)) hm (.inr ⟨1 / 2, by norm_num, by norm_num, rfl⟩) hl hnd hobs hr hfin hends hL hs0 hk hε hδ hlowI

/-- C110.  Every default constructor succeeds. -/
theorem c110_constructs : (thtsManager (thtsArgs : ThtsArgs S A)).isSome ∧ (uctManager Uct.uctTerm (uctArgs : UctArgs S A)).isSome ∧
    (puctManager (puctArgs : PuctArgs S A)).isSome ∧ (mentsManager (mentsArgs : MentsArgs S A)).isSome ∧
    (dentsManager (dentsArgs : DentsArgs S A)).isSome := by
  refine ⟨?_, ?_, ?_, ?_, ?_⟩ <;>
    simp [thtsManager, uctManager, puctManager, mentsManager, dentsManager, dentsArgs, mentsArgs, puctArgs, uctArgs, thtsArgs]

end

/-- A game of two moves: in each the player chooses between the rewards 0 and 1. -/
def twoMoves : Env Nat Bool ℝ :=
  { isSink := fun s => decide (2 ≤ s), actions := fun _ => [false, true], succ := fun s _ => [s + 1], reward := fun _ a _ => if a then 1 else 0 }

theorem twoMoves_ends : ∀ (play : List (Bool × Nat)) (s : Nat), ValidPlay twoMoves s play → play.length ≤ 2 - s := by
  intro play
  induction play with
  | nil => intro s _; simp
  | cons p play ih =>
    obtain ⟨a, o⟩ := p
    rintro s ⟨h1, -, h3, h4⟩
    have h5 : ¬ 2 ≤ s := by simpa [twoMoves] using h1
    have h6 : o = s + 1 := by simpa [twoMoves] using h3
    have := ih o h4
    simp only [List.length_cons]
    omega

theorem twoMoves_plain : Plain twoMoves (fun s _ => s + 1) 0 2 2 1 := by
  refine ⟨fun _ _ _ => rfl, by simp [twoMoves], by simp [twoMoves], by simp [twoMoves], fun play hp => twoMoves_ends play 0 hp, by norm_num, by simp [twoMoves],
    fun s a _ => by cases a <;> simp [twoMoves], ?_⟩
  calc ((2 : ℕ) : ℝ) * 1 = 2 ^ 1 := by norm_num
    _ ≤ 2 ^ 1023 := pow_le_pow_right₀ (by norm_num) (by norm_num)

open Verif.Ments Verif.Dents in
/-- DENTS with its default settings, which have no depth limit, four workers and a hundred million trials of a game of two moves: with
probability at least 0.99 the value of the root is the value of the game, which is 2, and every recommendation is an optimal move. -/
example : ∃ (m : Manager Nat ℝ) (cfg : DCfg Nat Bool) (sched : Scheduler Nat Bool ℝ), dentsManager dentsArgs = some (m, cfg) ∧ 99 / 100 ≤
    probAfter twoMoves m (dents 0 cfg twoMoves m fun _ a => if a then 1 else 0) (softDice 0 cfg.toCfg (dentsQ cfg) (fun _ l => l) (certain fun s _ => s + 1))
      4 0 0 0 [] (10 ^ 8 + 2) sched (12 * (10 ^ 8 + 2)) (fun st h => Finished (10 ^ 8 + 2) st h ∧ valD DX.dp st st.root = some 2 ∧
        RecommendsOptimal twoMoves (withLimit m 2) (fun s _ => s + 1) DY.dp cfg.low cfg.threshold st) := by
  obtain ⟨⟨m, cfg⟩, hm⟩ := Option.isSome_iff_exists.1 (c110_constructs (S := Nat) (A := Bool)).2.2.2.2
  obtain ⟨D, C, hdp⟩ := dents_default hm
  obtain ⟨sched, hsch⟩ := productive_exists (env := twoMoves) (m := m) (k := 4) (s0 := 0) (dp := 0) (tm := 0) (N := 10 ^ 8 + 2) (tb := [])
    (dents_valid 0 cfg twoMoves m fun _ a => if a then 1 else 0) (by simp [Leftover]) (by simp [TableOk, D.table])
  refine ⟨m, cfg, sched, hm, ?_⟩
  have hgv : gameValue twoMoves m (fun s _ => s + 1) 2 0 0 = 2 := by
    have h : ∀ t, isOpponent m t = false := fun t => by simp [isOpponent, D.one]
    norm_num [gameValue, twoMoves, bestOf, D.heur, h, List.max?]
  have key := c110_dents (iter := fun _ l => l) (lr := fun _ a => if a then 1 else 0) (eps := 0) (n := 12 * (10 ^ 8 + 2)) hm twoMoves_plain
    (fun _ _ _ => rfl) (by norm_num) le_rfl (fun _ l => List.Perm.refl l) (by norm_num) (by norm_num) (by norm_num) hsch (by norm_num)
  rw [hgv] at key
  refine le_trans ?_ key
  have hlen : (plays twoMoves 2 0).length = 7 := by rfl
  rw [hlen]
  have h1 : (6457 : ℝ) ≤ (1 + (1 / (44 * (2 : ℕ)) : ℝ) ^ 2 / 2) ^ (10 ^ 8) := by
    refine le_trans ?_ (one_add_mul_le_pow (by norm_num) _)
    norm_num
  have h2 : missBound (1 / (44 * (2 : ℕ))) 2 (10 ^ 8 + 2) ≤ 4 / 6457 := by
    unfold missBound
    rw [show 10 ^ 8 + 2 - 2 = 10 ^ 8 from rfl, show (2 : ℝ) ^ 2 = 4 by norm_num]
    exact div_le_div_of_nonneg_left (by norm_num) (by norm_num) h1
  push_cast at h2 ⊢
  linarith

end Verif.Random
