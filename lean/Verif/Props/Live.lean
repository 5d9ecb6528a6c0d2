import Verif.Proofs.Live
import Verif.Props.Uct
import Verif.Props.Dp
import Verif.Props.Dents
import Verif.Props.Tents
import Verif.Props.Rents

/-! # Property C74: a search never gets stuck, and its trials finish -/

namespace Verif.Search

set_option linter.unusedSectionVars false

section
variable {S A R X Y : Type} [DecidableEq S] [DecidableEq A] [AddMonoid R] {env : Env S A R} {m : Manager S R} {alg : Alg S A R X Y} {k : Nat}
  {s0 : S} {dp tm : Int} {tb : List ((Int × S) × Option Nat)} {st : St S A R X Y} {h : List (Event S A R)}

/-- C74.  In every reachable state every worker can take a step: no schedule leads a worker to a point where its trial cannot go on. -/
theorem c74_never_stuck (hl : env.Live) (hv : alg.Valid) (htb : Leftover tb) (ht : TableOk m tb) (hs : Selects env m alg k s0 dp tm tb)
    (hr : Reachable env m alg k s0 dp tm tb st h) {w : Nat} (hw : w < k) : ∃ ch st' e, step env m alg st w ch = some (st', e) :=
  enabled hl hv htb ht hs hr hw

/-- C74.  Whatever the other workers do: a worker that gets `4·D + 4` turns, `D` the depth limit below the root, completes a trial. -/
theorem c74_trials_complete (hv : alg.Valid) (htb : Leftover tb) (ht : TableOk m tb) (hdp : dp ≤ m.maxDepth)
    (hr : Reachable env m alg k s0 dp tm tb st h) {w : Nat} (hw : w < k) {ls : List (Nat × Choice S A)} {st' : St S A R X Y}
    {h' : List (Event S A R)} (hx : execFrom env m alg st h ls = some (st', h')) (hn : 4 * (m.maxDepth - dp) + 4 ≤ turnsOf w ls) :
    ∃ ext, h' = ext ++ h ∧ Event.completed w ∈ ext := by
  obtain ⟨ext, h1, h2 | ⟨h2, _⟩⟩ := completes_aux (w := w) hv htb ht ls hr hx
  · exact ⟨ext, h1, h2⟩
  · have := c09_trial_length_bounded hv htb (reach_append hr hx) hdp hw
    omega

/-- C74.  From every reachable state all running trials can be finished without starting new ones. -/
theorem c74_can_finish (hl : env.Live) (hv : alg.Valid) (htb : Leftover tb) (ht : TableOk m tb) (hs : Selects env m alg k s0 dp tm tb)
    (hdp : dp ≤ m.maxDepth) (hr : Reachable env m alg k s0 dp tm tb st h) :
    ∃ ls st' ext, execFrom env m alg st h ls = some (st', ext ++ h) ∧ Quiescent st' ∧ ∀ v, Event.began v ∉ ext := by
  obtain ⟨ls, st', ext, h1, h2, h3⟩ := finish_all hl hv htb ht hs hdp hr k le_rfl
  refine ⟨ls, st', ext, h1, ?_, h3⟩
  intro w p hp
  have hlt := (List.getElem?_eq_some_iff.1 hp).1
  rw [reach_len (reach_append hr h1)] at hlt
  rw [h2 w hlt] at hp
  exact (Option.some.inj hp).symm

/-- C74.  A search can go on for as long as one likes: from every reachable state, and for every number `n`, the run can be continued until
`n` more trials are complete, by any one of the workers. -/
theorem c74_any_number_of_trials (hl : env.Live) (hv : alg.Valid) (htb : Leftover tb) (ht : TableOk m tb)
    (hs : Selects env m alg k s0 dp tm tb) (hdp : dp ≤ m.maxDepth) (hr : Reachable env m alg k s0 dp tm tb st h) {w : Nat} (hw : w < k)
    (n : Nat) : ∃ st' ext, Reachable env m alg k s0 dp tm tb st' (ext ++ h) ∧ n ≤ trialsCompleted ext := by
  have run : ∀ (N : Nat) (st : St S A R X Y) (h : List (Event S A R)), Reachable env m alg k s0 dp tm tb st h →
      ∃ ls st' h', execFrom env m alg st h ls = some (st', h') ∧ turnsOf w ls = N := by
    intro N
    induction N with
    | zero => intro st h _; exact ⟨[], st, h, rfl, rfl⟩
    | succ N ih =>
      intro st h hr
      obtain ⟨ch, st1, e, h1⟩ := c74_never_stuck hl hv htb ht hs hr hw
      have hx : execFrom env m alg st h [(w, ch)] = some (st1, e :: h) := by simp [execFrom, h1]
      obtain ⟨ls, st2, h2, h3, h4⟩ := ih st1 (e :: h) (reach_append hr hx)
      refine ⟨(w, ch) :: ls, st2, h2, ?_, ?_⟩
      · simp only [execFrom, h1]; exact h3
      · simp only [turnsOf, List.countP_cons, decide_true, if_true] at h4 ⊢; omega
  induction n with
  | zero => exact ⟨st, [], hr, Nat.zero_le _⟩
  | succ n ih =>
    obtain ⟨st1, ext1, r1, h1⟩ := ih
    obtain ⟨ls, st2, h2, hx, ht2⟩ := run (4 * (m.maxDepth - dp) + 4).toNat st1 (ext1 ++ h) r1
    obtain ⟨ext, rfl, hc⟩ := c74_trials_complete hv htb ht hdp r1 hw hx (by rw [ht2]; omega)
    refine ⟨st2, ext ++ ext1, by rw [List.append_assoc]; exact reach_append r1 hx, ?_⟩
    have : 0 < trialsCompleted ext := List.countP_pos_iff.2 ⟨_, hc, rfl⟩
    have e : trialsCompleted (ext ++ ext1) = trialsCompleted ext + trialsCompleted ext1 := List.countP_append
    omega

theorem selStep {w cur : Nat} {path : List (Nat × Nat)} {rs : List R} {new : Bool} {nd : DNode S A R X} {a : A} (hc : st.crashed = none)
    (hw : st.ws[w]? = some (.sel cur path rs new)) (hd : st.dn[cur]? = some nd) (hs : shouldContinue env m nd new = true)
    (ha : alg.canSelect (viewOf env m st { nd with visits := nd.visits + 1, x := alg.visitD false nd.x }) (st.ctxOf w) a = true) :
    ∃ st' e, step env m alg st w (.act a) = some (st', e) := by
  unfold step
  rw [hc, hw]
  simp only [Option.isSome_none, Bool.false_eq_true, if_false, hd, hs, if_true, blockD]
  rw [if_pos ha]
  split
  · exact ⟨_, _, rfl⟩
  · exact ⟨_, _, rfl⟩

theorem cont_notSink {nd : DNode S A R X} {new : Bool} (hs : shouldContinue env m nd new = true) : env.isSink nd.state = false := by
  have := ((shouldContinue_iff ..).1 hs).1
  simp only [isLeaf, Bool.or_eq_false_iff] at this
  exact this.1

end

/-! ## Every algorithm's selection finds an action -/

section uct
open Verif.Uct Verif.Backups
variable {S A 𝕜 : Type} [DecidableEq S] [DecidableEq A] [Field 𝕜] [LinearOrder 𝕜] [IsStrictOrderedRing 𝕜]
  {env : Env S A 𝕜} {m : Manager S 𝕜} {cfg : Uct.Cfg S A 𝕜} {k : Nat} {s0 : S} {dp tm : Int} {tb : List ((Int × S) × Option Nat)}

/-- What UCT and PUCT need: a non-negative exploration term and bias, a prior (if any) that gives every valid action a non-negative
probability, and returns above `numeric_limits<double>::lowest()`. -/
structure UctOk (cfg : Uct.Cfg S A 𝕜) (env : Env S A 𝕜) (m : Manager S 𝕜) (dp : Int) (lo hi : 𝕜) : Prop where
  bounded : Bounded env m lo hi
  term : ∀ N n, 0 ≤ cfg.term N n
  bias : cfg.bias = -1 ∨ 0 ≤ cfg.bias
  prior : ∀ f, cfg.prior = some f → ∀ s, ∀ a ∈ env.actions s, ∃ p, find? a (f s) = some p ∧ 0 ≤ p
  low : cfg.low ≤ (remaining m dp + 1 : Nat) * lo ∧ cfg.low ≤ -((remaining m dp + 1 : Nat) * hi)

/-- The greedy part of the selection (`select_action_ucb`) returns an action, for every random number and iteration order. -/
theorem uct_ucb_total {lo hi : 𝕜} (U : UctOk cfg env m dp lo hi) (hl : env.Live) (htb : Leftover tb) {st : St S A 𝕜 (Stats 𝕜) (Stats 𝕜)}
    {h : List (Event S A 𝕜)} {cur : Nat} {new : Bool} {nd : DNode S A 𝕜 (Stats 𝕜)} (hr : Reachable env m (uct cfg m) k s0 dp tm tb st h)
    (hd : st.dn[cur]? = some nd) (hs : shouldContinue env m nd new = true) (raw : Nat) {iter : List (A × 𝕜) → List (A × 𝕜)} (hit : IterOk iter) :
    ∃ a, selectUcb cfg (viewOf env m st { nd with visits := nd.visits + 1, x := (uct cfg m).visitD false nd.x }) raw iter = some a := by
  set v := viewOf env m st { nd with visits := nd.visits + 1, x := (uct cfg m).visitD false nd.x } with hv
  have hne : v.actions ≠ [] := hl.acts _ (cont_notSink hs)
  by_cases hu : hasPrior cfg = false ∧ 0 < (untried v).length
  · obtain ⟨a, ha⟩ := sampleUniform_defined (untried v) raw (List.ne_nil_of_length_pos hu.2)
    exact ⟨a, by rw [selectUcb, if_pos hu]; exact ha⟩
  have hall : cfg.prior ≠ none ∨ ∀ b ∈ v.actions, Tried v b := by
    by_cases hp : cfg.prior = none
    · right
      intro b hb
      by_contra hb'
      refine hu ⟨by simp [hasPrior, hp], List.length_pos_iff.2 (List.ne_nil_of_mem (a := b) ?_)⟩
      rw [untried, List.mem_filter]
      refine ⟨hb, ?_⟩
      have := mt (kid_some_iff v b).1 hb'
      simpa using this
    · exact .inl hp
  obtain ⟨prior, hp, hp0⟩ : ∃ prior : A → 𝕜, PriorIs cfg v prior ∧ ∀ a ∈ v.actions, 0 ≤ prior a := by
    cases hpr : cfg.prior with
    | none => exact ⟨fun _ => 1, fun a _ => by rw [hpr], fun _ _ => zero_le_one⟩
    | some f =>
      refine ⟨fun a => (find? a (f v.state)).getD 0, fun a ha => ?_, fun a ha => ?_⟩
      · obtain ⟨p, h1, _⟩ := U.prior f hpr v.state a ha
        simp [hpr, h1]
      · obtain ⟨p, h1, h2⟩ := U.prior f hpr v.state a ha
        simpa [h1] using h2
  have hbias := bias_spec cfg v
  have hb0 : 0 ≤ biasOf cfg v := by
    unfold BiasIs at hbias
    split at hbias
    · exact le_trans (by positivity) (hbias.2 (Or.inl rfl))
    · rw [hbias]
      rcases U.bias with h1 | h1
      · contradiction
      · exact h1
  obtain ⟨b, hb⟩ := List.exists_mem_of_ne_nil _ hne
  have havg : Within lo hi (remaining m dp + 1) (avgOf v b) := by
    have hz : Within lo hi (remaining m dp + 1) (0 : 𝕜) :=
      (show Within lo hi 0 (0 : 𝕜) by simp [Within]).mono U.bounded.lo0 U.bounded.hi0 (Nat.zero_le _)
    unfold avgOf
    cases hf : find? b v.kids with
    | none => simpa using hz
    | some y =>
      obtain ⟨c, nc, h1, h2, h3⟩ := mem_kidsY.1 (find?_mem hf)
      have hB := (c40_uct_averages_bounded U.bounded htb hr).2 c nc h2
      have hdep : dp ≤ nc.depth := by
        have I := reach_inv (uct_valid cfg m) htb hr
        obtain ⟨n, g1, _, _, g2, _⟩ := I.tree.heap.dKid cur nd.skel b c (by simp [hd]) h1
        have g3 := (I.tree.heap.dTime cur nd.skel (by simp [hd])).2
        simp [h2] at g1
        subst g1
        simp only [CNode.skel] at g2
        rw [g2]; exact g3
      obtain rfl : y = (nc.visits, nc.y) := h3
      exact hB.mono U.bounded.lo0 U.bounded.hi0 (by unfold remaining; omega)
  let cfg0 : Uct.Cfg S A 𝕜 := { cfg with epsilon := 0 }
  obtain ⟨a, ha⟩ := (c29_selection_total (cfg := cfg0) (v := v) (prior := prior) (bias := biasOf cfg v) hp hbias hall le_rfl ⟨b, hb, by
    have h1 : 0 ≤ prior b * biasOf cfg v * cfg.term v.visits (visitsOf v b) := mul_nonneg (mul_nonneg (hp0 b hb) hb0) (U.term _ _)
    show cfg.low ≤ score cfg.term prior (biasOf cfg v) v b
    unfold score
    obtain ⟨h2, h3⟩ := havg
    obtain ⟨h4, h5⟩ := U.low
    split <;> linarith⟩).1 0 raw iter hit
  refine ⟨a, ?_⟩
  rw [Uct.selectAction, if_neg (fun h => lt_irrefl _ h.1)] at ha
  have hf : ∀ l, fillFrom cfg0 v l = fillFrom cfg v l := by
    intro l
    induction l with
    | nil => rfl
    | cons a l ih => rw [fillFrom, fillFrom, ih]; rfl
  rw [selectUcb, hf] at ha
  exact ha

/-- C74 for UCT and PUCT. -/
theorem c74_uct_selects {lo hi : 𝕜} (U : UctOk cfg env m dp lo hi) (hl : env.Live) (htb : Leftover tb) :
    Selects env m (uct cfg m) k s0 dp tm tb := by
  intro st h w cur path rs new nd hr hc hw hd hs
  set v := viewOf env m st { nd with visits := nd.visits + 1, x := (uct cfg m).visitD false nd.x } with hv
  have hne : v.actions ≠ [] := hl.acts _ (cont_notSink hs)
  suffices hh : ∃ a, ∃ (u : 𝕜) (raw : Nat) (iter : List (A × 𝕜) → List (A × 𝕜)), 0 ≤ u ∧ u < 1 ∧ IterOk iter ∧
      Uct.selectAction cfg v u raw iter = some a by
    obtain ⟨a, hh⟩ := hh
    exact ⟨a, selStep hc hw hd hs ((selectable_iff cfg v a).2 hh)⟩
  have hid : IterOk (id : List (A × 𝕜) → List (A × 𝕜)) := fun _ _ => Iff.rfl
  by_cases he : 0 < cfg.epsilon
  · obtain ⟨a, ha⟩ := sampleUniform_defined v.actions 0 hne
    exact ⟨a, 0, 0, id, le_rfl, one_pos, hid, by rw [Uct.selectAction, if_pos ⟨he, he⟩]; exact ha⟩
  obtain ⟨a, ha⟩ := uct_ucb_total U hl htb hr hd hs 0 hid
  exact ⟨a, 0, 0, id, le_rfl, one_pos, hid, by rw [Uct.selectAction, if_neg (fun h => he h.1)]; exact ha⟩

theorem exUctOk : UctOk (Uct.Toy.cfg 1 2) boundEnv { Uct.Toy.mgr with heuristic := some (fun s => if s ≤ 3 then s else 0) } 0 0 33 :=
  ⟨bound_ok, fun N n => by simp only [Uct.Toy.cfg]; positivity, .inr (by simp [Uct.Toy.cfg]), by simp [Uct.Toy.cfg],
    by simp [Uct.Toy.cfg], by norm_num [Uct.Toy.cfg, remaining, Uct.Toy.mgr, show Int.toNat 3 = 3 from rfl]⟩

theorem exLive : boundEnv.Live := ⟨by simp [boundEnv, Uct.Toy.env], by simp [boundEnv, Uct.Toy.env]⟩

/-- The hypotheses hold for a UCT search of the toy environment, with two workers and any reachable state. -/
example {st : St Nat Nat ℚ (Stats ℚ) (Stats ℚ)} {h : List (Event Nat Nat ℚ)} {m : Manager Nat ℚ}
    (hm : m = { Uct.Toy.mgr with heuristic := some (fun s => if s ≤ 3 then s else 0) })
    (hr : Reachable boundEnv m (uct (Uct.Toy.cfg 1 2) m) 2 0 0 0 [] st h) :
    ∃ ls st' ext, execFrom boundEnv m (uct (Uct.Toy.cfg 1 2) m) st h ls = some (st', ext ++ h) ∧ Quiescent st' ∧ ∀ v, Event.began v ∉ ext := by
  subst hm
  exact c74_can_finish exLive (uct_valid _ _) (by simp [Leftover]) (by simp [TableOk, Uct.Toy.mgr]) (c74_uct_selects exUctOk exLive (by simp [Leftover]))
    (by simp [Uct.Toy.mgr]) hr

end uct

section soft
open Verif.Ments Verif.Dents Verif.Tents
variable {S A : Type} [DecidableEq S] [DecidableEq A] {env : Env S A ℝ} {m : Manager S ℝ} {eps : ℝ} {lr : S → A → ℝ} {k : Nat} {s0 : S}
  {dp tm : Int} {tb : List ((Int × S) × Option Nat)}

/-- C74 for MENTS. -/
theorem c74_ments_selects {cfg : Cfg S A} (G : GoodCfg cfg env) (hl : env.Live) (hlen : ∀ s, (env.actions s).length < 10 ^ 16)
    (htb : Leftover tb) (heps : 0 ≤ eps) : Selects env m (ments eps cfg lr) k s0 dp tm tb := by
  intro st h w cur path rs new nd hr hc hw hd hs
  obtain ⟨a, _, h1⟩ := c36_can_continue G htb heps hr hc hw hd hs (hl.acts _ (cont_notSink hs)) (hlen _)
  exact ⟨a, h1⟩

/-- C74 for TENTS. -/
theorem c74_tents_selects {cfg : Cfg S A} (G : GoodCfg cfg env) (hnd : ∀ s, (env.actions s).Nodup) (hl : env.Live)
    (hlen : ∀ s, (env.actions s).length < 10 ^ 16) (htb : Leftover tb) (heps : 0 ≤ eps) :
    Selects env m (tents eps cfg env m lr) k s0 dp tm tb := by
  intro st h w cur path rs new nd hr hc hw hd hs
  obtain ⟨a, _, h1⟩ := c44_can_continue G hnd htb heps hr hc hw hd hs (hl.acts _ (cont_notSink hs)) (hlen _)
  exact ⟨a, h1⟩

/-- C74 for RENTS, with a root of depth zero. -/
theorem c74_rents_selects {cfg : Cfg S A} (G : GoodCfg cfg env) (hnd : ∀ s, (env.actions s).Nodup) (hl : env.Live)
    (hlen : ∀ s, (env.actions s).length < 10 ^ 16) (htb : Leftover tb) (heps : 0 ≤ eps) :
    Selects env m (rents eps cfg lr) k s0 0 tm tb := by
  intro st h w cur path rs new nd hr hc hw hd hs
  obtain ⟨a, _, h1⟩ := c45_can_continue G hnd htb heps hr hc hw hd hs (hl.acts _ (cont_notSink hs)) (hlen _)
  exact ⟨a, h1⟩

theorem pos_of_len {n : Nat} (h : n < 10 ^ 16) : (0 : ℝ) < 1 - n * (1 / 10 ^ 16) := by
  have : (n : ℝ) < 10 ^ 16 := by exact_mod_cast h
  rw [mul_one_div, sub_pos, div_lt_one (by positivity)]
  exact this

theorem selectable_of {cfg : Cfg S A} {X Y : Type} {q : A → Except Bad ℝ} {v : View S A X Y} {a : A}
    (h : selectAction eps cfg q v 0 id = .ok (.key a)) : selectable eps cfg q v a = true := by
  unfold selectable
  rw [@decide_eq_true_eq _ (Classical.propDecidable _)]
  exact ⟨0, id, le_rfl, one_pos, fun l => List.Perm.refl l, h⟩

/-- C74 for DB-MENTS. -/
theorem c74_dbments_selects {cfg : Cfg S A} (G : GoodCfg cfg env) (hl : env.Live) (hlen : ∀ s, (env.actions s).length < 10 ^ 16)
    (htb : Leftover tb) (heps : 0 ≤ eps) : Selects env m (dbments eps cfg lr) k s0 dp tm tb := by
  intro st h w cur path rs new nd hr hc hw hd hs
  obtain ⟨a, _, h1⟩ := c36_dbments_never_fails G htb heps hr { nd with visits := nd.visits + 1, x := (dbments eps cfg lr).visitD false nd.x }
    (Nat.succ_pos _) (hl.acts _ (cont_notSink hs)) le_rfl (pos_of_len (hlen _)) (iter := id) (fun l => List.Perm.refl l)
  exact ⟨a, selStep hc hw hd hs (selectable_of h1)⟩

/-- C74 for EST. -/
theorem c74_est_selects {cfg : DCfg S A} (G : GoodCfg cfg.toCfg env) (hl : env.Live) (hlen : ∀ s, (env.actions s).length < 10 ^ 16)
    (htb : Leftover tb) (heps : 0 ≤ eps) : Selects env m (est eps cfg env m lr) k s0 dp tm tb := by
  intro st h w cur path rs new nd hr hc hw hd hs
  obtain ⟨a, _, h1⟩ := c36_est_never_fails G htb heps hr { nd with visits := nd.visits + 1, x := (est eps cfg env m lr).visitD false nd.x }
    (Nat.succ_pos _) (hl.acts _ (cont_notSink hs)) le_rfl (pos_of_len (hlen _)) (iter := id) (fun l => List.Perm.refl l)
  exact ⟨a, selStep hc hw hd hs (selectable_of h1)⟩

/-- C74 for DENTS with a positive epsilon.  Missing: epsilon 0, for which it is false (`c57_epsilon_zero_false`). -/
theorem c74_dents_selects_partial {cfg : DCfg S A} (G : GoodCfg cfg.toCfg env) (he : 0 < cfg.epsilon) (hl : env.Live)
    (hlen : ∀ s, (env.actions s).length < 10 ^ 16) (htb : Leftover tb) (heps : 0 ≤ eps) :
    Selects env m (dents eps cfg env m lr) k s0 dp tm tb := by
  intro st h w cur path rs new nd hr hc hw hd hs
  obtain ⟨a, _, h1⟩ := c57_never_fails_partial G he htb heps hr { nd with visits := nd.visits + 1, x := (dents eps cfg env m lr).visitD false nd.x }
    (Nat.succ_pos _) (hl.acts _ (cont_notSink hs)) le_rfl (pos_of_len (hlen _)) (iter := id) (fun l => List.Perm.refl l)
  exact ⟨a, selStep hc hw hd hs (selectable_of h1)⟩

/-- The hypotheses hold for a MENTS search with a prior, three workers and any reachable state. -/
example {st : St Unit Bool ℝ Soft Soft} {h : List (Event Unit Bool ℝ)} (hr : Reachable exEnv exMgr (ments 0 exCfg fun _ _ => 1) 3 () 0 0 [] st h) :
    ∃ ls st' ext, execFrom exEnv exMgr (ments 0 exCfg fun _ _ => 1) st h ls = some (st', ext ++ h) ∧ Quiescent st' ∧ ∀ v, Event.began v ∉ ext :=
  have hl : exEnv.Live := ⟨by simp [exEnv], by simp [exEnv]⟩
  c74_can_finish hl (ments_valid _ _ _) (by simp [Leftover]) (by simp [TableOk, exMgr])
    (c74_ments_selects exGood hl (by simp [exEnv]) (by simp [Leftover]) le_rfl) (by simp [exMgr]) hr

end soft

end Verif.Search
