import Verif.Proofs.Counters
import Verif.Props.Ints
import Verif.Props.SoftTree
import Verif.Props.Tents

/-!
# C107: backup counts are truthful

`Counts`, `leftOut` and `running` are defined in `Verif.Spec.Counters`.
-/

set_option linter.unusedSectionVars false
set_option linter.unusedSimpArgs false

namespace Verif.Search

section
variable {S A R X Y : Type} [DecidableEq S] [DecidableEq A] [AddMonoid R]
variable {env : Env S A R} {m : Manager S R} {alg : Alg S A R X Y} {k : Nat} {s0 : S} {dp tm : Int}
  {tb : List ((Int × S) × Option Nat)} {st : St S A R X Y} {h : List (Event S A R)} {ok : X → Prop} {cd : X → Nat} {cc : Y → Nat} {lv : Bool} {d0 c0 : Nat}

theorem running_eq (st : St S A R X Y) : running st = st.ws.countP Phase.busy := by
  unfold running
  exact countP_congr' st.ws fun p => by cases p <;> rfl

theorem running_rest (hq : Quiescent st) : running st = 0 := by
  rw [running_eq]
  exact quiescent_counts hq Phase.busy rfl

theorem ended_eq (d : Nat) (h : List (Event S A R)) : h.countP (Event.endAt d) = trialsEndedAt d h := countP_congr' h (fun e => by cases e <;> rfl)

/-- C107, at any moment: the backups counted at a decision node and the trials it leaves out are never more than its visits, and less by at most the running trials. -/
theorem c107_decision_running (H : Counts alg ok cd cc lv d0 c0) (hv : alg.Valid) (htb : Leftover tb) (hr : Reachable env m alg k s0 dp tm tb st h) {d : Nat}
    {nd : DNode S A R X} (hd : st.dn[d]? = some nd) (hok : ok nd.x) :
    cd nd.x + alg.initVisits + leftOut env m lv d nd h ≤ d0 + nd.visits ∧ d0 + nd.visits ≤ cd nd.x + alg.initVisits + leftOut env m lv d nd h + running st := by
  obtain ⟨I, C⟩ := reach_both hv htb hr
  have h1 := (ceq_reach H hr).d d nd hd hok
  have h2 := C.v1 d nd hd
  have h3 := (reach_bk hr).1.d d
  have h4 := pendD_sum I d
  rw [running_eq]
  have h5 : leftOut env m lv d nd h = if isLeaf env m nd && lv then 0 else h.countP (Event.endAt d) := by rw [ended_eq]; rfl
  rw [h5]
  cases hb : isLeaf env m nd && lv <;> simp only [hb, if_true, if_false, Bool.false_eq_true] at h1 ⊢ <;> omega

/-- C107, at any moment: the backups counted at a chance node are never more than its visits, and less by at most the running trials. -/
theorem c107_chance_running (H : Counts alg ok cd cc lv d0 c0) (hv : alg.Valid) (htb : Leftover tb) (hr : Reachable env m alg k s0 dp tm tb st h) {c : Nat}
    {nc : CNode S A R Y} (hc : st.cn[c]? = some nc) : cc nc.y ≤ c0 + nc.visits ∧ c0 + nc.visits ≤ cc nc.y + running st := by
  obtain ⟨I, C⟩ := reach_both hv htb hr
  have h1 := (ceq_reach H hr).c c nc hc
  have h2 := C.v2 c nc hc
  have h3 := (reach_bk hr).1.c c
  have h4 := pendC_sum I c
  rw [running_eq]
  omega

/-- C107.  With no trial running, the backups counted at a decision node are its visits (since construction) without the trials it leaves out. -/
theorem c107_decision (H : Counts alg ok cd cc lv d0 c0) (hv : alg.Valid) (htb : Leftover tb) (hr : Reachable env m alg k s0 dp tm tb st h) (hq : Quiescent st) {d : Nat}
    {nd : DNode S A R X} (hd : st.dn[d]? = some nd) (hok : ok nd.x) : cd nd.x + alg.initVisits + leftOut env m lv d nd h = d0 + nd.visits := by
  have h1 := c107_decision_running H hv htb hr hd hok
  rw [running_rest hq] at h1
  omega

/-- C107.  With no trial running, the backups counted at a chance node are its visits. -/
theorem c107_chance (H : Counts alg ok cd cc lv d0 c0) (hv : alg.Valid) (htb : Leftover tb) (hr : Reachable env m alg k s0 dp tm tb st h) (hq : Quiescent st) {c : Nat}
    {nc : CNode S A R Y} (hc : st.cn[c]? = some nc) : cc nc.y = c0 + nc.visits := by
  have h1 := c107_chance_running H hv htb hr hc
  rw [running_rest hq] at h1
  omega

/-- C107.  With no trial running, the backups counted at the root are the trials completed: this is what the loggers write.  (A root that is a leaf counts only if leaves are
counted.) -/
theorem c107_root (H : Counts alg ok cd cc lv d0 c0) (hv : alg.Valid) (htb : Leftover tb) (hr : Reachable env m alg k s0 dp tm tb st h) (hq : Quiescent st)
    {nd : DNode S A R X} (hd : st.dn[st.root]? = some nd) (hok : ok nd.x) (hl : lv = true ∨ (env.isSink nd.state = false ∧ nd.depth < m.maxDepth)) :
    cd nd.x = d0 + trialsCompleted h := by
  have h1 := c107_decision H hv htb hr hq hd hok
  have h2 := (c13_root_visits hv htb hr hq).1
  simp only [visitsD, hd, Option.map_some, Option.getD_some] at h2
  have h3 : leftOut env m lv st.root nd h = 0 := by
    unfold leftOut
    cases hb : isLeaf env m nd with
    | true =>
      have hb' := hb
      simp only [isLeaf] at hb'
      rcases hl with rfl | ⟨g1, g2⟩
      · simp [hb']
      · simp only [g1, Bool.false_or, decide_eq_true_eq] at hb'
        omega
    | false =>
      have := root_ends hv htb hr hd hb
      rw [ended_eq] at this
      simp [this]
  omega

/-- C107.  At any moment, while trials are running, what the loggers write for the root is at most the trials begun and at least the trials completed. -/
theorem c107_root_running (H : Counts alg ok cd cc lv d0 c0) (hv : alg.Valid) (htb : Leftover tb) (hr : Reachable env m alg k s0 dp tm tb st h)
    {nd : DNode S A R X} (hd : st.dn[st.root]? = some nd) (hok : ok nd.x) (hl : lv = true ∨ (env.isSink nd.state = false ∧ nd.depth < m.maxDepth)) :
    cd nd.x ≤ d0 + trialsBegun h ∧ trialsBegun h ≤ trialsCompleted h + running st ∧ d0 + trialsCompleted h ≤ cd nd.x + running st := by
  obtain ⟨I, C⟩ := reach_both hv htb hr
  have e1 : h.countP Event.isBegan = trialsBegun h := countP_congr' h (fun e => by cases e <;> rfl)
  have e2 : h.countP Event.isCompleted = trialsCompleted h := countP_congr' h (fun e => by cases e <;> rfl)
  have h5 := C.v5
  have h1 := C.v1 _ nd hd
  have h4 := C.v4 st.root
  rw [no_into_root I C, if_pos rfl] at h4
  have h6 : st.ws.countP (Phase.inSel st.root) + (st.ws.map (Phase.pendD st.root)).sum ≤ st.ws.countP Phase.busy := by
    have : ∀ (l : List (Phase S A R)), (∀ p ∈ l, ∃ w : Nat, st.ws[w]? = some p) →
        l.countP (Phase.inSel st.root) + (l.map (Phase.pendD st.root)).sum ≤ l.countP Phase.busy := by
      intro l
      induction l with
      | nil => simp
      | cons p l ih =>
        intro hl
        have i1 := ih fun q hq => hl q (List.mem_cons_of_mem _ hq)
        obtain ⟨w, hw⟩ := hl p List.mem_cons_self
        have i2 := pendD_le I hw st.root
        rw [List.countP_cons, List.countP_cons, List.map_cons, List.sum_cons]
        have i3 : (if Phase.inSel st.root p then 1 else 0) + Phase.pendD st.root p ≤ if p.busy then 1 else 0 := by
          cases p with
          | sel cur path rs new =>
            by_cases hc : cur = st.root
            · subst hc
              have H := I.ws w _ hw
              obtain ⟨B, rfl, _⟩ := H
              obtain ⟨nr, hnr, _, hdr, _⟩ := root_node I.tree
              have hlen := (base_depth I.tree B).1 nr hnr
              have : stepsOf w h = [] := List.length_eq_zero_iff.1 (by omega)
              simp [Phase.inSel, Phase.pendD, Phase.busy, this, pairs]
            · have : Phase.inSel st.root (.sel cur path rs new : Phase S A R) = false := by simpa [Phase.inSel] using hc
              rw [this]
              simpa using i2
          | _ => simpa [Phase.inSel] using i2
        omega
    exact this _ fun p hp => List.mem_iff_getElem?.1 hp
  have h7 := (reach_bk hr).1.d st.root
  have h8 := (ceq_reach H hr).d _ nd hd hok
  rw [running_eq]
  have h9 : (if (isLeaf env m nd && lv) = true then h.countP (Event.endAt st.root) else 0) = h.countP (Event.endAt st.root) := by
    cases hb : isLeaf env m nd with
    | true =>
      have hb' := hb
      simp only [isLeaf] at hb'
      rcases hl with rfl | ⟨g1, g2⟩
      · simp
      · simp only [g1, Bool.false_or, decide_eq_true_eq] at hb'
        omega
    | false =>
      have := root_ends hv htb hr hd hb
      simp [this]
  rw [h9] at h8
  omega

/-- C107.  Without mcts mode and with leaves counted, no trial is left out anywhere: with no trial running, backups and visits agree at every decision node. -/
theorem c107_full_depth (H : Counts alg ok cd cc true d0 c0) (hv : alg.Valid) (htb : Leftover tb) (hm : m.mctsMode = false)
    (hr : Reachable env m alg k s0 dp tm tb st h) (hq : Quiescent st) {d : Nat} {nd : DNode S A R X} (hd : st.dn[d]? = some nd) (hok : ok nd.x) :
    cd nd.x + alg.initVisits = d0 + nd.visits := by
  have h1 := c107_decision H hv htb hr hq hd hok
  have h2 : leftOut env m true d nd h = 0 := by
    unfold leftOut
    cases hb : isLeaf env m nd with
    | true => simp only [isLeaf] at hb; simp [hb]
    | false =>
      have := ends_leaf hv htb hm hr d nd hd hb
      rw [ended_eq] at this
      simp [this]
  omega

/-- C107 fails in mcts mode at every node that is neither root nor leaf (without transposition table): exactly one trial, the one that created it, is not counted. -/
theorem c107_mcts_false (H : Counts alg ok cd cc lv d0 c0) (hv : alg.Valid) (htb : Leftover tb) (hm : m.mctsMode = true) (ht : m.useTable = false)
    (hr : Reachable env m alg k s0 dp tm tb st h) (hq : Quiescent st) {d : Nat} {nd : DNode S A R X} (hd : st.dn[d]? = some nd) (hok : ok nd.x) (hroot : d ≠ st.root)
    (hl : env.isSink nd.state = false ∧ nd.depth < m.maxDepth) : cd nd.x + alg.initVisits + 1 = d0 + nd.visits := by
  have h1 := c107_decision H hv htb hr hq hd hok
  have hb : isLeaf env m nd = false := by
    unfold isLeaf
    simp only [hl.1, Bool.false_or, decide_eq_false_iff_not]
    omega
  have h2 := ends_le_one hv htb ht hr hd hb
  have h3 := grew_some hr d (List.getElem?_eq_some_iff.1 hd).1 hroot
  have h4 := grew_ends hv htb hm hr d
  rw [quiescent_counts hq (Phase.selNew m d) rfl] at h4
  rw [ended_eq] at h2 h4
  have h5 : leftOut env m lv d nd h = trialsEndedAt d h := by
    unfold leftOut
    unfold isLeaf at hb
    simp [hb]
  omega

/-- C107.  With a transposition table several trials can be left out, but never more than found the node in the table or created it. -/
theorem c107_left_out (hv : alg.Valid) (htb : Leftover tb) (hr : Reachable env m alg k s0 dp tm tb st h) {d : Nat} {nd : DNode S A R X} (hd : st.dn[d]? = some nd)
    (hl : env.isSink nd.state = false ∧ nd.depth < m.maxDepth) :
    leftOut env m lv d nd h ≤ h.countP (fun e => match e with | .stepped _ _ _ _ _ d' _ grew => d' == d && grew | _ => false) := by
  have hb : isLeaf env m nd = false := by
    unfold isLeaf
    simp only [hl.1, Bool.false_or, decide_eq_false_iff_not]
    omega
  have h1 := ends_grew hv htb hr d (by intro nd' h'; rw [hd] at h'; simp at h'; subst h'; exact hb)
  have h2 : leftOut env m lv d nd h = h.countP (Event.endAt d) := by
    unfold leftOut
    unfold isLeaf at hb
    simp [hb, ended_eq]
  have h3 : h.countP (Event.grewInto d) = h.countP (fun e => match e with | .stepped _ _ _ _ _ d' _ grew => d' == d && grew | _ => false) :=
    countP_congr' h (fun e => by cases e <;> rfl)
  omega

end

/-! ## The algorithms -/

section
variable {S A : Type} [DecidableEq S] [DecidableEq A]

open Verif.Uct in
/-- UCT and PUCT do not count leaves; with a heuristic they start with the pseudo trials. -/
theorem c107_uct {𝕜 : Type} [Field 𝕜] [LinearOrder 𝕜] (cfg : Cfg S A 𝕜) (m : Manager S 𝕜) :
    Counts (uct cfg m) (fun _ => True) Stats.n Stats.n false (uct cfg m).initVisits 0 := by
  constructor
  · intro s dep tim h _; simp only [uct]; split <;> rfl
  · intro s a dep tim; rfl
  · intro leaf x _; simp [uct]
  · intro y; rfl
  · intro v ctx args _; simp [uct, backupAvg]
  · intro s a y kids args; simp [uct, backupAvg]

open Verif.Ments Verif.Tents Verif.Backups Verif.Dents

theorem softVisit_eq (leaf : Bool) (x : Soft) : (softVisit leaf x).n = x.n + (if leaf && true then 1 else 0) := by
  unfold softVisit
  cases leaf <;> simp

theorem dpVisit_eq (leaf : Bool) (x : Dp ℝ) : (dpVisit leaf x).n = x.n + (if leaf && true then 1 else 0) := by
  unfold dpVisit
  cases leaf <;> simp

theorem c107_ments (eps : ℝ) (cfg : Cfg S A) (lr : S → A → ℝ) : Counts (ments eps cfg lr) (fun _ => True) Soft.n Soft.n true 0 0 := by
  constructor
  · intro s dep tim h _; simp [ments, softInitD]
  · intro s a dep tim; simp [ments, softInitC]
  · intro leaf x _; exact ⟨trivial, softVisit_eq leaf x⟩
  · intro y; simp [ments]
  · intro v ctx args _; simp [ments, softBackupD]
  · intro s a y kids args; simp [ments, softBackupC]

theorem c107_rents (eps : ℝ) (cfg : Cfg S A) (lr : S → A → ℝ) : Counts (rents eps cfg lr) (fun _ => True) Soft.n Soft.n true 0 0 := by
  constructor
  · intro s dep tim h _; simp [rents, softInitD]
  · intro s a dep tim; simp [rents, softInitC]
  · intro leaf x _; exact ⟨trivial, softVisit_eq leaf x⟩
  · intro y; simp [rents]
  · intro v ctx args _; simp [rents, rentsBackupD]
  · intro s a y kids args; simp [rents, softBackupC]

/-- TENTS, for nodes whose maps are intact; `c43_maps_consistent` shows that all are. -/
theorem c107_tents (eps : ℝ) (cfg : Cfg S A) (env : Env S A ℝ) (m : Manager S ℝ) (lr : S → A → ℝ) :
    Counts (tents eps cfg env m lr) (fun x => ∃ t, x = .ok t) (fun x => (softOfX x).n) Soft.n true 0 0 := by
  constructor
  · intro s dep tim h hok
    simp only [tents, tentsInitD]
    split <;> simp [softOfX, softInitD]
  · intro s a dep tim; simp [tents, softInitC]
  · intro leaf x hok
    simp only [tents] at hok ⊢
    cases x with
    | ok t => exact ⟨⟨t, rfl⟩, softVisit_eq leaf t.soft⟩
    | error e => simp [tentsVisit] at hok
  · intro y; simp [tents]
  · intro v ctx args hok
    simp only [tents] at hok ⊢
    unfold tentsBackupD at hok ⊢
    repeat' split at hok
    all_goals simp_all [softOfX]
  · intro s a y kids args; simp [tents, softBackupC]

/-- So the backups counted at the root of a TENTS search are the trials completed. -/
theorem c107_tents_root {eps : ℝ} {cfg : Cfg S A} {env : Env S A ℝ} {m : Manager S ℝ} {lr : S → A → ℝ} {k : Nat} {s0 : S} {dp tm : Int}
    {tb : List ((Int × S) × Option Nat)} {st : St S A ℝ (Except TErr (TX A)) Soft} {h : List (Event S A ℝ)} (hp : PriorTotal cfg env)
    (hnd : ∀ s, (env.actions s).Nodup) (htb : Leftover tb) (hr : Reachable env m (tents eps cfg env m lr) k s0 dp tm tb st h) (hq : Quiescent st)
    {nd : DNode S A ℝ (Except TErr (TX A))} (hd : st.dn[st.root]? = some nd) : (softOfX nd.x).n = trialsCompleted h := by
  obtain ⟨t, ht, _⟩ := c43_maps_consistent hp hnd htb hr hd
  have := c107_root (c107_tents eps cfg env m lr) (tents_valid _ _ _ _ _) htb hr hq hd ⟨t, ht⟩ (Or.inl rfl)
  simpa using this

/-- The two counters of DB-MENTS; the one of the DP backup starts with one at decision nodes. -/
theorem c107_dbments (eps : ℝ) (cfg : Cfg S A) (lr : S → A → ℝ) :
    Counts (dbments eps cfg lr) (fun _ => True) (fun x => x.soft.n) (fun y => y.soft.n) true 0 0 ∧
    Counts (dbments eps cfg lr) (fun _ => True) (fun x => x.dp.n) (fun y => y.dp.n) true 1 0 := by
  constructor <;> constructor
  · intro s dep tim h _; simp [dbments, softInitD]
  · intro s a dep tim; simp [dbments, softInitC]
  · intro leaf x _; exact ⟨trivial, softVisit_eq leaf x.soft⟩
  · intro y; simp [dbments]
  · intro v ctx args _; simp [dbments, softBackupD]
  · intro s a y kids args; simp [dbments, softBackupC]
  · intro s dep tim h _; simp [dbments, dpInitD]
  · intro s a dep tim; simp [dbments, dpInitC]
  · intro leaf x _; exact ⟨trivial, dpVisit_eq leaf x.dp⟩
  · intro y; simp [dbments]
  · intro v ctx args _; simp [dbments, dpBackupD]
  · intro s a y kids args; simp [dbments, dpBackupC]

/-- The counters of DENTS that are always kept: those of MENTS and of the entropy, which does not count leaves. -/
theorem c107_dents (eps : ℝ) (cfg : DCfg S A) (env : Env S A ℝ) (m : Manager S ℝ) (lr : S → A → ℝ) :
    Counts (dents eps cfg env m lr) (fun _ => True) (fun x => x.soft.n) (fun y => y.soft.n) true 0 0 ∧
    Counts (dents eps cfg env m lr) (fun _ => True) (fun x => x.ent.n) (fun y => y.ent.n) false 1 0 := by
  constructor <;> constructor
  · intro s dep tim h _; simp [dents, dentsInitD, softInitD]
  · intro s a dep tim; simp [dents, dentsInitC, softInitC]
  · intro leaf x _; exact ⟨trivial, softVisit_eq leaf x.soft⟩
  · intro y; simp [dents]
  · intro v ctx args _; simp [dents, dentsBackupD]
  · intro s a y kids args; simp [dents, dentsBackupC]
  · intro s dep tim h _; simp [dents, dentsInitD, entD_n]
  · intro s a dep tim; simp [dents, dentsInitC]
  · intro leaf x _; simp [dents, dentsVisitD]
  · intro y; simp [dents]
  · intro v ctx args _; simp [dents, dentsBackupD, entD_n]
  · intro s a y kids args; simp [dents, dentsBackupC, entC_n]

/-- The counter of MENTS at EST nodes. -/
theorem c107_est (eps : ℝ) (cfg : DCfg S A) (env : Env S A ℝ) (m : Manager S ℝ) (lr : S → A → ℝ) :
    Counts (est eps cfg env m lr) (fun _ => True) (fun x => x.soft.n) (fun y => y.soft.n) true 0 0 := by
  constructor
  · intro s dep tim h _; simp [est, dentsInitD, softInitD]
  · intro s a dep tim; simp [est, dentsInitC, softInitC]
  · intro leaf x _; exact ⟨trivial, softVisit_eq leaf x.soft⟩
  · intro y; simp [est]
  · intro v ctx args _; simp [est, estBackupD]
  · intro s a y kids args; simp [est, estBackupC]

/-- With DP backups, DENTS and EST keep the counter of DB-MENTS. -/
theorem c107_dents_dp (eps : ℝ) (cfg : DCfg S A) (env : Env S A ℝ) (m : Manager S ℝ) (lr : S → A → ℝ) (hu : cfg.useDp = true) :
    Counts (dents eps cfg env m lr) (fun _ => True) (fun x => x.dp.n) (fun y => y.dp.n) true 1 0 ∧
    Counts (est eps cfg env m lr) (fun _ => True) (fun x => x.dp.n) (fun y => y.dp.n) true 1 0 := by
  constructor <;> constructor
  · intro s dep tim h _; simp [dents, dentsInitD, dpInitD]
  · intro s a dep tim; simp [dents, dentsInitC, dpInitC]
  · intro leaf x _; exact ⟨trivial, dpVisit_eq leaf x.dp⟩
  · intro y; simp [dents]
  · intro v ctx args _; simp [dents, dentsBackupD, valueBackupD, hu, dpBackupD]
  · intro s a y kids args; simp [dents, dentsBackupC, valueBackupC, hu, dpBackupC]
  · intro s dep tim h _; simp [est, dentsInitD, dpInitD]
  · intro s a dep tim; simp [est, dentsInitC, dpInitC]
  · intro leaf x _; exact ⟨trivial, dpVisit_eq leaf x.dp⟩
  · intro y; simp [est]
  · intro v ctx args _; simp [est, estBackupD, valueBackupD, hu, dpBackupD]
  · intro s a y kids args; simp [est, estBackupC, valueBackupC, hu, dpBackupC]

/-- With average returns they count the returns instead, without those of leaves. -/
theorem c107_dents_emp (eps : ℝ) (cfg : DCfg S A) (env : Env S A ℝ) (m : Manager S ℝ) (lr : S → A → ℝ) (hu : cfg.useDp = false) :
    Counts (dents eps cfg env m lr) (fun _ => True) (fun x => x.emp.n) (fun y => y.emp.n) false 1 0 ∧
    Counts (est eps cfg env m lr) (fun _ => True) (fun x => x.emp.n) (fun y => y.emp.n) false 1 0 := by
  constructor <;> constructor
  · intro s dep tim h _; simp [dents, dentsInitD]
  · intro s a dep tim; simp [dents, dentsInitC]
  · intro leaf x _; simp [dents, dentsVisitD]
  · intro y; simp [dents]
  · intro v ctx args _; simp [dents, dentsBackupD, valueBackupD, hu, empBackup]
  · intro s a y kids args; simp [dents, dentsBackupC, valueBackupC, hu, empBackup]
  · intro s dep tim h _; simp [est, dentsInitD]
  · intro s a dep tim; simp [est, dentsInitC]
  · intro leaf x _; simp [est, dentsVisitD]
  · intro y; simp [est]
  · intro v ctx args _; simp [est, estBackupD, valueBackupD, hu, empBackup]
  · intro s a y kids args; simp [est, estBackupC, valueBackupC, hu, empBackup]

end

/-! ## Concrete searches -/

open Verif.Ments Verif.Dents in
/-- C107 is false of MENTS in mcts mode: after a search of one trial the only successor has been visited once and has counted no backup, so that it has no weight. -/
theorem c107_ments_false : ∃ st h nd, Reachable zEnv hMgr (ments 0 (zCfgE (1 / 2)).toCfg fun _ _ => 1) 1 () 0 0 [] st h ∧ Quiescent st ∧
    st.dn[1]? = some nd ∧ nd.visits = 1 ∧ nd.x.n = 0 ∧ nd.x.val = some 7 := by
  obtain ⟨v, ctx, ctx', args, args', h, hr⟩ := h_run (ments 0 (zCfgE (1 / 2)).toCfg fun _ _ => 1) rfl h_first
  refine ⟨_, h, _, hr, ?_, rfl, rfl, rfl, rfl⟩
  intro w p hw
  match w, hw with
  | 0, hw => simpa using hw.symm
  | _ + 1, hw => simp at hw

open Verif.Ments Verif.Dents in
/-- The same search meets the hypotheses of `c107_mcts_false` and `c107_root`. -/
example : ∃ st h nd nr, Reachable zEnv hMgr (Ments.ments 0 (zCfgE (1 / 2)).toCfg fun _ _ => 1) 1 () 0 0 [] st h ∧ Quiescent st ∧
    st.dn[1]? = some nd ∧ 1 ≠ st.root ∧ zEnv.isSink nd.state = false ∧ nd.depth < hMgr.maxDepth ∧ hMgr.mctsMode = true ∧
    hMgr.useTable = false ∧ st.dn[st.root]? = some nr ∧ nr.x.n = trialsCompleted h := by
  obtain ⟨v, ctx, ctx', args, args', h, hr⟩ := h_run (Ments.ments 0 (zCfgE (1 / 2)).toCfg fun _ _ => 1) rfl h_first
  refine ⟨_, h, _, _, hr, ?_, rfl, Nat.one_ne_zero, rfl, by simp [hMgr], rfl, rfl, rfl, ?_⟩
  · intro w p hw
    match w, hw with
    | 0, hw => simpa using hw.symm
    | _ + 1, hw => simp at hw
  · have := c107_root (c107_ments 0 (zCfgE (1 / 2)).toCfg fun _ _ => 1) (Ments.ments_valid _ _ _) (by simp [Leftover]) hr (by
      intro w p hw
      match w, hw with
      | 0, hw => simpa using hw.symm
      | _ + 1, hw => simp at hw) rfl trivial (Or.inl rfl)
    simpa using this

open Verif.Ments in
/-- A MENTS search with three workers and without mcts mode that has run a thousand trials and is at rest: `c107_full_depth` and `c107_root` apply. -/
example : ∃ st h nd, Reachable exEnv { exMgr with mctsMode := false } (ments 0 Ments.exCfg fun _ _ => 1) 3 () 0 0 [] st h ∧ Quiescent st ∧ st.dn[st.root]? = some nd ∧
    1000 ≤ nd.x.n ∧ nd.x.n = nd.visits := by
  have hl : exEnv.Live := ⟨by simp [exEnv], by simp [exEnv]⟩
  have htb : Leftover ([] : List ((Int × Unit) × Option Nat)) := by simp [Leftover]
  have hr : Reachable exEnv { exMgr with mctsMode := false } (ments 0 Ments.exCfg fun _ _ => 1) 3 () 0 0 []
      (init exEnv { exMgr with mctsMode := false } (ments 0 Ments.exCfg fun _ _ => 1) 3 () 0 0 []) [] := ⟨[], rfl⟩
  have hs : Selects exEnv { exMgr with mctsMode := false } (ments 0 Ments.exCfg fun _ _ => 1) 3 () 0 0 [] :=
    c74_ments_selects exGood hl (by simp [exEnv]) htb le_rfl
  have hv := ments_valid (S := Unit) (A := Bool) 0 Ments.exCfg fun _ _ => 1
  obtain ⟨st1, ext1, h1, h2⟩ := c74_any_number_of_trials hl hv htb (by simp [TableOk, exMgr]) hs (by simp [exMgr]) hr (by decide : 0 < 3) 1000
  obtain ⟨ls, st2, ext2, h3, h4, _⟩ := c74_can_finish hl hv htb (by simp [TableOk, exMgr]) hs (by simp [exMgr]) h1
  have h5 := reach_append h1 h3
  obtain ⟨nd, hnd, _⟩ := root_node (reach_inv hv htb h5).tree
  have e1 := c107_root (c107_ments 0 Ments.exCfg fun _ _ => 1) hv htb h5 h4 hnd trivial (Or.inl rfl)
  have e2 := c107_full_depth (c107_ments 0 Ments.exCfg fun _ _ => 1) hv htb rfl h5 h4 hnd trivial
  refine ⟨st2, _, nd, h5, h4, hnd, ?_, by simpa [ments] using e2⟩
  simp only [trialsCompleted, List.countP_append] at h2 e1
  omega

/-- A UCT search with pseudo trials and two workers, one of them in the middle of a trial: counts are behind visits by the trials that ended at the nodes and the running one. -/
example : ∃ st h, Reachable Uct.Toy.env Uct.Toy.mgr (Uct.uct (Uct.Toy.cfg 1 2) Uct.Toy.mgr) 2 0 0 0 [] st h ∧
    (running st == 1 && trialsCompleted h == 2 && st.dn.map (fun nd => (nd.visits, nd.x.n)) == [(5, 4), (3, 2), (3, 2), (2, 2)] &&
      (List.range 4).map (fun d => trialsEndedAt d h) == [0, 1, 1, 0]) = true :=
  Uct.Toy.run 1 2 1 _ (by decide +kernel)

end Verif.Search
