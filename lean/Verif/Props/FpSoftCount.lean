import Verif.Props.FpSoftTree
import Verif.Props.FpTentsTree
import Verif.Proofs.FlowAll

/-!
# C94, C96: the numbers of backups that MENTS and TENTS nodes keep
-/

namespace Verif.Fp

open Verif.Search Verif.Backups Verif.Props
open Verif.Ments (softWeight)
open Verif.Tents (TErr)

set_option linter.unusedSectionVars false

variable {S A X Y : Type} [DecidableEq S] [DecidableEq A]
  {env : Env S A ℚ} {m : Manager S ℚ} {alg : Alg S A ℚ X Y} {px : X → SoftF} {py : Y → SoftF} {ex lg : ℚ → ℚ} {cfg : MentsCfg} {lr : S → A → ℚ}
  {k : Nat} {s0 : S} {dp tm : Int} {tb : List ((Int × S) × Option Nat)} {st st' : St S A ℚ X Y} {h : List (Event S A ℚ)}

/-- Number of times a trial went on through chance node `c`. -/
def trialsVia (c : Nat) (h : List (Event S A ℚ)) : Nat :=
  h.countP (fun e => match e with | .stepped _ _ _ c' _ _ _ _ => c' == c | _ => false)

def CountC (cnt : Y → Nat) (st : St S A ℚ X Y) (h : List (Event S A ℚ)) : Prop :=
  ∀ (c : Nat) (nc : CNode S A ℚ Y), st.cn[c]? = some nc → cnt nc.y = (returnsC c h).length

/-- A counter of chance nodes that starts at zero and that only backups increase, each by one. -/
structure CountsC (alg : Alg S A ℚ X Y) (cnt : Y → Nat) : Prop where
  initC : ∀ s a dep tim, cnt (alg.initC s a dep tim) = 0
  visitC : ∀ y, cnt (alg.visitC y) = cnt y
  backupC : ∀ s a y kids args, cnt (alg.backupC s a y kids args) = cnt y + 1

theorem countC_eff {cnt : Y → Nat} (H : CountsC alg cnt) {w : Nat} {e : Event S A ℚ} (T : Touch st h)
    (D : CountC cnt st h) (E : Eff env m alg st w e st') : CountC cnt st' (e :: h) := by
  intro c nc' hc'
  rcases cn_chg E hc' with ⟨nc, hc, hchg⟩ | ⟨rfl, ht, nd, a, rfl⟩
  · have h1 := D c nc hc
    cases hchg with
    | same he => rw [returnsC_cons c e h he]; exact h1
    | stepped ho hk => rw [returnsC_keep (by simp)]; simp only [H.visitC]; exact h1
    | @backed w' args =>
      have hr : returnsC c (Event.backedC w' c args :: h) = args.retAfter :: returnsC c h := by simp [returnsC]
      rw [hr]
      simp only [H.backupC, List.length_cons, h1]
  · rw [returnsC_cons _ e h ht, returnsC_nil T.freshC]
    simp [newC, H.initC]

theorem countC_reach {cnt : Y → Nat} (H : CountsC alg cnt) (hr : Reachable env m alg k s0 dp tm tb st h) : CountC cnt st h := by
  obtain ⟨ls, hx⟩ := hr
  refine (exec_induct (fun s h => Touch s h ∧ CountC cnt s h) (fun _ _ _ _ _ hi _ E => ⟨touch_eff hi.1 E, countC_eff H hi.1 hi.2 E⟩)
    ⟨⟨by simp, by simp⟩, ?_⟩ hx).2
  intro c nc hc
  simp [init] at hc

theorem countC_quiet {cnt : Y → Nat} (H : CountsC alg cnt) (hr : Reachable env m alg k s0 dp tm tb st h) (hq : Quiescent st)
    (c : Nat) (nc : CNode S A ℚ Y) (hc : st.cn[c]? = some nc) : cnt nc.y = trialsVia c h := by
  rw [countC_reach H hr c nc hc, returnsC_quiet hr hq]
  unfold trialsVia
  congr 1
  funext e
  cases e <;> simp [Event.stepVia]

/-- C94, counters.  Whenever no trial is running, a chance node has counted one backup for every trial that went through it, and a decision node one for every trial that
went on from it and, if it is a leaf, one for every trial that ended in it.  With a transposition table as well. -/
theorem c94_backup_counts (H : HasFpSoft alg px py ex lg cfg lr) (hr : Reachable env m alg k s0 dp tm tb st h) (hq : Quiescent st) :
    (∀ (c : Nat) (nc : CNode S A ℚ Y), st.cn[c]? = some nc → (py nc.y).n = trialsVia c h) ∧
    (∀ (d : Nat) (nd : DNode S A ℚ X), st.dn[d]? = some nd →
      (px nd.x).n = trialsThrough d h + if isLeaf env m nd then trialsEndedAt d h else 0) := by
  refine ⟨fun c nc hc => ?_, fun d nd hd => ?_⟩
  · exact countC_quiet (cnt := fun y => (py y).n) ⟨fun _ _ _ _ => by simp [H.initC, softFInitC], fun _ => by rw [H.visitC],
      fun _ _ _ _ _ => by simp [H.backupC, softFBackupC]⟩ hr hq c nc hc
  · rw [softF_weight H hr hq d nd hd]
    simp [softWeight, hd]

/-- The search of C94's example: seven decision nodes, all counters as stated. -/
example : ∃ ex lg st h, Reachable Toy.env Toy.mgr (freeMentsF ex lg toyCfg Toy.lr) 2 0 0 0 [] st h ∧ st.dn.length = 7 ∧
    ∀ (c : Nat) (nc : CNode Nat Nat ℚ SoftF), st.cn[c]? = some nc → nc.y.n = trialsVia c h := by
  obtain ⟨ex, _, _⟩ := exp_exists
  obtain ⟨lg, _⟩ := log_exists
  obtain ⟨st, h, h1, h2, h3, h4, h5⟩ := toy_soft_run ex lg toyCfg
  refine ⟨ex, lg, st, h, h1, by assumption, ?_⟩
  exact (c94_backup_counts (px := id) (py := id) (ex := ex) (lg := lg) (cfg := toyCfg) (lr := Toy.lr)
    ⟨fun _ _ _ _ => rfl, fun _ _ _ _ => rfl, fun _ _ => rfl, fun _ => rfl, fun _ _ _ => rfl, fun _ _ _ _ _ => rfl⟩ h1 (by assumption)).1

/-- C96, counters.  Whenever no trial is running, a chance node of a TENTS search has counted one backup for every trial that went through it, and a decision node one for
every trial that went on from it and, if it is a leaf, one for every trial that ended in it.  With a transposition table as well. -/
theorem c96_backup_counts {alg : Alg S A ℚ (Except TErr (TXF A)) SoftF} {sq : ℚ → ℚ} {st : St S A ℚ (Except TErr (TXF A)) SoftF}
    (H : HasFpTents alg env m sq cfg lr) (hv : alg.Valid) (hnd : ∀ s, (env.actions s).Nodup) (htb : Leftover tb)
    (hr : Reachable env m alg k s0 dp tm tb st h) (hq : Quiescent st) :
    (∀ (c : Nat) (nc : CNode S A ℚ SoftF), st.cn[c]? = some nc → nc.y.n = trialsVia c h) ∧
    (∀ (d : Nat) (nd : DNode S A ℚ (Except TErr (TXF A))), st.dn[d]? = some nd → ∃ t, nd.x = .ok t ∧
      t.soft.n = trialsThrough d h + if isLeaf env m nd then trialsEndedAt d h else 0) := by
  refine ⟨fun c nc hc => ?_, fun d nd hd => ?_⟩
  · exact countC_quiet (cnt := fun y : SoftF => y.n) ⟨fun _ _ _ _ => by simp [H.initC, softFInitC], fun _ => by rw [H.visitC],
      fun _ _ _ _ _ => by simp [H.backupC, softFBackupC]⟩ hr hq c nc hc
  · have hw := tentsF_weight H hv hnd htb hr hq d nd hd
    obtain ⟨t, h0, _⟩ := tentsValF_reach H hv hnd htb hr d nd hd
    refine ⟨t, h0, ?_⟩
    rw [h0] at hw
    simpa [softOfF, softWeight, hd] using hw

/-- The search of C96's example. -/
example : ∃ sq st h, Reachable Toy.env Toy.mgr (freeTentsF sq id toyCfg Toy.env Toy.mgr Toy.lr) 2 0 0 0 [] st h ∧ st.dn.length = 7 ∧
    ∀ (c : Nat) (nc : CNode Nat Nat ℚ SoftF), st.cn[c]? = some nc → nc.y.n = trialsVia c h := by
  obtain ⟨st, h, h1, h2, h3, h4, h5⟩ := toy_run (freeTentsF (fun x => fl (x ^ 2)) id toyCfg Toy.env Toy.mgr Toy.lr) (fun _ _ _ => rfl) rfl
  have hv : (freeTentsF (fun x => fl (x ^ 2)) id toyCfg Toy.env Toy.mgr Toy.lr).Valid := by
    intro v _ a h
    simpa [freeTentsF] using h
  exact ⟨_, st, h, h1, h4, (c96_backup_counts (sq := fun x => fl (x ^ 2)) (cfg := toyCfg) (lr := Toy.lr)
    ⟨fun _ _ _ _ => rfl, fun _ _ _ _ => rfl, fun _ _ => rfl, fun _ => rfl, fun _ _ _ => rfl, fun _ _ _ => rfl, fun _ _ _ _ _ => rfl⟩ hv
    (fun s => by simp [Toy.env]) (by intro p hp; simp at hp) h1 h2).1⟩

end Verif.Fp
