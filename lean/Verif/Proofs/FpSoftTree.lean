import Verif.Spec.FpSoftTree
import Verif.Proofs.FpSoft
import Verif.Proofs.FpSearchDp
import Verif.Proofs.SoftGame

/-! # How the errors of MENTS backups add up over the levels of a search tree (C94) -/

set_option linter.unusedSectionVars false
set_option linter.unusedSimpArgs false

namespace Verif.Fp

open Verif.Search Verif.Backups
open Verif.Ments (sgn softmax softWeight)

/-! ## Soft maxima and means -/

section
variable {A : Type}

theorem softmax_le {temp : ℝ} (ht : 0 < temp) {Q Q' : A → ℝ} {l : List A} (hl : l ≠ []) {ε : ℝ} (h : ∀ a ∈ l, Q a ≤ Q' a + ε) :
    softmax temp Q l ≤ softmax temp Q' l + ε := by
  unfold softmax
  have hpos : ∀ (Q : A → ℝ) (l : List A), l ≠ [] → 0 < (l.map fun a => Real.exp (Q a / temp)).sum := by
    intro Q l hl
    obtain ⟨a, ha⟩ := List.exists_mem_of_ne_nil _ hl
    have := List.single_le_sum (l := l.map fun a => Real.exp (Q a / temp)) (by
      intro x hx
      obtain ⟨b, _, rfl⟩ := List.mem_map.1 hx
      positivity) _ (List.mem_map_of_mem (f := fun a => Real.exp (Q a / temp)) ha)
    exact lt_of_lt_of_le (Real.exp_pos _) this
  have h1 : (l.map fun a => Real.exp (Q a / temp)).sum ≤ Real.exp (ε / temp) * (l.map fun a => Real.exp (Q' a / temp)).sum := by
    rw [← List.sum_map_mul_left]
    refine List.sum_le_sum fun a ha => ?_
    rw [← Real.exp_add]
    refine Real.exp_le_exp.2 ?_
    rw [← add_div]
    exact div_le_div_of_nonneg_right (by have := h a ha; linarith) ht.le
  have h2 := Real.log_le_log (hpos Q l hl) h1
  rw [Real.log_mul (Real.exp_pos _).ne' (hpos Q' l hl).ne', Real.log_exp] at h2
  have h3 := mul_le_mul_of_nonneg_left h2 ht.le
  rw [mul_add, mul_div_cancel₀ _ ht.ne'] at h3
  linarith

theorem softmax_near {temp : ℝ} (ht : 0 < temp) {Q Q' : A → ℝ} {l : List A} (hl : l ≠ []) {ε : ℝ} (h : ∀ a ∈ l, |Q a - Q' a| ≤ ε) :
    |softmax temp Q l - softmax temp Q' l| ≤ ε := by
  have h1 := softmax_le ht hl (Q := Q) (Q' := Q') (ε := ε) (fun a ha => by have := (abs_le.1 (h a ha)).2; linarith)
  have h2 := softmax_le ht hl (Q := Q') (Q' := Q) (ε := ε) (fun a ha => by have := (abs_le.1 (h a ha)).1; linarith)
  rw [abs_le]
  constructor <;> linarith

theorem softmax_abs {temp : ℝ} (ht : 0 < temp) {Q : A → ℝ} {l : List A} (hl : l ≠ []) {M : ℝ} (h : ∀ a ∈ l, |Q a| ≤ M) :
    |softmax temp Q l| ≤ M + temp * Real.log l.length := by
  have h0 : softmax temp (fun _ => (0 : ℝ)) l = temp * Real.log l.length := by
    unfold softmax
    simp
  have h1 := softmax_near ht hl (Q := Q) (Q' := fun _ => 0) (fun a ha => by simpa using h a ha)
  rw [h0] at h1
  have h2 : 0 ≤ temp * Real.log l.length := mul_nonneg ht.le (Real.log_natCast_nonneg _)
  obtain ⟨h3, h4⟩ := abs_le.1 h1
  rw [abs_le]
  constructor <;> linarith

theorem wmean_cast (l : List (Nat × ℚ)) : ((wmean l : ℚ) : ℝ) = wmean (l.map fun p => (p.1, (p.2 : ℝ))) := by
  unfold wmean
  push_cast
  congr 1
  · induction l with
    | nil => simp
    | cons p l ih => simp only [List.map_cons, List.sum_cons, List.map_map] at ih ⊢; push_cast; rw [ih]
  · induction l with
    | nil => simp
    | cons p l ih => simp only [List.map_cons, List.sum_cons, List.map_map] at ih ⊢; push_cast; rw [ih]

theorem bestOf_cast {opp : Bool} {l : List A} {q : A → ℚ} (hl : l ≠ []) : ((bestOf opp (l.map q) : ℚ) : ℝ) = bestOf opp (l.map fun a => (q a : ℝ)) := by
  symm
  apply bestOf_eq
  unfold Best bestOf
  have ne : l.map q ≠ [] := by simpa using hl
  cases opp
  · simp only [Bool.false_eq_true, if_false]
    obtain ⟨x, hx⟩ := Option.isSome_iff_exists.1 (List.isSome_max?_of_ne_nil ne)
    rw [hx]
    obtain ⟨h1, h2⟩ := List.max?_eq_some_iff.1 hx
    obtain ⟨a, ha, rfl⟩ := List.mem_map.1 h1
    refine ⟨List.mem_map.2 ⟨a, ha, rfl⟩, ?_⟩
    intro y hy
    obtain ⟨b, hb, rfl⟩ := List.mem_map.1 hy
    have := h2 _ (List.mem_map_of_mem hb)
    simp only [Option.getD_some]
    exact_mod_cast this
  · simp only [if_true]
    obtain ⟨x, hx⟩ := Option.isSome_iff_exists.1 (List.isSome_min?_of_ne_nil ne)
    rw [hx]
    obtain ⟨h1, h2⟩ := List.min?_eq_some_iff.1 hx
    obtain ⟨a, ha, rfl⟩ := List.mem_map.1 h1
    refine ⟨List.mem_map.2 ⟨a, ha, rfl⟩, ?_⟩
    intro y hy
    obtain ⟨b, hb, rfl⟩ := List.mem_map.1 hy
    have := h2 _ (List.mem_map_of_mem hb)
    simp only [Option.getD_some]
    exact_mod_cast this

end

theorem chanceFold_zero : ∀ (l : List (Nat × ℚ)) (acc : ℚ × ℚ), (∀ p ∈ l, p.1 = 0) → l.foldl chanceStep acc = acc
  | [], _, _ => rfl
  | p :: l, acc, h => by
    rw [List.foldl_cons]
    have : chanceStep acc p = acc := by unfold chanceStep; rw [if_pos (h p (by simp))]
    rw [this]
    exact chanceFold_zero l acc fun q hq => h q (by simp [hq])

/-- The error of a chance node, with or without backups below it. -/
theorem chance_errM {M R : ℚ} {K : Nat} (hM : 1 ≤ M) (hR : IsDouble R) (hRM : |R| ≤ M) {l : List (Nat × ℚ)} (hK : K ≤ 2 ^ 30) (hl : l.length ≤ K)
    (hv : ∀ p ∈ l, |p.2| ≤ M) (hb : (l.map Prod.fst).sum ≤ 2 ^ 50) : |chanceValue R l - (R + wmean l)| ≤ (8 * K + 3) * (unit * M) := by
  have hu := unit_pos
  have huM : 0 ≤ unit * M := mul_nonneg hu.le (by linarith)
  by_cases h0 : 1 ≤ (l.map Prod.fst).sum
  · have h1 := chanceValue_err hM hR (le_trans hl hK) hv hb h0
    have e : wmean l = weighted l / backups l := by
      unfold wmean weighted backups
      congr 1
      push_cast
      rw [List.map_map]
      rfl
    rw [e]
    refine le_trans h1 ?_
    have h2 : (l.length : ℚ) ≤ K := by exact_mod_cast hl
    have h3 : unit * |R| ≤ unit * M := mul_le_mul_of_nonneg_left hRM hu.le
    have h4 := mul_le_mul_of_nonneg_right h2 huM
    linarith
  · have hz : ∀ p ∈ l, p.1 = 0 := by
      intro p hp
      have := List.le_sum_of_mem (List.mem_map_of_mem (f := Prod.fst) hp)
      omega
    rw [wmean_zero l hz]
    unfold chanceValue
    rw [chanceFold_zero l _ hz, zero_fadd hR, add_zero, sub_self, abs_zero]
    positivity

/-! ## Counters and values -/

section
variable {S A X Y : Type} [DecidableEq S] [DecidableEq A]
  {env : Env S A ℚ} {m : Manager S ℚ} {alg : Alg S A ℚ X Y} {px : X → SoftF} {py : Y → SoftF} {ex lg : ℚ → ℚ} {cfg : MentsCfg} {lr : S → A → ℚ}
  {k : Nat} {s0 : S} {dp tm : Int} {tb : List ((Int × S) × Option Nat)} {st st' : St S A ℚ X Y} {h : List (Event S A ℚ)}

def SoftInvF (env : Env S A ℚ) (m : Manager S ℚ) (px : X → SoftF) (st : St S A ℚ X Y) (h : List (Event S A ℚ)) : Prop :=
  ∀ (d : Nat) (nd : DNode S A ℚ X), st.dn[d]? = some nd →
    (px nd.x).n = (returnsD d h).length + (if isLeaf env m nd then h.countP (Event.endAt d) else 0) ∧ (returnsD d h = [] → (px nd.x).val = nd.heur)

theorem softF_eff (H : HasFpSoft alg px py ex lg cfg lr) {w : Nat} {e : Event S A ℚ} (T : Touch st h)
    (D : SoftInvF env m px st h) (E : Eff env m alg st w e st') : SoftInvF env m px st' (e :: h) := by
  intro d nd' hd'
  rcases dn_chg E hd' with ⟨nd, hd, hchg⟩ | ⟨rfl, ht, s, dep, tim, rfl⟩
  · obtain ⟨h1, h3⟩ := D d nd hd
    cases hchg with
    | same he => rw [returnsD_cons d e h he, endAt_cons he]; exact ⟨h1, h3⟩
    | selOld hl ha hf =>
      have hl' := hl
      simp only [isLeaf] at hl' h1 ⊢
      simp only [returnsD, List.filterMap_cons, H.visitD, softFVisit, hl', if_false, Bool.false_eq_true] at h1 h3 ⊢
      exact ⟨h1, h3⟩
    | selNew hl ha hf =>
      have hl' := hl
      simp only [isLeaf] at hl' h1 ⊢
      simp only [returnsD, List.filterMap_cons, H.visitD, softFVisit, hl', if_false, Bool.false_eq_true] at h1 h3 ⊢
      exact ⟨h1, h3⟩
    | ended =>
      have hi : isLeaf env m { nd with visits := nd.visits + 1, x := alg.visitD (isLeaf env m nd) nd.x } = isLeaf env m nd := rfl
      rw [returnsD_other (by simp), hi]
      simp only [H.visitD, softFVisit, List.countP_cons, Event.endAt, beq_self_eq_true, if_true]
      cases hl : isLeaf env m nd <;> simp only [hl, if_true, if_false, Bool.false_eq_true] at h1 ⊢
      · exact ⟨h1, h3⟩
      · exact ⟨by omega, h3⟩
    | @backed w' args =>
      have hi : isLeaf env m { nd with x := alg.backupD (viewOf env m st nd) (st.ctxOf w') args } = isLeaf env m nd := rfl
      rw [hi]
      have hret : returnsD d (Event.backedD w' d args :: h) = args.retAfter :: returnsD d h := by simp [returnsD]
      simp only [H.backupD]
      refine ⟨?_, ?_⟩
      · rw [hret, List.countP_cons]
        simp only [softFBackupD, viewOf, List.length_cons, Event.endAt, Bool.false_eq_true, if_false, Nat.add_zero]
        rw [h1]
        omega
      · rw [hret]; simp
  · rw [returnsD_cons _ e h ht, returnsD_nil T.freshD, endAt_cons ht, endAt_zero T.freshD]
    simp only [List.length_nil, ite_self]
    simp [newD, H.initD, softFInitD]

theorem softF_reach (H : HasFpSoft alg px py ex lg cfg lr) (hr : Reachable env m alg k s0 dp tm tb st h) : SoftInvF env m px st h := by
  obtain ⟨ls, hx⟩ := hr
  refine (exec_induct (fun s h => Touch s h ∧ SoftInvF env m px s h) (fun _ _ _ _ _ hi _ E => ⟨touch_eff hi.1 E, softF_eff H hi.1 hi.2 E⟩)
    ⟨⟨by simp, by simp⟩, ?_⟩ hx).2
  intro d nd hd
  rcases d with _ | d
  · simp [init] at hd
    subst hd
    simp only [returnsD, List.filterMap_nil, List.length_nil, List.countP_nil, ite_self]
    simp [newD, H.initD, softFInitD]
  · simp [init] at hd

theorem softF_weight (H : HasFpSoft alg px py ex lg cfg lr) (hr : Reachable env m alg k s0 dp tm tb st h) (hq : Quiescent st)
    (d : Nat) (nd : DNode S A ℚ X) (hd : st.dn[d]? = some nd) : (px nd.x).n = softWeight env m st h d := by
  unfold softWeight
  rw [(softF_reach H hr d nd hd).1, returns_through hr hq, hd]
  have : trialsEndedAt d h = h.countP (Event.endAt d) := by
    unfold trialsEndedAt
    congr 1
  rw [this]

theorem softError_nonneg {K n : Nat} {temp M : ℚ} {α β : ℝ} (ht : 0 < temp) (hM : 0 ≤ M) (hα : 0 ≤ α) (hβ : 0 ≤ β) : 0 ≤ softError K n temp M α β := by
  have hu : (0 : ℝ) < unit := by exact_mod_cast unit_pos
  have ht' : (0 : ℝ) < temp := by exact_mod_cast ht
  have hM' : (0 : ℝ) ≤ M := by exact_mod_cast hM
  have hti : (0 : ℝ) < tiny := by exact_mod_cast tiny_pos
  unfold softError
  have h1 : (0 : ℝ) ≤ (8 * K + 32) * (unit * M) := by positivity
  have h2 : (0 : ℝ) ≤ temp * (16 * n * unit + 4 * α + 2 * n * β) := by positivity
  linarith

/-- The error of a decision node. -/
theorem decision_err {n : Nat} {M : ℚ} {α β : ℝ} (G : GoodMath ex lg α β) (htd : IsDouble cfg.temp) (ht0 : 0 < cfg.temp) (hlow : cfg.low ≤ -10 ^ 6)
    (hn : n ≤ 1000) (hM : cfg.temp ≤ M) (hM2 : M ≤ 10 ^ 6 * cfg.temp) (opp : Bool) {l : List A} (hl : l ≠ []) (hln : l.length ≤ n) {Q : A → ℚ}
    (hQ : ∀ a ∈ l, |Q a| ≤ M) :
    |(softValue ex lg (oppSign opp) cfg.temp cfg.low (l.map fun a => (a, Q a)) : ℝ) - sgn opp * softmax cfg.temp (fun a => (Q a : ℝ)) l| ≤
      29 * (unit * M) + cfg.temp * (16 * n * unit + 4 * α + 2 * n * β) + tiny := by
  have htr : (0 : ℝ) < cfg.temp := by exact_mod_cast ht0
  have hu : (0 : ℝ) < unit := by exact_mod_cast unit_pos
  have hdiv : ∀ a ∈ l, |Q a / cfg.temp| ≤ M / cfg.temp := by
    intro a ha
    rw [abs_div, abs_of_pos ht0]
    exact div_le_div_of_nonneg_right (hQ a ha) ht0.le
  have hB2 : M / cfg.temp ≤ 10 ^ 6 := by rwa [div_le_iff₀ ht0]
  have hB1 : 1 ≤ M / cfg.temp := by rwa [le_div_iff₀ ht0, one_mul]
  have hmill : IsDouble (-10 ^ 6 : ℚ) := by decide +kernel
  have key := softValue_err G.exp G.expErr G.α.1 G.α.2 G.logErr G.β.1 G.β.2 (opp := oppSign opp) (low := cfg.low) (B := M / cfg.temp)
    (qs := l.map fun a => (a, Q a)) (by unfold oppSign; cases opp <;> simp) htd ht0 (by simpa using hl) (by
      intro p hp
      obtain ⟨a, ha, rfl⟩ := List.mem_map.1 hp
      have h1 := (abs_le.1 (hdiv a ha)).1
      have h2 : fl (-10 ^ 6 : ℚ) ≤ fl (Q a / cfg.temp) := fl_mono (by linarith)
      rw [show fl (-10 ^ 6 : ℚ) = -10 ^ 6 from hmill] at h2
      exact le_trans hlow h2) (by simpa using le_trans hln hn) hB1 hB2 (by
      intro p hp
      obtain ⟨a, ha, rfl⟩ := List.mem_map.1 hp
      exact hdiv a ha)
  rw [List.length_map] at key
  have e1 : sgn opp * softmax cfg.temp (fun a => (Q a : ℝ)) l = oppSign opp * cfg.temp * logSumExp cfg.temp (l.map fun a => (a, Q a)) := by
    unfold softmax logSumExp sgn oppSign
    rw [List.map_map]
    cases opp <;> simp [Function.comp_def]
  rw [e1]
  refine le_trans key ?_
  push_cast
  have h1 : (l.length : ℝ) ≤ n := by exact_mod_cast hln
  have e2 : (cfg.temp : ℝ) * ((16 * l.length + 29 * (M / cfg.temp)) * unit + 4 * α + 2 * l.length * β) =
      29 * (unit * M) + cfg.temp * (16 * l.length * unit + 4 * α + 2 * l.length * β) := by
    field_simp
    ring
  rw [e2]
  have h2 : (16 : ℝ) * l.length * unit ≤ 16 * n * unit := mul_le_mul_of_nonneg_right (by linarith) hu.le
  have h3 : (2 : ℝ) * l.length * β ≤ 2 * n * β := mul_le_mul_of_nonneg_right (by linarith) G.β.1
  have h4 := mul_le_mul_of_nonneg_left (show (16 : ℝ) * l.length * unit + 4 * α + 2 * l.length * β ≤ 16 * n * unit + 4 * α + 2 * n * β by linarith) htr.le
  linarith

/-- One level: if the values of the decision nodes below are of size at most `b` and known up to `ε`, that of a chance node is known up to `ε` and the error of a mean. -/
theorem chance_step (hv : alg.Valid) (hvis : ∀ x, alg.visitD false x = x) (hu : m.useTable = false) (htb : Leftover tb) (hr : Reachable env m alg k s0 dp tm tb st h)
    (hq : Quiescent st)
    (hback : ∀ s a y kids args, py (alg.backupC s a y kids args) = softFBackupC (lr s a) (kids.map fun k => px k.2) (py y))
    (hw : ∀ (d : Nat) (nd : DNode S A ℚ X), st.dn[d]? = some nd → (px nd.x).n = softWeight env m st h d)
    {ρ M : ℚ} {K : Nat} (hM : 1 ≤ M) (hρM : ρ ≤ M) (hloc : ∀ s a, a ∈ env.actions s → IsDouble (lr s a) ∧ |lr s a| ≤ ρ)
    (hsucc : ∀ s a, a ∈ env.actions s → (env.succ s a).length ≤ K) (hK : K ≤ 2 ^ 30) (htr : K + trialsBegun h ≤ 2 ^ 50)
    {j : Nat} {below : Nat → ℝ} {b ε : ℝ} (hb0 : 0 ≤ b) (hε0 : 0 ≤ ε) (hbM : b + ε ≤ M)
    (ih : ∀ (d : Nat) nd, st.dn[d]? = some nd → (m.maxDepth - nd.depth).toNat ≤ j → |below d| ≤ b ∧ |((px nd.x).val : ℝ) - below d| ≤ ε)
    {d c : Nat} {a : A} {nd : DNode S A ℚ X} (hd : st.dn[d]? = some nd) (hn : (m.maxDepth - nd.depth).toNat ≤ j + 1) (hcc : childC st d a = some c) :
    ∃ nc, st.cn[c]? = some nc ∧ |chanceSoftR env m lr st h below nc| ≤ ρ + b ∧
      |((py nc.y).val : ℝ) - chanceSoftR env m lr st h below nc| ≤ ε + (8 * K + 3) * (unit * M) := by
  have U := reach_uptodate hv hvis hu htb hr
  obtain ⟨_, fc⟩ := quiescent_free hq
  have I := reach_inv hv htb hr
  obtain ⟨nd2, nc, k1, k2, k3, k4, k5, k6, k7, k8⟩ := childC_facts I.tree hcc
  rw [hd] at k1
  obtain rfl := Option.some.inj k1
  have hact : nc.action ∈ env.actions nc.state := by rw [k4, k5]; exact k8
  have hrc := (c39_children_backed hv htb hr hq hcc).2
  obtain ⟨y0, args, hy⟩ := U.c c nc k2 (fc c) hrc
  refine ⟨nc, k2, ?_⟩
  have hkid : ∀ q ∈ nc.kids, ∃ nd', st.dn[q.2]? = some nd' ∧ q.1 ∈ env.succ nc.state nc.action ∧
      |below q.2| ≤ b ∧ |((px nd'.x).val : ℝ) - below q.2| ≤ ε := by
    intro q hq'
    obtain ⟨nc', nd', g1, g2, g3, g4, g5, g6, g7⟩ := childD_facts I.tree (childD_of_mem I.tree k2 (show (q.1, q.2) ∈ nc.kids from hq'))
    rw [k2] at g1
    obtain rfl := Option.some.inj g1
    exact ⟨nd', g2, g7, ih q.2 nd' g2 (by omega)⟩
  -- the list the code goes through
  let vals : Nat → ℚ := fun d => (softDF px st d).getD 0
  have hlist : ((kidsX st nc).map fun k => px k.2).map (fun k => (k.n, k.val)) = nc.kids.map fun q => (softWeight env m st h q.2, vals q.2) := by
    unfold kidsX
    generalize nc.kids = ks at hkid
    induction ks with
    | nil => rfl
    | cons q ks ihk =>
      obtain ⟨nd', g1, _⟩ := hkid q (by simp)
      simp only [List.filterMap_cons, g1, Option.map_some, List.map_cons]
      rw [ihk (fun q hq => hkid q (by simp [hq])), hw q.2 nd' g1]
      simp [vals, softDF, g1]
  have hvals : ∀ q ∈ nc.kids, |(vals q.2 : ℝ) - below q.2| ≤ ε := by
    intro q hq'
    obtain ⟨nd', g1, _, _, g4⟩ := hkid q hq'
    simpa [vals, softDF, g1] using g4
  have hlen : nc.kids.length ≤ K := by
    refine le_trans ?_ (hsucc nc.state nc.action hact)
    have hsub : ∀ o ∈ nc.kids.map Prod.fst, o ∈ env.succ nc.state nc.action := by
      intro o ho
      obtain ⟨q, hq', rfl⟩ := List.mem_map.1 ho
      obtain ⟨_, _, g2, _⟩ := hkid q hq'
      exact g2
    have hnd : (nc.kids.map Prod.fst).Nodup := I.tree.heap.cNodup c nc.skel (by simp [k2])
    have := (List.subperm_of_subset hnd hsub).length_le
    rwa [List.length_map] at this
  have hsum : (nc.kids.map fun q => softWeight env m st h q.2).sum ≤ 2 ^ 50 := by
    have h1 := weights_le hv hu htb hr hq hcc k2
    have h2 : (nc.kids.map fun q => softWeight env m st h q.2).sum ≤ (nc.kids.map fun q => weightD env m st h q.2).sum := by
      refine List.sum_le_sum fun q _ => ?_
      unfold softWeight weightD
      cases st.dn[q.2]? with
      | none => exact le_refl _
      | some nd' => dsimp only; omega
    have h3 := htr
    omega
  have hmean := chance_errM (M := M) (R := lr nc.state nc.action) (K := K) hM (hloc _ _ hact).1 (by
      exact le_trans (hloc _ _ hact).2 hρM)
    (l := nc.kids.map fun q => (softWeight env m st h q.2, vals q.2)) hK (by simpa using hlen) (by
      intro p hp
      obtain ⟨q, hq', rfl⟩ := List.mem_map.1 hp
      obtain ⟨nd', _, _, g3, _⟩ := hkid q hq'
      have h1 := hvals q hq'
      have h2 := abs_sub_abs_le_abs_sub (vals q.2 : ℝ) (below q.2)
      have h4 : |(vals q.2 : ℝ)| ≤ M := by linarith
      have h5 : ((|vals q.2| : ℚ) : ℝ) ≤ M := by push_cast; exact h4
      exact_mod_cast h5) (by
      rw [List.map_map]
      exact hsum)
  have hval : (py nc.y).val = chanceValue (lr nc.state nc.action) (nc.kids.map fun q => (softWeight env m st h q.2, vals q.2)) := by
    rw [hy, hback]
    simp only [softFBackupC]
    rw [hlist]
  have hnear := wmean_near (l := nc.kids) (w := fun q => softWeight env m st h q.2) (f := fun q => (vals q.2 : ℝ))
    (g := fun q => below q.2) hε0 hvals
  have hmean' := (Rat.cast_le (K := ℝ)).2 hmean
  push_cast at hmean'
  rw [wmean_cast, List.map_map] at hmean'
  simp only [Function.comp_def] at hmean'
  have hr1 : |((lr nc.state nc.action : ℚ) : ℝ)| ≤ ρ := by
    have := (Rat.cast_le (K := ℝ)).2 (hloc _ _ hact).2
    push_cast at this
    exact this
  unfold chanceSoftR
  constructor
  · have h1 : |wmean (nc.kids.map fun q => (softWeight env m st h q.2, below q.2))| ≤ b := by
      refine wmean_abs hb0 ?_
      intro p hp
      obtain ⟨q, hq', rfl⟩ := List.mem_map.1 hp
      obtain ⟨_, _, _, g3, _⟩ := hkid q hq'
      exact g3
    have h2 := abs_add_le ((lr nc.state nc.action : ℚ) : ℝ) (wmean (nc.kids.map fun q => (softWeight env m st h q.2, below q.2)))
    linarith
  · rw [hval]
    obtain ⟨a1, a2⟩ := abs_le.1 hmean'
    obtain ⟨b1, b2⟩ := abs_le.1 hnear
    rw [abs_le]
    constructor <;> linarith

/-! ## The values of the tree -/

variable {ρ M : ℚ} {K n D : Nat} {α β : ℝ}

/-- Bounds between the quantities of C94. -/
theorem range_le (G : GoodMath ex lg α β) (F : SoftFits env m cfg lr ρ M K n D α β dp h) {i j l : ℝ} (hi : i ≤ D + 1) (hj : j ≤ D + 1) (hl : l ≤ D + 1) :
    i * ρ + j * (cfg.temp * Real.log n) + l * softError K n cfg.temp M α β ≤ M := by
  have hρ : (0 : ℝ) ≤ ρ := by exact_mod_cast le_trans (abs_nonneg _) F.default
  have hM : 0 ≤ M := by have := F.one; linarith
  have hE := softError_nonneg (K := K) (n := n) F.temp.2 hM G.α.1 G.β.1
  have ht : (0 : ℝ) < cfg.temp := by exact_mod_cast F.temp.2
  have hL : 0 ≤ (cfg.temp : ℝ) * Real.log n := mul_nonneg ht.le (Real.log_natCast_nonneg _)
  have h1 := mul_le_mul_of_nonneg_right hi hρ
  have h2 := mul_le_mul_of_nonneg_right hj hL
  have h3 := mul_le_mul_of_nonneg_right hl hE
  have := F.range
  linarith

theorem chanceF_near (G : GoodMath ex lg α β) (F : SoftFits env m cfg lr ρ M K n D α β dp h) (hv : alg.Valid) (H : HasFpSoft alg px py ex lg cfg lr)
    (hvis : ∀ x, alg.visitD false x = x) (hu : m.useTable = false) (htb : Leftover tb) (hr : Reachable env m alg k s0 dp tm tb st h) (hq : Quiescent st)
    {j : Nat} (ih : ∀ (d : Nat) nd, j ≤ D → st.dn[d]? = some nd → (m.maxDepth - nd.depth).toNat ≤ j →
      |softTreeR cfg env m lr st h j d| ≤ (j + 1) * ρ + j * (cfg.temp * Real.log n) ∧
        |((px nd.x).val : ℝ) - softTreeR cfg env m lr st h j d| ≤ j * softError K n cfg.temp M α β)
    {d c : Nat} {a : A} {nd : DNode S A ℚ X} (hjD : j + 1 ≤ D) (hd : st.dn[d]? = some nd) (hn : (m.maxDepth - nd.depth).toNat ≤ j + 1)
    (hcc : childC st d a = some c) :
    ∃ nc, st.cn[c]? = some nc ∧
      |chanceSoftR env m lr st h (softTreeR cfg env m lr st h j) nc| ≤ (j + 2) * ρ + j * (cfg.temp * Real.log n) ∧
      |((py nc.y).val : ℝ) - chanceSoftR env m lr st h (softTreeR cfg env m lr st h j) nc| ≤ j * softError K n cfg.temp M α β + (8 * K + 3) * (unit * M) := by
  have hρ : (0 : ℝ) ≤ ρ := by exact_mod_cast le_trans (abs_nonneg _) F.default
  have hM : 0 ≤ M := by have := F.one; linarith
  have hE := softError_nonneg (K := K) (n := n) F.temp.2 hM G.α.1 G.β.1
  have ht : (0 : ℝ) < cfg.temp := by exact_mod_cast F.temp.2
  have hL : 0 ≤ (cfg.temp : ℝ) * Real.log n := mul_nonneg ht.le (Real.log_natCast_nonneg _)
  have hjDr : (j : ℝ) + 1 ≤ D := by exact_mod_cast hjD
  have hj0 : (0 : ℝ) ≤ j := by positivity
  have hρM : ρ ≤ M := by
    have h1 := range_le G F (i := 1) (j := 0) (l := 0) (by linarith) (by linarith) (by linarith)
    have h2 : (ρ : ℝ) ≤ M := by linarith
    exact_mod_cast h2
  obtain ⟨nc, h1, h2, h3⟩ := chance_step hv hvis hu htb hr hq H.backupC (fun d nd => softF_weight H hr hq d nd) F.one hρM F.local_ F.succs F.few F.trials
    (j := j) (below := softTreeR cfg env m lr st h j) (b := (j + 1) * ρ + j * (cfg.temp * Real.log n)) (ε := j * softError K n cfg.temp M α β)
    (by positivity) (by positivity) (range_le G F (by linarith) (by linarith) (by linarith)) (fun d nd hd hn => ih d nd (by omega) hd hn) hd hn hcc
  exact ⟨nc, h1, by linarith, h3⟩

/-- The values of all nodes are close to those of the tree in real arithmetic. -/
theorem treeF_near (G : GoodMath ex lg α β) (F : SoftFits env m cfg lr ρ M K n D α β dp h) (hv : alg.Valid) (H : HasFpSoft alg px py ex lg cfg lr)
    (hvis : ∀ x, alg.visitD false x = x) (hu : m.useTable = false) (htb : Leftover tb) (hr : Reachable env m alg k s0 dp tm tb st h) (hq : Quiescent st) :
    ∀ (j d : Nat) nd, j ≤ D → st.dn[d]? = some nd → (m.maxDepth - nd.depth).toNat ≤ j →
      |softTreeR cfg env m lr st h j d| ≤ (j + 1) * ρ + j * (cfg.temp * Real.log n) ∧
        |((px nd.x).val : ℝ) - softTreeR cfg env m lr st h j d| ≤ j * softError K n cfg.temp M α β := by
  have U := reach_uptodate hv hvis hu htb hr
  obtain ⟨fd, _⟩ := quiescent_free hq
  have D' := softF_reach H hr
  have I := reach_inv hv htb hr
  have hρ : (0 : ℝ) ≤ ρ := by exact_mod_cast le_trans (abs_nonneg _) F.default
  have hM : 0 ≤ M := by have := F.one; linarith
  have hE := softError_nonneg (K := K) (n := n) F.temp.2 hM G.α.1 G.β.1
  have ht : (0 : ℝ) < cfg.temp := by exact_mod_cast F.temp.2
  have hL : 0 ≤ (cfg.temp : ℝ) * Real.log n := mul_nonneg ht.le (Real.log_natCast_nonneg _)
  have heur : ∀ (d : Nat) nd, st.dn[d]? = some nd → |(nd.heur : ℝ)| ≤ ρ := by
    intro d nd hd
    rw [show nd.heur = heurOf env m nd.state from I.tree.heap.dHeur d nd.skel (by simp [hd])]
    have := (Rat.cast_le (K := ℝ)).2 (F.heur nd.state)
    push_cast at this
    exact this
  have nokids : ∀ (d : Nat) nd, st.dn[d]? = some nd → nd.kids = [] → (px nd.x).val = nd.heur := by
    intro d nd hd hk
    refine (D' d nd hd).2 ?_
    by_contra hne
    have hpos : 0 < h.countP (Event.selAt d) := by
      have := (reach_bk hr).1.d d
      have := List.length_pos_iff.2 hne
      omega
    obtain ⟨e, he, hs⟩ := List.countP_pos_iff.1 hpos
    cases e with
    | selected w d1 a c =>
      have hdd : d1 = d := by simpa [Event.selAt] using hs
      subst hdd
      obtain ⟨nd', _, k1, _, k2, _⟩ := childC_facts I.tree ((reach_both hv htb hr).2.evSel w d1 a c he)
      rw [hd] at k1
      obtain rfl := Option.some.inj k1
      rw [hk] at k2
      simp at k2
    | _ => simp [Event.selAt] at hs
  intro j
  induction j with
  | zero =>
    intro d nd _ hd hn
    have hl : isLeaf env m nd = true := by unfold isLeaf; simp; right; omega
    rw [isLeaf_skel] at hl
    have hk : nd.kids = [] := I.tree.heap.dLeaf d nd.skel (by simp [hd]) hl
    rw [nokids d nd hd hk]
    simp only [softTreeR, hd, Option.elim_some, Nat.cast_zero, zero_add, one_mul, zero_mul, add_zero, sub_self, abs_zero]
    exact ⟨heur d nd hd, le_refl _⟩
  | succ j ih =>
    intro d nd hjD hd hn
    have hj0 : (0 : ℝ) ≤ j := by positivity
    have hjDr : (j : ℝ) + 1 ≤ D := by exact_mod_cast hjD
    simp only [softTreeR, hd, Option.elim_some]
    by_cases hk : nd.kids = []
    · rw [if_pos hk, nokids d nd hd hk, sub_self, abs_zero]
      push_cast
      refine ⟨?_, by positivity⟩
      have h1 := heur d nd hd
      have h2 : 0 ≤ ((j : ℝ) + 1) * ρ := by positivity
      have h3 : 0 ≤ ((j : ℝ) + 1) * (cfg.temp * Real.log n) := by positivity
      linarith
    · rw [if_neg hk]
      obtain ⟨p0, hp0⟩ := List.exists_mem_of_ne_nil _ hk
      have hc0 := childC_of_mem I.tree hd (show (p0.1, p0.2) ∈ nd.kids from hp0)
      have hret := (c39_children_backed hv htb hr hq hc0).1
      obtain ⟨x0, v0, ctx, args, hx⟩ := U.d d nd hd (fd d) hret
      have hane : env.actions nd.state ≠ [] := by
        obtain ⟨nd2, _, k1, _, _, _, _, _, _, k8⟩ := childC_facts I.tree hc0
        rw [hd] at k1
        obtain rfl := Option.some.inj k1
        exact List.ne_nil_of_mem k8
      have hchance := fun (c : Nat) (a : A) (hac : (a, c) ∈ nd.kids) =>
        chanceF_near G F hv H hvis hu htb hr hq ih (by omega) hd hn (childC_of_mem I.tree hd hac)
      have hfk : ∀ a, find? a (kidsY st nd) = (find? a nd.kids).bind fun c => (st.cn[c]?).map fun nc => (nc.visits, nc.y) := by
        intro a
        refine Verif.Ments.find?_kidsY a ?_
        intro p hp
        obtain ⟨nc, h1, _⟩ := hchance p.2 p.1 hp
        exact ⟨nc, h1⟩
      set opp := isOpponent m nd.time with hopp
      -- exact and computed action values
      let q : A → ℝ := fun a => (find? a nd.kids).elim (cfg.defaultQ : ℝ) fun c => (st.cn[c]?).elim 0 (chanceSoftR env m lr st h (softTreeR cfg env m lr st h j))
      let Q : A → ℚ := softQ cfg py (viewOf env m st { nd with x := x0, visits := v0 })
      have hdef : |(cfg.defaultQ : ℝ)| ≤ ρ := by
        have := (Rat.cast_le (K := ℝ)).2 F.default
        push_cast at this
        exact this
      have hcM : 0 ≤ (8 * (K : ℝ) + 3) * (unit * M) := by
        have hu0 : (0 : ℝ) < unit := by exact_mod_cast unit_pos
        have : (0 : ℝ) ≤ M := by exact_mod_cast hM
        positivity
      have hsq : ∀ x : ℝ, |sgn opp * x| = |x| := by
        intro x
        unfold sgn
        cases opp <;> simp
      have hqs : ∀ a, |q a| ≤ (j + 2) * ρ + j * (cfg.temp * Real.log n) ∧
          |(Q a : ℝ) - sgn opp * q a| ≤ j * softError K n cfg.temp M α β + (8 * K + 3) * (unit * M) := by
        intro a
        have hkv : (viewOf env m st { nd with x := x0, visits := v0 }).kids = kidsY st nd := rfl
        have hov : (viewOf env m st { nd with x := x0, visits := v0 }).opp = opp := rfl
        simp only [q, Q, softQ, hkv, hov, hfk a]
        have hsg : ((oppSign opp : ℚ) : ℝ) = sgn opp := by unfold oppSign sgn; cases opp <;> simp
        cases hf : find? a nd.kids with
        | none =>
          simp only [Option.bind_none, Option.elim_none]
          push_cast
          rw [hsg, mul_comm (cfg.defaultQ : ℝ), sub_self, abs_zero]
          refine ⟨?_, by positivity⟩
          have h2 : 0 ≤ ((j : ℝ) + 1) * ρ := by positivity
          have h3 : 0 ≤ (j : ℝ) * (cfg.temp * Real.log n) := by positivity
          linarith
        | some c =>
          obtain ⟨nc, g1, g2, g3⟩ := hchance c a (find?_mem hf)
          simp only [Option.bind_some, g1, Option.map_some, Option.elim_some]
          push_cast
          rw [hsg, mul_comm ((py nc.y).val : ℝ), ← mul_sub, hsq]
          exact ⟨g2, g3⟩
      have hQM : ∀ a, |Q a| ≤ M := by
        intro a
        obtain ⟨h1, h2⟩ := hqs a
        have h3 := abs_sub_abs_le_abs_sub (Q a : ℝ) (sgn opp * q a)
        rw [hsq] at h3
        have h4 := range_le G F (i := j + 2) (j := j) (l := j + 1) (by linarith) (by linarith) (by linarith)
        have h5 : (8 * (K : ℝ) + 3) * (unit * M) ≤ softError K n cfg.temp M α β := by
          have hu0 : (0 : ℝ) < unit := by exact_mod_cast unit_pos
          have hM' : (0 : ℝ) ≤ M := by exact_mod_cast hM
          have hti : (0 : ℝ) < tiny := by exact_mod_cast tiny_pos
          have hα := G.α.1
          have hβ := G.β.1
          have e1 : (0 : ℝ) ≤ cfg.temp * (16 * n * unit + 4 * α + 2 * n * β) := by positivity
          have e2 : (0 : ℝ) ≤ unit * M := by positivity
          unfold softError
          linarith
        have h6 : |(Q a : ℝ)| ≤ M := by linarith
        have h7 : ((|Q a| : ℚ) : ℝ) ≤ M := by push_cast; exact h6
        exact_mod_cast h7
      have hval : (px nd.x).val = softValue ex lg (oppSign opp) cfg.temp cfg.low ((env.actions nd.state).map fun a => (a, Q a)) := by
        rw [hx, H.backupD]
        rfl
      have e1 := decision_err G F.temp.1 F.temp.2 F.low F.small F.above F.below opp hane (F.acts nd.state) (Q := Q) (fun a _ => hQM a)
      have e2 := softmax_near ht hane (Q := fun a => (Q a : ℝ)) (Q' := fun a => sgn opp * q a) (fun a _ => (hqs a).2)
      have e3 := softmax_abs ht hane (Q := fun a => sgn opp * q a) (M := (j + 2) * ρ + j * (cfg.temp * Real.log n)) (fun a _ => by rw [hsq]; exact (hqs a).1)
      rw [← hval] at e1
      push_cast
      constructor
      · rw [hsq]
        have hlen : (cfg.temp : ℝ) * Real.log (env.actions nd.state).length ≤ cfg.temp * Real.log n := by
          refine mul_le_mul_of_nonneg_left (Real.log_le_log ?_ ?_) ht.le
          · exact_mod_cast List.length_pos_of_ne_nil hane
          · exact_mod_cast F.acts nd.state
        refine le_trans e3 ?_
        linarith
      · have e4 : |sgn opp * softmax (cfg.temp : ℝ) (fun a => (Q a : ℝ)) (env.actions nd.state) -
            sgn opp * softmax cfg.temp (fun a => sgn opp * q a) (env.actions nd.state)| ≤ j * softError K n cfg.temp M α β + (8 * K + 3) * (unit * M) := by
          rw [← mul_sub, hsq]
          exact e2
        have e5 := abs_sub_le ((px nd.x).val : ℝ) (sgn opp * softmax (cfg.temp : ℝ) (fun a => (Q a : ℝ)) (env.actions nd.state))
          (sgn opp * softmax cfg.temp (fun a => sgn opp * q a) (env.actions nd.state))
        refine le_trans e5 ?_
        have e6 : softError K n cfg.temp M α β = (8 * K + 3) * (unit * M) + (29 * (unit * M) + cfg.temp * (16 * n * unit + 4 * α + 2 * n * β) + tiny) := by
          unfold softError
          ring
        linarith

end

end Verif.Fp
