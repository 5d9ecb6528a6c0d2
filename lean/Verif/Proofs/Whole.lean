import Verif.Spec.Whole
import Verif.Proofs.System
import Verif.Proofs.SystemLog2
import Verif.Proofs.PoolLive
import Verif.Proofs.Live
import Mathlib.Algebra.BigOperators.Group.Finset.Basic
import Mathlib.Algebra.Order.BigOperators.Group.Finset
import Mathlib.Algebra.BigOperators.Group.Finset.Piecewise
import Mathlib.Tactic.Ring

/-! # A measure for the whole system -/

set_option linter.unusedSectionVars false

namespace Verif.Sys

variable {S A R X Y : Type} [DecidableEq S] [DecidableEq A] [AddMonoid R]
variable {env : Search.Env S A R} {m : Search.Manager S R} {alg : Search.Alg S A R X Y}
variable {n : Nat} {s0 : S} {dp tm : Int} {tb : List ((Int × S) × Option Nat)} {lg : Option Log.Logger}
variable {s s' : St S A R X Y} {h : List (Event S A R)}

/-- Steps left in the trial of a worker, if trials have at most `L - 2` blocks. -/
def credit (L : Nat) (g : Option Stage) (b : Nat) : Nat :=
  match g with
  | some .ready => L - 1
  | some .running => L - 2 - b
  | _ => 0

def phi (L n : Nat) (s : St S A R X Y) (h : List (Event S A R)) : Nat :=
  L * Pool.mu s.pool + ∑ i ∈ Finset.range n, credit L s.stages[i]? (Search.blocksOf i (searchPart h))

theorem reach_step {l : Label S A} {es : List (Event S A R)} (hr : Reachable env m alg n s0 dp tm tb lg s h) (hs : step env m alg s l = some (s', es)) :
    Reachable env m alg n s0 dp tm tb lg s' (es ++ h) := by
  obtain ⟨ls, hx⟩ := hr
  refine ⟨ls ++ [l], ?_⟩
  have app : ∀ (l1 l2 : List (Label S A)) (a : St S A R X Y) (ha : List (Event S A R)), execFrom env m alg a ha (l1 ++ l2) =
      (execFrom env m alg a ha l1).bind fun r => execFrom env m alg r.1 r.2 l2 := by
    intro l1
    induction l1 with
    | nil => intros; rfl
    | cons b l1 ih =>
      intro l2 a ha
      simp only [List.cons_append, execFrom]
      split
      · rfl
      · exact ih _ _ _
  rw [app, hx]
  simp [execFrom, hs]

/-- What a scheduling decision does, with its label. -/
inductive Did (env : Search.Env S A R) (m : Search.Manager S R) (alg : Search.Alg S A R X Y) (s : St S A R X Y) :
    Label S A → List (Event S A R) → St S A R X Y → Prop
  | pool (l : Pool.Label) (p : Pool.St) (e : Option Pool.Event) (es : List (Event S A R)) (s' : St S A R X Y) : Pool.step s.pool l = some (p, e) → s'.pool = p →
    s'.search = s.search → searchPart es = [] → poolPart es = e.toList → numEntered es = 0 → (s'.stages = s.stages ∨ l.isProgress = true ∧ ∃ i, s'.stages = s.stages.set i .ready) → Did env m alg s (.pool l) es s'
  | search (i : Nat) (ch : Search.Choice S A) (q : Search.St S A R X Y) (e : Search.Event S A R) (g : Stage) (s' : St S A R X Y) :
    Search.step env m alg s.search i ch = some (q, e) → s.stages[i]? = some g → g ≠ .done → s'.pool = s.pool → s'.search = q →
    s'.stages = s.stages.set i (match e with | .completed _ => .done | _ => .running) → Did env m alg s (.search i ch) [.search e] s'
  | prep (es : List (Event S A R)) (s' : St S A R X Y) : s.pool.cl = .idle → Did env m alg s .prep es s'

theorem searchPart_toList (e : Option Pool.Event) : searchPart (e.toList.map (Event.pool : _ → Event S A R)) = [] := by cases e <;> rfl
theorem poolPart_toList (e : Option Pool.Event) : poolPart (e.toList.map (Event.pool : _ → Event S A R)) = e.toList := by cases e <;> rfl
theorem entered_toList (e : Option Pool.Event) : numEntered (e.toList.map (Event.pool : _ → Event S A R)) = 0 := by cases e <;> rfl

theorem step_did {l : Label S A} {es : List (Event S A R)} (hs : step env m alg s l = some (s', es)) : Did env m alg s l es s' := by
  unfold step at hs
  split at hs
  · simp at hs
  cases l with
  | pool l =>
    simp only [poolStep] at hs
    split at hs
    · simp at hs
    · rename_i p e hp
      cases l <;> simp only at hs
      case look => simp at hs
      case swap => simp at hs
      case worker i =>
        split at hs
        · split at hs
          · simp only [Option.some.injEq, Prod.mk.injEq] at hs
            obtain ⟨rfl, rfl⟩ := hs
            refine .pool _ p e _ _ hp (by rw [tryLog_pool]) (by rw [tryLog_search]) ?_ ?_ ?_ (.inl (by rw [tryLog_stages]))
            · rw [searchPart_append, searchPart_append, searchPart_toList]
              cases s.newEntry <;> rfl
            · rw [poolPart_append, poolPart_append, poolPart_toList]
              cases s.newEntry <;> exact List.append_nil _
            · unfold numEntered
              rw [List.countP_append, List.countP_append]
              have := entered_toList (S := S) (A := A) (R := R) e
              unfold numEntered at this
              rw [this]
              cases s.newEntry <;> rfl
          · simp at hs
        · split at hs
          · simp only [Option.some.injEq, Prod.mk.injEq] at hs
            obtain ⟨rfl, rfl⟩ := hs
            exact .pool _ p e _ _ hp rfl rfl (searchPart_toList e) (poolPart_toList e) (entered_toList e) (.inr ⟨rfl, i, rfl⟩)
          · simp only [Option.some.injEq, Prod.mk.injEq] at hs
            obtain ⟨rfl, rfl⟩ := hs
            exact .pool _ p e _ _ hp rfl rfl (searchPart_toList e) (poolPart_toList e) (entered_toList e) (.inl rfl)
      all_goals
        try split at hs
        all_goals first
          | (simp at hs; done)
          | (simp only [Option.some.injEq, Prod.mk.injEq] at hs
             obtain ⟨rfl, rfl⟩ := hs
             exact .pool _ p e _ _ hp rfl rfl (searchPart_toList e) (poolPart_toList e) (entered_toList e) (.inl rfl))
  | search i ch =>
    simp only [searchStep] at hs
    split at hs
    · split at hs
      · simp at hs
      · simp at hs
      · rename_i g hne hg
        split at hs
        · simp at hs
        · rename_i q e hq
          simp only [Option.some.injEq, Prod.mk.injEq] at hs
          obtain ⟨rfl, rfl⟩ := hs
          exact .search i ch q e g _ hq hg (fun hd => hne (by rw [hd])) rfl rfl rfl
    · simp at hs
  | prep =>
    simp only at hs
    split at hs
    · next hc => exact .prep _ _ hc.1
    · simp at hs

theorem sum_drop {f g : Nat → Nat} {v : Nat} (hv : v < n) (h1 : ∀ i, i < n → i ≠ v → g i ≤ f i) (h2 : g v + 1 ≤ f v) :
    ∑ i ∈ Finset.range n, g i + 1 ≤ ∑ i ∈ Finset.range n, f i := by
  have : ∑ i ∈ Finset.range n, (g i + if i = v then 1 else 0) ≤ ∑ i ∈ Finset.range n, f i := by
    refine Finset.sum_le_sum fun i hi => ?_
    by_cases hiv : i = v
    · subst hiv; simpa using h2
    · simpa [hiv] using h1 i (Finset.mem_range.1 hi) hiv
  rwa [Finset.sum_add_distrib, Finset.sum_ite_eq' , if_pos (Finset.mem_range.2 hv)] at this

theorem sum_rise {f g : Nat → Nat} {v c : Nat} (h1 : ∀ i, i < n → i ≠ v → g i ≤ f i) (h2 : g v ≤ f v + c) :
    ∑ i ∈ Finset.range n, g i ≤ ∑ i ∈ Finset.range n, f i + c := by
  have : ∑ i ∈ Finset.range n, g i ≤ ∑ i ∈ Finset.range n, (f i + if i = v then c else 0) := by
    refine Finset.sum_le_sum fun i hi => ?_
    by_cases hiv : i = v
    · subst hiv; simpa using h2
    · simpa [hiv] using h1 i (Finset.mem_range.1 hi) hiv
  rw [Finset.sum_add_distrib, Finset.sum_ite_eq'] at this
  refine this.trans (Nat.add_le_add_left ?_ _)
  split <;> omega

theorem credit_le (L : Nat) (g : Option Stage) (b : Nat) : credit L g b ≤ L - 1 := by
  unfold credit
  split <;> omega

/-- Every step of the program decreases the measure; a spurious wake-up increases it by at most `3 L`. -/
theorem phi_step (hv : alg.Valid) (htb : Search.Leftover tb) (ht : Search.TableOk m tb) (hdp : dp ≤ m.maxDepth)
    {L : Nat} (hL : 4 * (m.maxDepth - dp) + 5 ≤ L) {l : Label S A} {es : List (Event S A R)}
    (hr : Reachable env m alg n s0 dp tm tb lg s h) (hc : s.pool.cl ≠ .idle) (hs : step env m alg s l = some (s', es)) :
    phi L n s' (es ++ h) + l.isProgress.toNat ≤ phi L n s h + 3 * L * l.isSpurious.toNat := by
  have hL1 : 1 ≤ L := by omega
  have hr' := reach_step hr hs
  have D := step_did hs
  cases D with
  | pool l p e es _ hp hpool hse hsp _ _ hst =>
    have hsum : ∑ i ∈ Finset.range n, credit L s'.stages[i]? (Search.blocksOf i (searchPart (es ++ h))) ≤
        ∑ i ∈ Finset.range n, credit L s.stages[i]? (Search.blocksOf i (searchPart h)) + (if l.isProgress then L - 1 else 0) := by
      rw [searchPart_append, hsp, List.nil_append]
      rcases hst with hst | ⟨hl, i, hst⟩
      · rw [hst]; exact Nat.le_add_right _ _
      · rw [if_pos hl, hst]
        refine sum_rise (v := i) ?_ ((credit_le _ _ _).trans (Nat.le_add_left _ _))
        intro j _ hj
        rw [List.getElem?_set_ne (Ne.symm hj)]
    unfold phi
    rw [hpool]
    cases hl : l.isProgress with
    | true =>
      have hm := Pool.mu_progress hl hp
      rw [if_pos hl] at hsum
      have hm' : L * Pool.mu p + L ≤ L * Pool.mu s.pool := by
        rw [← Nat.mul_succ]; exact Nat.mul_le_mul_left L hm
      simp only [Label.isProgress, hl, Bool.toNat_true]
      omega
    | false =>
      have hm := Pool.mu_other hl hc hp
      rw [if_neg (by simp [hl])] at hsum
      simp only [Label.isProgress, Label.isSpurious, hl, Bool.toNat_false]
      have hm' : L * Pool.mu p ≤ L * Pool.mu s.pool + 3 * L * l.isSpurious.toNat := by
        refine (Nat.mul_le_mul_left L hm).trans (Nat.le_of_eq ?_)
        ring
      omega
  | search i ch q e g _ hq hg hnd hpool hse hst =>
    obtain ⟨_, hsr⟩ := reach_project hr
    obtain ⟨_, hsr'⟩ := reach_project hr'
    have I := sinv hr
    have hi : i < n := by rw [← I.len]; exact (List.getElem?_eq_some_iff.1 hg).1
    obtain ⟨_, E⟩ := Search.step_eff hq
    have hcr := Search.safe_reach hv htb ht hsr'
    rw [hse] at hcr
    have hb := Search.c09_trial_length_bounded hv htb hsr hdp hi
    have hsp : searchPart ([Event.search e] ++ h) = e :: searchPart h := rfl
    unfold phi
    rw [hpool, hsp]
    simp only [Label.isProgress, Bool.toNat_true]
    have := sum_drop (n := n) (v := i) (f := fun j => credit L s.stages[j]? (Search.blocksOf j (searchPart h)))
      (g := fun j => credit L s'.stages[j]? (Search.blocksOf j (e :: searchPart h))) hi ?_ ?_
    · omega
    · intro j _ hj
      rw [hst, List.getElem?_set_ne (Ne.symm hj), ((Search.blocks_step (w := j) (h := searchPart h) E hcr).1 (Ne.symm hj)).1]
    · rw [hst, List.getElem?_set_self (by rw [I.len]; exact hi), hg]
      by_cases hcomp : ∃ w, e = .completed w
      · obtain ⟨w, rfl⟩ := hcomp
        cases g with
        | done => exact absurd rfl hnd
        | ready => simp only [credit]; omega
        | running => simp only [credit]; omega
      · have hne : e ≠ .completed i := fun h0 => hcomp ⟨i, h0⟩
        have hb2 := ((Search.blocks_step (w := i) (h := searchPart h) E hcr).2 rfl hne).2
        have hrun : (match e with | .completed _ => Stage.done | _ => .running) = .running := by
          cases e <;> first | rfl | exact absurd ⟨_, rfl⟩ hcomp
        rw [hrun]
        have hidle := I.idle i g hg
        cases g with
        | done => exact absurd rfl hnd
        | ready =>
          have := hidle.1 (by simp)
          rcases hb2 with ⟨_, b2⟩ | ⟨b1, _⟩
          · simp only [credit, b2]; omega
          · exact absurd this b1
        | running =>
          have : ¬ s.search.ws[i]? = some .idle := fun h0 => (hidle.2 h0) rfl
          rcases hb2 with ⟨b1, _⟩ | ⟨_, b2⟩
          · exact absurd b1 this
          · simp only [credit, b2]; omega
  | prep _ _ hi => exact absurd hi hc

/-- While the client is in a call, some step of the program is possible. -/
theorem whole_enabled (hl : env.Live) (hv : alg.Valid) (htb : Search.Leftover tb) (ht : Search.TableOk m tb) (hs : Search.Selects env m alg n s0 dp tm tb)
    (hn : 0 < n) (hr : Reachable env m alg n s0 dp tm tb lg s h) (hb : s.pool.cl.busy = true) (hlim : s.pool.expired = false) :
    ∃ l r, l.isProgress = true ∧ step env m alg s l = some r := by
  obtain ⟨⟨ls, hx⟩, hsr⟩ := reach_project hr
  have I := sinv hr
  have hcr := Search.safe_reach hv htb ht hsr
  obtain ⟨l, ⟨p, e⟩, hp, hst⟩ := Pool.not_stuck_busy (Pool.inv_exec hx) hn hb hlim
  cases l with
  | worker i =>
    by_cases htr : s.pool.ws[i]? = some .trial
    · have hi : i < n := by
        have := (List.getElem?_eq_some_iff.1 htr).1
        rwa [(Pool.inv_exec hx).len] at this
      have hlen : i < s.stages.length := by rw [I.len]; exact hi
      have hg : s.stages[i]? = some s.stages[i] := List.getElem?_eq_getElem hlen
      by_cases hd : s.stages[i]? = some .done
      · exact ⟨.pool (.worker i), _, rfl, by simp [step, hcr, poolStep, hst, htr, hd]; rfl⟩
      · obtain ⟨ch, q, ev, hq⟩ := Search.enabled hl hv htb ht hs hsr hi
        rw [hg] at hd
        cases hgd : s.stages[i] with
        | done => rw [hgd] at hd; exact absurd rfl hd
        | ready => exact ⟨.search i ch, _, rfl, by simp [step, hcr, searchStep, htr, hg, hgd, hq]; rfl⟩
        | running => exact ⟨.search i ch, _, rfl, by simp [step, hcr, searchStep, htr, hg, hgd, hq]; rfl⟩
    · by_cases hpt : p.ws[i]? = some .trial
      · exact ⟨.pool (.worker i), _, rfl, by simp [step, hcr, poolStep, hst, htr, hpt]; rfl⟩
      · exact ⟨.pool (.worker i), _, rfl, by simp [step, hcr, poolStep, hst, htr, hpt]; rfl⟩
  | client => exact ⟨.pool .client, _, rfl, by simp [step, hcr, poolStep, hst]; rfl⟩
  | _ => simp [Pool.Label.isProgress] at hp

/-- A step of the system is a step of its pool, or does not change it. -/
theorem busy_step {l : Label S A} {es : List (Event S A R)} (hb : s.pool.cl.busy = true) (hs : step env m alg s l = some (s', es)) :
    (s'.pool.cl.busy = true ∨ s'.pool.cl = .idle) ∧ s'.pool.limit = s.pool.limit := by
  cases step_did hs with
  | pool l p e es _ hp hpool _ _ _ _ _ => rw [hpool]; exact Pool.busy_step hb hp
  | search i ch q e g _ _ _ _ hpool _ _ => rw [hpool]; exact ⟨.inl hb, rfl⟩
  | prep _ _ hi => rw [hi] at hb; simp [Pool.CPc.busy] at hb

end Verif.Sys
