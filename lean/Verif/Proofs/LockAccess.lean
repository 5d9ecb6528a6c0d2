import Verif.Proofs.LockRace

/-! # Steps access nothing but the declared locations -/

namespace Verif.LockLevel

open Verif.Search

set_option linter.unusedSimpArgs false
set_option linter.unusedSectionVars false

variable {S A R X Y : Type} [DecidableEq S] [DecidableEq A] [Add R] [Zero R]

/-- Change the mutable part of decision node `i`. -/
def modD (i : Nat) (u : DNode S A R X → DNode S A R X) (f : FSt S A R X Y) : FSt S A R X Y := { f with dn := f.dn.modify i u }

def modC (i : Nat) (u : CNode S A R Y → CNode S A R Y) (f : FSt S A R X Y) : FSt S A R X Y := { f with cn := f.cn.modify i u }

theorem modify_append_lt {α : Type} {l l' : List α} {i : Nat} {u : α → α} (h : i < l.length) :
    l.modify i u ++ l' = (l ++ l').modify i u := by
  apply List.ext_getElem?
  intro j
  by_cases hj : j < l.length
  · rw [List.getElem?_append_left (by simpa using hj), List.getElem?_modify, List.getElem?_modify, List.getElem?_append_left hj]
  · rw [List.getElem?_append_right (by simpa using hj), List.getElem?_modify, List.getElem?_append_right (by simpa using hj)]
    have : i ≠ j := by omega
    simp [this]

theorem modify_set_ne {α : Type} {l : List α} {i j : Nat} {u : α → α} {x : α} (h : i ≠ j) :
    (l.modify i u).set j x = (l.set j x).modify i u := by
  apply List.ext_getElem?
  intro n
  simp only [List.getElem?_set, List.getElem?_modify, List.length_modify]
  by_cases hj : j = n
  · subst hj; simp [h]
  · simp [hj]

theorem modify_modify_ne {α : Type} {l : List α} {i j : Nat} {u v : α → α} (h : i ≠ j) :
    (l.modify i u).modify j v = (l.modify j v).modify i u := by
  apply List.ext_getElem?
  intro n
  simp only [List.getElem?_modify]
  by_cases hj : j = n <;> by_cases hi : i = n <;> simp [hi, hj] <;> omega

theorem acquire_modD (i : Nat) (u : DNode S A R X → DNode S A R X) (f : FSt S A R X Y) (w : Nat) (l : Lk) (p : Pc S A R X Y) :
    acquire (modD i u f) w l p = (acquire f w l p).map fun r => (modD i u r.1, r.2) := by
  have e5 : (modD i u f).lock = f.lock := rfl
  unfold acquire
  rw [e5]
  cases f.lock l <;> rfl

theorem outcomeSamp_modD {env : Env S A R} {i : Nat} {u : DNode S A R X → DNode S A R X} {f : FSt S A R X Y} (hi : i < f.dn.length)
    (hu : ∀ nd, (u nd).state = nd.state) (w cur : Nat) (a : A) (c : Nat) (path : List (Nat × Nat)) (rs : List R) (new : Bool) (o : S)
    (d' : Nat) (grew : Bool) (fresh : List (DNode S A R X)) (acts : List (Act S X Y A)) :
    outcomeSamp env (modD i u f) w cur a c path rs new o d' grew fresh acts =
      (outcomeSamp env f w cur a c path rs new o d' grew fresh acts).map fun r => (modD i u r.1, r.2) := by
  unfold outcomeSamp
  have : (modD i u f).dn[cur]? = (f.dn[cur]?).map (fun nd => if i = cur then u nd else nd) := by
    simp [modD, List.getElem?_modify]
  rw [this]
  cases f.dn[cur]? with
  | none => rfl
  | some nd =>
    have : (if i = cur then u nd else nd).state = nd.state := by split <;> simp [hu]
    simp [this, modD, FSt.setW, modify_append_lt, hi]

theorem fstep_modD {env : Env S A R} {m : Manager S R} {hash : Int × S → Nat} {alg : Alg S A R X Y} {code : Code S A R X Y}
    {f : FSt S A R X Y} {w : Nat} {ch : FChoice S A} {pc : Pc S A R X Y} {i : Nat} {u : DNode S A R X → DNode S A R X}
    (hw : f.ws[w]? = some pc) (hi : i < f.dn.length) (hu : ∀ nd, (u nd).state = nd.state)
    (ha : ∀ b, (Loc.d i, b) ∉ accesses pc) :
    fstep env m hash alg code (modD i u f) w ch = (fstep env m hash alg code f w ch).map fun r => (modD i u r.1, r.2) := by
  have e1 : (modD i u f).crashed = f.crashed := rfl
  have e2 : (modD i u f).ws = f.ws := rfl
  have e3 : (modD i u f).cn = f.cn := rfl
  have e4 : (modD i u f).table = f.table := rfl
  have e5 : (modD i u f).lock = f.lock := rfl
  have e6 : (modD i u f).ctxs = f.ctxs := rfl
  have e6' : (modD i u f).ctxOf w = f.ctxOf w := rfl
  have e7 : (modD i u f).dn.length = f.dn.length := by simp [modD]
  have e8 : ∀ j, i ≠ j → (modD i u f).dn[j]? = f.dn[j]? := by
    intro j hj; simp [modD, List.getElem?_modify, hj]
  have fc : ∀ e, fcrash (modD i u f) w e = (fcrash f w e).map fun r => (modD i u r.1, r.2) := fun _ => rfl
  unfold fstep
  rw [e1, e2, hw]
  split
  · rfl
  cases pc with
  | out p =>
    cases p with
    | idle => cases ch <;> rfl
    | sel cur path rs new =>
      cases ch <;> dsimp only <;> try rfl
      rw [e7, acquire_modD, fc]; split <;> rfl
    | samp cur a c path rs new =>
      cases ch <;> dsimp only <;> try rfl
      rw [e3, acquire_modD, fc]; split <;> rfl
    | back nodes before after ret tot =>
      cases ch <;> dsimp only <;> try rfl
      split
      · rfl
      · split
        · rfl
        · rw [e3, acquire_modD, fc]; split <;> rfl
    | backD d nodes before after ret tot =>
      cases ch <;> dsimp only <;> try rfl
      rw [e7, acquire_modD, fc]; split <;> rfl
  | own p =>
    cases p with
    | idle => cases ch <;> rfl
    | sel cur path rs new =>
      cases ch <;> dsimp only <;> try rfl
      have hne : i ≠ cur := by rintro rfl; exact ha true (by simp [accesses])
      rw [e8 cur hne]
      split
      · rfl
      · split
        · simp [tau, modD, FSt.setW, modify_set_ne, hne]
        · simp [tau, modD, FSt.setW, modify_set_ne, hne]
    | samp cur a c path rs new =>
      cases ch <;> dsimp only <;> try rfl
      rw [e3]
      split <;> rfl
    | back nodes before after ret tot =>
      dsimp only
      rw [e3]
      split
      · split
        · rfl
        · split <;> rfl
        · split <;> rfl
        · rfl
      · rfl
    | backD d nodes before after ret tot =>
      dsimp only
      have hne : i ≠ d := by rintro rfl; exact ha false (by simp [accesses, nodeOf])
      rw [e8 d hne]
      split
      · rfl
      · split <;> rfl
      · have : ∀ p nd, kidsToRead env m code (modD i u f) w p nd = kidsToRead env m code f w p nd := fun _ _ => kidsToRead_ctx rfl _ _
        simp only [this]
        split <;> rfl
      · rfl
  | vis p =>
    cases p with
    | idle => cases ch <;> rfl
    | sel cur path rs new =>
      have hne : i ≠ cur := by rintro rfl; exact ha false (by simp [accesses, nodeOf])
      cases ch <;> dsimp only <;> try rfl
      · rw [e8 cur hne]
        split
        · rfl
        · rw [e6']
          split
          · unfold outcomeSel; dsimp only; split <;> rfl
          · rfl
      · rw [e8 cur hne]
        split
        · rfl
        · split <;> rfl
    | samp cur a c path rs new =>
      cases ch <;> dsimp only <;> try rfl
      rw [e3, e7]
      split
      · rfl
      · split
        · split
          · exact outcomeSamp_modD hi hu ..
          · split
            · split
              · rfl
              · exact acquire_modD ..
            · exact outcomeSamp_modD hi hu ..
        · rfl
    | back nodes before after ret tot => cases ch <;> rfl
    | backD d nodes before after ret tot => cases ch <;> rfl
  | lockD p snaps held todo =>
    cases todo with
    | cons k todo =>
      cases ch <;> dsimp only <;> try rfl
      rw [e3, acquire_modD, fc]; split <;> rfl
    | nil =>
      cases ch <;> dsimp only <;> try rfl
      cases p with
      | sel cur path rs new =>
        have hne : i ≠ cur := by rintro rfl; exact ha false (by simp [accesses, nodeOf])
        dsimp only
        rw [e8 cur hne]
        split <;> rfl
      | backD d nodes before after ret tot =>
        have hne : i ≠ d := by rintro rfl; exact ha false (by simp [accesses, nodeOf])
        dsimp only
        rw [e8 d hne]
        split <;> rfl
      | _ => rfl
  | readD p snaps held acc todo =>
    cases todo with
    | cons k todo =>
      cases ch <;> dsimp only <;> try rfl
      · rw [e3]; split <;> rfl
      all_goals cases p <;> rfl
    | nil =>
      cases p with
      | sel cur path rs new =>
        have hne : i ≠ cur := by rintro rfl; exact ha false (by simp [accesses, nodeOf])
        cases ch <;> dsimp only <;> try rfl
        rw [e8 cur hne]
        split
        · rfl
        · rw [e6']
          split
          · unfold outcomeSel; dsimp only; split <;> rfl
          · rfl
      | backD d nodes before after ret tot =>
        have hne : i ≠ d := by rintro rfl; exact ha false (by simp [accesses, nodeOf])
        cases ch <;> dsimp only <;> try rfl
        rw [e8 d hne]
        split
        · rfl
        · split <;> rfl
      | _ => cases ch <;> rfl
  | relD p snaps held =>
    cases held with
    | cons k todo => cases ch <;> cases p <;> rfl
    | nil =>
      cases p with
      | backD d nodes before after ret tot =>
        have hne : i ≠ d := by rintro rfl; exact ha false (by simp [accesses, nodeOf])
        cases ch <;> dsimp only <;> try rfl
        rw [e8 d hne]
        split
        · rfl
        · have : ∀ p nd, kidsToRead env m code (modD i u f) w p nd = kidsToRead env m code f w p nd := fun _ _ => kidsToRead_ctx rfl _ _
          simp only [this]
          split <;> rfl
      | _ => cases ch <;> rfl
  | lockC p snaps held todo =>
    cases todo with
    | cons k todo =>
      cases p <;> cases ch <;> dsimp only <;> try rfl
      all_goals rw [e7, acquire_modD, fc]; split <;> rfl
    | nil =>
      cases p with
      | back nodes before after ret tot =>
        cases ch <;> dsimp only <;> try rfl
        rw [e3]
        split
        · split <;> rfl
        · rfl
      | _ => cases ch <;> rfl
  | readC p snaps held acc todo =>
    cases todo with
    | cons k todo =>
      obtain ⟨o, k⟩ := k
      have hne : i ≠ k := by rintro rfl; exact ha false (by simp [accesses])
      cases p <;> cases ch <;> dsimp only <;> try rfl
      all_goals rw [e8 k hne]; split <;> rfl
    | nil =>
      cases p with
      | back nodes before after ret tot =>
        cases ch <;> dsimp only <;> try rfl
        rw [e3]
        split
        · split
          · rfl
          · split <;> rfl
        · rfl
      | _ => cases ch <;> rfl
  | relC p snaps held =>
    cases held with
    | cons k todo => cases ch <;> cases p <;> rfl
    | nil =>
      cases p with
      | back nodes before after ret tot =>
        cases ch <;> dsimp only <;> try rfl
        rw [e3]
        split
        · split
          · rfl
          · split <;> rfl
        · rfl
      | _ => cases ch <;> rfl
  | tab p o j =>
    cases p with
    | samp cur a c path rs new =>
      cases ch <;> dsimp only <;> try rfl
      rw [e3, e4, e7]
      split
      · rfl
      · split
        · exact outcomeSamp_modD hi hu ..
        · rfl
        · exact outcomeSamp_modD hi hu ..
    | _ => cases ch <;> rfl
  | post next acts =>
    cases acts with
    | nil => cases ch <;> rfl
    | cons act acts =>
      cases ch <;> dsimp only <;> try rfl
      cases act with
      | kidD d a c =>
        have hne : i ≠ d := by rintro rfl; exact ha true (by simp [accesses])
        simp [tau, modD, FSt.setW, doAct]
        exact modify_modify_ne hne
      | setX d x =>
        have hne : i ≠ d := by rintro rfl; exact ha true (by simp [accesses])
        simp [tau, modD, FSt.setW, doAct]
        exact modify_modify_ne hne
      | _ => rfl

theorem acquire_modC (i : Nat) (u : CNode S A R Y → CNode S A R Y) (f : FSt S A R X Y) (w : Nat) (l : Lk) (p : Pc S A R X Y) :
    acquire (modC i u f) w l p = (acquire f w l p).map fun r => (modC i u r.1, r.2) := by
  have e5 : (modC i u f).lock = f.lock := rfl
  unfold acquire
  rw [e5]
  cases f.lock l <;> rfl

theorem outcomeSamp_modC {env : Env S A R} {i : Nat} {u : CNode S A R Y → CNode S A R Y} {f : FSt S A R X Y} (w cur : Nat) (a : A) (c : Nat)
    (path : List (Nat × Nat)) (rs : List R) (new : Bool) (o : S)
    (d' : Nat) (grew : Bool) (fresh : List (DNode S A R X)) (acts : List (Act S X Y A)) :
    outcomeSamp env (modC i u f) w cur a c path rs new o d' grew fresh acts =
      (outcomeSamp env f w cur a c path rs new o d' grew fresh acts).map fun r => (modC i u r.1, r.2) := by
  unfold outcomeSamp
  have : (modC i u f).dn[cur]? = f.dn[cur]? := rfl
  rw [this]
  cases f.dn[cur]? <;> rfl

theorem outcomeSel_modC {env : Env S A R} {m : Manager S R} {alg : Alg S A R X Y} {i : Nat} {u : CNode S A R Y → CNode S A R Y} {f : FSt S A R X Y}
    (hi : i < f.cn.length) (w cur : Nat) (nd : DNode S A R X)
    (path : List (Nat × Nat)) (rs : List R) (new : Bool) (ks : List (A × Nat × Y)) (held : List Nat) (a : A) :
    outcomeSel env m alg (modC i u f) w cur nd path rs new ks held a =
      (outcomeSel env m alg f w cur nd path rs new ks held a).map fun r => (modC i u r.1, r.2) := by
  have e7 : (modC i u f).cn.length = f.cn.length := by simp [modC]
  unfold outcomeSel
  dsimp only
  cases find? a nd.kids with
  | some c => rfl
  | none =>
    dsimp only
    rw [e7]
    simp [modC, FSt.setW, modify_append_lt, hi, FSt.ctxOf]

theorem fstep_modC {env : Env S A R} {m : Manager S R} {hash : Int × S → Nat} {alg : Alg S A R X Y} {code : Code S A R X Y}
    {f : FSt S A R X Y} {w : Nat} {ch : FChoice S A} {pc : Pc S A R X Y} {i : Nat} {u : CNode S A R Y → CNode S A R Y}
    (hw : f.ws[w]? = some pc) (hi : i < f.cn.length) (ha : ∀ b, (Loc.c i, b) ∉ accesses pc) :
    fstep env m hash alg code (modC i u f) w ch = (fstep env m hash alg code f w ch).map fun r => (modC i u r.1, r.2) := by
  have e1 : (modC i u f).crashed = f.crashed := rfl
  have e2 : (modC i u f).ws = f.ws := rfl
  have e3 : (modC i u f).dn = f.dn := rfl
  have e4 : (modC i u f).table = f.table := rfl
  have e5 : (modC i u f).lock = f.lock := rfl
  have e6' : (modC i u f).ctxOf w = f.ctxOf w := rfl
  have e7 : (modC i u f).cn.length = f.cn.length := by simp [modC]
  have e8 : ∀ j, i ≠ j → (modC i u f).cn[j]? = f.cn[j]? := by
    intro j hj; simp [modC, List.getElem?_modify, hj]
  have fc : ∀ e, fcrash (modC i u f) w e = (fcrash f w e).map fun r => (modC i u r.1, r.2) := fun _ => rfl
  unfold fstep
  rw [e1, e2, hw]
  split
  · rfl
  cases pc with
  | out p =>
    cases p with
    | idle => cases ch <;> rfl
    | sel cur path rs new =>
      cases ch <;> dsimp only <;> try rfl
      rw [e3, acquire_modC, fc]; split <;> rfl
    | samp cur a c path rs new =>
      cases ch <;> dsimp only <;> try rfl
      rw [e7, acquire_modC, fc]; split <;> rfl
    | back nodes before after ret tot =>
      cases ch <;> dsimp only <;> try rfl
      split
      · rfl
      · split
        · rfl
        · rw [e7, acquire_modC, fc]; split <;> rfl
    | backD d nodes before after ret tot =>
      cases ch <;> dsimp only <;> try rfl
      rw [e3, acquire_modC, fc]; split <;> rfl
  | own p =>
    cases p with
    | idle => cases ch <;> rfl
    | sel cur path rs new =>
      cases ch <;> dsimp only <;> try rfl
      rw [e3]
      split
      · rfl
      · split <;> rfl
    | samp cur a c path rs new =>
      cases ch <;> dsimp only <;> try rfl
      have hne : i ≠ c := by rintro rfl; exact ha true (by simp [accesses])
      rw [e8 c hne]
      split
      · rfl
      · simp [tau, modC, FSt.setW, modify_set_ne, hne]
    | back nodes before after ret tot =>
      dsimp only
      split
      · rename_i d c r hn hb
        have hne : i ≠ c := by rintro rfl; exact ha false (by simp [accesses, nodeOf, hn])
        rw [e8 c hne]
        split
        · rfl
        · split <;> rfl
        · split <;> rfl
        · rfl
      · rfl
    | backD d nodes before after ret tot =>
      dsimp only
      rw [e3]
      split
      · rfl
      · split <;> rfl
      · have : ∀ p nd, kidsToRead env m code (modC i u f) w p nd = kidsToRead env m code f w p nd := fun _ _ => kidsToRead_ctx rfl _ _
        simp only [this]
        split <;> rfl
      · rfl
  | vis p =>
    cases p with
    | idle => cases ch <;> rfl
    | sel cur path rs new =>
      cases ch <;> dsimp only <;> try rfl
      · rw [e3]
        split
        · rfl
        · rw [e6']
          split
          · exact outcomeSel_modC hi ..
          · rfl
      · rw [e3]
        split
        · rfl
        · split <;> rfl
    | samp cur a c path rs new =>
      have hne : i ≠ c := by rintro rfl; exact ha false (by simp [accesses, nodeOf])
      cases ch <;> dsimp only <;> try rfl
      rw [e8 c hne]
      split
      · rfl
      · split
        · split
          · exact outcomeSamp_modC ..
          · split
            · split
              · rfl
              · exact acquire_modC ..
            · exact outcomeSamp_modC ..
        · rfl
    | back nodes before after ret tot => cases ch <;> rfl
    | backD d nodes before after ret tot => cases ch <;> rfl
  | lockD p snaps held todo =>
    cases todo with
    | cons k todo =>
      cases ch <;> dsimp only <;> try rfl
      rw [e7, acquire_modC, fc]; split <;> rfl
    | nil =>
      cases ch <;> dsimp only <;> try rfl
      cases p with
      | sel cur path rs new =>
        dsimp only
        rw [e3]
        split <;> rfl
      | backD d nodes before after ret tot =>
        dsimp only
        rw [e3]
        split <;> rfl
      | _ => rfl
  | readD p snaps held acc todo =>
    cases todo with
    | cons k todo =>
      obtain ⟨a, k⟩ := k
      have hne : i ≠ k := by rintro rfl; exact ha false (by simp [accesses])
      cases ch <;> dsimp only <;> try rfl
      · rw [e8 k hne]; split <;> rfl
      all_goals cases p <;> rfl
    | nil =>
      cases p with
      | sel cur path rs new =>
        cases ch <;> dsimp only <;> try rfl
        rw [e3]
        split
        · rfl
        · rw [e6']
          split
          · exact outcomeSel_modC hi ..
          · rfl
      | backD d nodes before after ret tot =>
        cases ch <;> dsimp only <;> try rfl
        rw [e3]
        split
        · rfl
        · split <;> rfl
      | _ => cases ch <;> rfl
  | relD p snaps held =>
    cases held with
    | cons k todo => cases ch <;> cases p <;> rfl
    | nil =>
      cases p with
      | backD d nodes before after ret tot =>
        cases ch <;> dsimp only <;> try rfl
        rw [e3]
        split
        · rfl
        · have : ∀ p nd, kidsToRead env m code (modC i u f) w p nd = kidsToRead env m code f w p nd := fun _ _ => kidsToRead_ctx rfl _ _
          simp only [this]
          split <;> rfl
      | _ => cases ch <;> rfl
  | lockC p snaps held todo =>
    cases todo with
    | cons k todo =>
      cases p <;> cases ch <;> dsimp only <;> try rfl
      all_goals rw [e3, acquire_modC, fc]; split <;> rfl
    | nil =>
      cases p with
      | back nodes before after ret tot =>
        cases ch <;> dsimp only <;> try rfl
        split
        · rename_i d c r hn hb
          have hne : i ≠ c := by rintro rfl; exact ha false (by simp [accesses, nodeOf, hn])
          rw [e8 c hne]
          split <;> rfl
        · rfl
      | _ => cases ch <;> rfl
  | readC p snaps held acc todo =>
    cases todo with
    | cons k todo =>
      cases p <;> cases ch <;> dsimp only <;> try rfl
      all_goals rw [e3]; split <;> rfl
    | nil =>
      cases p with
      | back nodes before after ret tot =>
        cases ch <;> dsimp only <;> try rfl
        split
        · rename_i d c r hn hb
          have hne : i ≠ c := by rintro rfl; exact ha false (by simp [accesses, nodeOf, hn])
          rw [e8 c hne]
          split
          · rfl
          · split <;> rfl
        · rfl
      | _ => cases ch <;> rfl
  | relC p snaps held =>
    cases held with
    | cons k todo => cases ch <;> cases p <;> rfl
    | nil =>
      cases p with
      | back nodes before after ret tot =>
        cases ch <;> dsimp only <;> try rfl
        split
        · rename_i d c r hn hb
          have hne : i ≠ c := by rintro rfl; exact ha false (by simp [accesses, nodeOf, hn])
          rw [e8 c hne]
          split
          · rfl
          · split <;> rfl
        · rfl
      | _ => cases ch <;> rfl
  | tab p o j =>
    cases p with
    | samp cur a c path rs new =>
      have hne : i ≠ c := by rintro rfl; exact ha false (by simp [accesses, nodeOf])
      cases ch <;> dsimp only <;> try rfl
      rw [e8 c hne, e4]
      split
      · rfl
      · split
        · exact outcomeSamp_modC ..
        · rfl
        · exact outcomeSamp_modC ..
    | _ => cases ch <;> rfl
  | post next acts =>
    cases acts with
    | nil => cases ch <;> rfl
    | cons act acts =>
      cases ch <;> dsimp only <;> try rfl
      cases act with
      | kidC c o d =>
        have hne : i ≠ c := by rintro rfl; exact ha true (by simp [accesses])
        simp [tau, modC, FSt.setW, doAct]
        exact modify_modify_ne hne
      | setY c y =>
        have hne : i ≠ c := by rintro rfl; exact ha true (by simp [accesses])
        simp [tau, modC, FSt.setW, doAct]
        exact modify_modify_ne hne
      | _ => rfl

/-- Change the table. -/
def modT (u : List ((Int × S) × Option Nat) → List ((Int × S) × Option Nat)) (f : FSt S A R X Y) : FSt S A R X Y :=
  { f with table := u f.table }

theorem acquire_modT (u : List ((Int × S) × Option Nat) → List ((Int × S) × Option Nat)) (f : FSt S A R X Y) (w : Nat) (l : Lk)
    (p : Pc S A R X Y) : acquire (modT u f) w l p = (acquire f w l p).map fun r => (modT u r.1, r.2) := by
  have e5 : (modT u f).lock = f.lock := rfl
  unfold acquire
  rw [e5]
  cases f.lock l <;> rfl

theorem outcomeSamp_modT {env : Env S A R} {u : List ((Int × S) × Option Nat) → List ((Int × S) × Option Nat)} {f : FSt S A R X Y}
    (w cur : Nat) (a : A) (c : Nat) (path : List (Nat × Nat)) (rs : List R) (new : Bool) (o : S)
    (d' : Nat) (grew : Bool) (fresh : List (DNode S A R X)) (acts : List (Act S X Y A)) :
    outcomeSamp env (modT u f) w cur a c path rs new o d' grew fresh acts =
      (outcomeSamp env f w cur a c path rs new o d' grew fresh acts).map fun r => (modT u r.1, r.2) := by
  unfold outcomeSamp
  have : (modT u f).dn[cur]? = f.dn[cur]? := rfl
  rw [this]
  cases f.dn[cur]? <;> rfl

theorem fstep_modT {env : Env S A R} {m : Manager S R} {hash : Int × S → Nat} {alg : Alg S A R X Y} {code : Code S A R X Y}
    {f : FSt S A R X Y} {w : Nat} {ch : FChoice S A} {pc : Pc S A R X Y} {u : List ((Int × S) × Option Nat) → List ((Int × S) × Option Nat)}
    (hw : f.ws[w]? = some pc) (ha : ∀ b, (Loc.table, b) ∉ accesses pc) :
    fstep env m hash alg code (modT u f) w ch = (fstep env m hash alg code f w ch).map fun r => (modT u r.1, r.2) := by
  have e1 : (modT u f).crashed = f.crashed := rfl
  have e2 : (modT u f).ws = f.ws := rfl
  have e3 : (modT u f).dn = f.dn := rfl
  have e4 : (modT u f).cn = f.cn := rfl
  have e5 : (modT u f).lock = f.lock := rfl
  have e6' : (modT u f).ctxOf w = f.ctxOf w := rfl
  have fc : ∀ e, fcrash (modT u f) w e = (fcrash f w e).map fun r => (modT u r.1, r.2) := fun _ => rfl
  have hk : ∀ p nd, kidsToRead env m code (modT u f) w p nd = kidsToRead env m code f w p nd := fun _ _ => kidsToRead_ctx rfl _ _
  unfold fstep
  rw [e1, e2, hw]
  split
  · rfl
  cases pc with
  | out p =>
    cases p <;> cases ch <;> dsimp only <;> (try rfl) <;> simp only [e3, e4, acquire_modT, fc]
    all_goals repeat' (first | rfl | split)
  | own p =>
    cases p <;> cases ch <;> dsimp only <;> (try rfl) <;> simp only [e3, e4, acquire_modT, fc, hk]
    all_goals repeat' (first | rfl | split)
  | vis p =>
    cases p with
    | sel cur path rs new =>
      cases ch <;> dsimp only <;> (try rfl) <;> simp only [e3, e4, e6']
      · unfold outcomeSel; dsimp only
        repeat' (first | rfl | split)
      · repeat' (first | rfl | split)
    | samp cur a c path rs new =>
      cases ch <;> dsimp only <;> try rfl
      rw [e3, e4]
      split
      · rfl
      · split
        · split
          · exact outcomeSamp_modT ..
          · split
            · split
              · rfl
              · exact acquire_modT ..
            · exact outcomeSamp_modT ..
        · rfl
    | _ => cases ch <;> rfl
  | lockD p snaps held todo =>
    cases todo <;> cases p <;> cases ch <;> dsimp only <;> (try rfl) <;> simp only [e3, e4, acquire_modT, fc, hk]
    all_goals repeat' (first | rfl | split)
  | readD p snaps held acc todo =>
    cases todo <;> cases p <;> cases ch <;> dsimp only <;> (try rfl) <;> simp only [e3, e4, e6', acquire_modT, fc, hk] <;>
      (try unfold outcomeSel) <;> (try dsimp only)
    all_goals repeat' (first | rfl | split)
  | relD p snaps held =>
    cases held <;> cases p <;> cases ch <;> dsimp only <;> (try rfl) <;> simp only [e3, e4, acquire_modT, fc, hk]
    all_goals repeat' (first | rfl | split)
  | lockC p snaps held todo =>
    cases todo <;> cases p <;> cases ch <;> dsimp only <;> (try rfl) <;> simp only [e3, e4, acquire_modT, fc, hk]
    all_goals repeat' (first | rfl | split)
  | readC p snaps held acc todo =>
    cases todo <;> cases p <;> cases ch <;> dsimp only <;> (try rfl) <;> simp only [e3, e4, acquire_modT, fc, hk]
    all_goals repeat' (first | rfl | split)
  | relC p snaps held =>
    cases held <;> cases p <;> cases ch <;> dsimp only <;> (try rfl) <;> simp only [e3, e4, acquire_modT, fc, hk]
    all_goals repeat' (first | rfl | split)
  | tab p o j => exact absurd (by simp [accesses]) (ha false)
  | post next acts =>
    cases acts with
    | nil => cases ch <;> rfl
    | cons act acts =>
      cases ch <;> dsimp only <;> try rfl
      cases act with
      | ins k d => exact absurd (by simp [accesses]) (ha true)
      | _ => rfl

end Verif.LockLevel
