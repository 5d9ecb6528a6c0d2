import Verif.Proofs.SearchData
import Verif.Spec.Returns

/-! # Every visit is followed by exactly one backup -/

namespace Verif.Search

set_option linter.unusedSimpArgs false
set_option linter.unusedSectionVars false

variable {S A R X Y : Type} [DecidableEq S] [DecidableEq A]

theorem sum_map_set {α : Type} (f : α → Nat) (l : List α) (i : Nat) (p q : α) (h : l[i]? = some p) :
    ((l.set i q).map f).sum + f p = (l.map f).sum + f q := by
  induction l generalizing i with
  | nil => simp at h
  | cons a l ih =>
    cases i with
    | zero => simp at h; subst h; simp only [List.set_cons_zero, List.map_cons, List.sum_cons]; omega
    | succ i => simp at h; have := ih i h; simp only [List.set_cons_succ, List.map_cons, List.sum_cons]; omega

/-- Backups of decision node `d` that a worker still has to do. -/
def Phase.pendD (d : Nat) : Phase S A R → Nat
  | .idle => 0
  | .sel _ path _ _ => path.countP (fun p => p.1 == d)
  | .samp cur _ _ path _ _ => path.countP (fun p => p.1 == d) + (cur == d).toNat
  | .back nodes _ _ _ _ => nodes.countP (fun p => p.1 == d)
  | .backD e nodes _ _ _ _ => nodes.countP (fun p => p.1 == d) + (e == d).toNat

/-- Backups of chance node `c` that a worker still has to do. -/
def Phase.pendC (c : Nat) : Phase S A R → Nat
  | .idle => 0
  | .sel _ path _ _ => path.countP (fun p => p.2 == c)
  | .samp _ _ _ path _ _ => path.countP (fun p => p.2 == c)
  | .back nodes _ _ _ _ => nodes.countP (fun p => p.2 == c)
  | .backD _ nodes _ _ _ _ => nodes.countP (fun p => p.2 == c)

structure Bk (st : St S A R X Y) (h : List (Event S A R)) : Prop where
  d : ∀ d, h.countP (Event.selAt d) = (returnsD d h).length + (st.ws.map (Phase.pendD d)).sum
  c : ∀ c, h.countP (Event.stepVia c) = (returnsC c h).length + (st.ws.map (Phase.pendC c)).sum

theorem bk_init [Zero R] (env : Env S A R) (m : Manager S R) (alg : Alg S A R X Y) (k : Nat) (s0 : S) (dp tm : Int)
    (tb : List ((Int × S) × Option Nat)) : Bk (init env m alg k s0 dp tm tb) [] := by
  constructor <;> intro d <;> simp [init, returnsD, returnsC, Phase.pendD, Phase.pendC]

theorem bk_eff [Add R] [Zero R] {env : Env S A R} {m : Manager S R} {alg : Alg S A R X Y} {st st' : St S A R X Y} {w : Nat}
    {e : Event S A R} {h : List (Event S A R)} (B : Bk st h) (E : Eff env m alg st w e st') : Bk st' (e :: h) := by
  have key : ∀ (p q : Phase S A R), st.ws[w]? = some p → st'.ws = st.ws.set w q →
      (∀ d, (Event.selAt d e).toNat + p.pendD d = (returnsD d [e]).length + q.pendD d) →
      (∀ c, (Event.stepVia c e).toNat + p.pendC c = (returnsC c [e]).length + q.pendC c) → Bk st' (e :: h) := by
    intro p q hp hws h1 h2
    constructor
    · intro d
      have a1 := sum_map_set (Phase.pendD d) st.ws w p q hp
      have a2 := h1 d
      have a3 := B.d d
      have a4 : (returnsD d (e :: h)).length = (returnsD d [e]).length + (returnsD d h).length := by
        rw [← List.singleton_append]; simp only [returnsD, List.filterMap_append, List.length_append]
      rw [hws, List.countP_cons, a4]
      cases hb : Event.selAt d e <;> simp only [hb, Bool.toNat_false, Bool.toNat_true, if_true, Bool.false_eq_true, if_false] at a2 ⊢ <;> omega
    · intro c
      have a1 := sum_map_set (Phase.pendC c) st.ws w p q hp
      have a2 := h2 c
      have a3 := B.c c
      have a4 : (returnsC c (e :: h)).length = (returnsC c [e]).length + (returnsC c h).length := by
        rw [← List.singleton_append]; simp only [returnsC, List.filterMap_append, List.length_append]
      rw [hws, List.countP_cons, a4]
      cases hb : Event.stepVia c e <;> simp only [hb, Bool.toNat_false, Bool.toNat_true, if_true, Bool.false_eq_true, if_false] at a2 ⊢ <;> omega
  cases E with
  | crash hc =>
    constructor
    · intro d; have := B.d d; simpa [Event.selAt, returnsD] using this
    · intro c; have := B.c c; simpa [Event.stepVia, returnsC] using this
  | began hw => exact key _ _ hw rfl (by simp [Event.selAt, returnsD, Phase.pendD]) (by simp [Event.stepVia, returnsC, Phase.pendC])
  | @selOld cur path rs new nd a c hw hd' hl hm ha hf =>
    exact key _ _ hw rfl (by intro d; simp [Event.selAt, returnsD, Phase.pendD]; omega) (by simp [Event.stepVia, returnsC, Phase.pendC])
  | @selNew cur path rs new nd a hw hd' hl hm ha hf =>
    exact key _ _ hw rfl (by intro d; simp [Event.selAt, returnsD, Phase.pendD]; omega) (by simp [Event.stepVia, returnsC, Phase.pendC])
  | @ended cur path rs new nd hw hd' hs =>
    exact key _ _ hw rfl (by simp [Event.selAt, returnsD, Phase.pendD]) (by simp [Event.stepVia, returnsC, Phase.pendC])
  | @stepOld cur a c path rs new nc nd o d' hw hc' hd' ho hf =>
    refine key _ _ hw rfl (fun d => ?_) (fun c' => ?_)
    · by_cases hc : cur = d <;> simp [Event.selAt, returnsD, Phase.pendD, List.countP_cons, hc]
    · by_cases hc : c = c' <;> simp [Event.stepVia, returnsC, Phase.pendC, List.countP_cons, hc] <;> omega
  | @stepNew cur a c path rs new nc nd o tb hw hc' hd' ho hf ht =>
    refine key _ _ hw rfl (fun d => ?_) (fun c' => ?_)
    · by_cases hc : cur = d <;> simp [Event.selAt, returnsD, Phase.pendD, List.countP_cons, hc]
    · by_cases hc : c = c' <;> simp [Event.stepVia, returnsC, Phase.pendC, List.countP_cons, hc] <;> omega
  | @stepHit cur a c path rs new nc nd o d' hw hc' hd' ho hf hu ht =>
    refine key _ _ hw rfl (fun d => ?_) (fun c' => ?_)
    · by_cases hc : cur = d <;> simp [Event.selAt, returnsD, Phase.pendD, List.countP_cons, hc]
    · by_cases hc : c = c' <;> simp [Event.stepVia, returnsC, Phase.pendC, List.countP_cons, hc] <;> omega
  | completed hw =>
    exact key _ _ hw rfl (by simp [Event.selAt, returnsD, Phase.pendD]) (by simp [Event.stepVia, returnsC, Phase.pendC])
  | @backedC nodes d c before r after ret tot nc hw hc' =>
    refine key _ _ hw rfl (fun d' => ?_) (fun c' => ?_)
    · by_cases hc : d = d' <;> simp [Event.selAt, returnsD, Phase.pendD, List.countP_cons, hc]
    · by_cases hc : c = c' <;> simp [Event.stepVia, returnsC, Phase.pendC, List.countP_cons, hc]; omega
  | @backedD cur nodes before after ret tot nd hw hd' =>
    refine key _ _ hw rfl (fun d' => ?_) (fun c' => ?_)
    · by_cases hc : cur = d' <;> simp [Event.selAt, returnsD, Phase.pendD, List.countP_cons, hc]; omega
    · simp [Event.stepVia, returnsC, Phase.pendC]

theorem reach_bk [Add R] [Zero R] {env : Env S A R} {m : Manager S R} {alg : Alg S A R X Y} {k : Nat} {s0 : S}
    {dp tm : Int} {tb : List ((Int × S) × Option Nat)} {st : St S A R X Y} {h : List (Event S A R)}
    (hr : Reachable env m alg k s0 dp tm tb st h) : Bk st h ∧ Touch st h := by
  obtain ⟨ls, hx⟩ := hr
  exact exec_induct (fun s h => Bk s h ∧ Touch s h) (fun _ _ _ _ _ hp _ E => ⟨bk_eff hp.1 E, touch_eff hp.2 E⟩)
    ⟨bk_init env m alg k s0 dp tm tb, ⟨by simp, by simp⟩⟩ hx

theorem returnsD_nil {h : List (Event S A R)} {d : Nat} (hh : ∀ e ∈ h, e.touchesD d = false) : returnsD d h = [] := by
  unfold returnsD
  rw [List.filterMap_eq_nil_iff]
  intro e he
  have := hh e he
  cases e <;> simp [Event.touchesD] at this ⊢
  exact this

theorem returnsC_nil {h : List (Event S A R)} {c : Nat} (hh : ∀ e ∈ h, e.touchesC c = false) : returnsC c h = [] := by
  unfold returnsC
  rw [List.filterMap_eq_nil_iff]
  intro e he
  have := hh e he
  cases e <;> simp [Event.touchesC] at this ⊢
  exact this

theorem Touch.freshD {st : St S A R X Y} {h : List (Event S A R)} (T : Touch st h) : ∀ e ∈ h, e.touchesD st.dn.length = false := by
  intro e he
  refine Bool.eq_false_iff.2 fun hc => ?_
  have := T.d e he _ hc
  omega

theorem Touch.freshC {st : St S A R X Y} {h : List (Event S A R)} (T : Touch st h) : ∀ e ∈ h, e.touchesC st.cn.length = false := by
  intro e he
  refine Bool.eq_false_iff.2 fun hc => ?_
  have := T.c e he _ hc
  omega

theorem returnsD_cons (d : Nat) (e : Event S A R) (h : List (Event S A R)) (he : e.touchesD d = false) :
    returnsD d (e :: h) = returnsD d h := by
  have : returnsD d [e] = [] := returnsD_nil (by simpa using he)
  rw [← List.singleton_append]
  unfold returnsD at this ⊢
  rw [List.filterMap_append, this, List.nil_append]

theorem returnsC_cons (c : Nat) (e : Event S A R) (h : List (Event S A R)) (he : e.touchesC c = false) :
    returnsC c (e :: h) = returnsC c h := by
  have : returnsC c [e] = [] := returnsC_nil (by simpa using he)
  rw [← List.singleton_append]
  unfold returnsC at this ⊢
  rw [List.filterMap_append, this, List.nil_append]

theorem sum_idle {st : St S A R X Y} (hq : Quiescent st) (f : Phase S A R → Nat) (hf : f .idle = 0) : (st.ws.map f).sum = 0 := by
  rw [List.sum_eq_zero_iff_forall_eq_nat]
  intro x hx
  obtain ⟨p, hp, rfl⟩ := List.mem_map.1 hx
  obtain ⟨i, hi⟩ := List.mem_iff_getElem?.1 hp
  rw [hq i p hi, hf]

end Verif.Search
