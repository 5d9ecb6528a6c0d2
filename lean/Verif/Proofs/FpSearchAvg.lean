import Verif.Proofs.Bounds
import Verif.Props.FpAverage
import Verif.Spec.FpSearch

/-! # Average returns of searches with doubles (C91) -/

set_option linter.unusedSectionVars false
set_option linter.unusedSimpArgs false

namespace Verif.Fp

open Verif.Search Verif.Backups
open Verif.Uct (Stats)

variable {S A X Y : Type} [DecidableEq S] [DecidableEq A]

/-! ## The backups of a node -/

/-- The arguments of the backups of decision node `d`, newest first. -/
def argsD (d : Nat) (h : List (Event S A ℚ)) : List (BArgs ℚ) :=
  h.filterMap fun e => match e with | .backedD _ d' args => if d' = d then some args else none | _ => none

def argsC (c : Nat) (h : List (Event S A ℚ)) : List (BArgs ℚ) :=
  h.filterMap fun e => match e with | .backedC _ c' args => if c' = c then some args else none | _ => none

theorem returnsD_args (d : Nat) (h : List (Event S A ℚ)) : returnsD d h = (argsD d h).map BArgs.retAfter := by
  unfold returnsD argsD
  rw [List.map_filterMap]
  congr 1
  funext e
  cases e <;> simp

theorem returnsC_args (c : Nat) (h : List (Event S A ℚ)) : returnsC c h = (argsC c h).map BArgs.retAfter := by
  unfold returnsC argsC
  rw [List.map_filterMap]
  congr 1
  funext e
  cases e <;> simp

theorem argsD_keep {d : Nat} {e : Event S A ℚ} {h : List (Event S A ℚ)} (he : ∀ w args, e ≠ .backedD w d args) : argsD d (e :: h) = argsD d h := by
  unfold argsD
  rw [List.filterMap_cons]
  cases e <;> simp
  rename_i w d' args
  have hne : d' ≠ d := fun hd => by subst hd; exact absurd rfl (he w args)
  simp [hne]

theorem argsC_keep {c : Nat} {e : Event S A ℚ} {h : List (Event S A ℚ)} (he : ∀ w args, e ≠ .backedC w c args) : argsC c (e :: h) = argsC c h := by
  unfold argsC
  rw [List.filterMap_cons]
  cases e <;> simp
  rename_i w d' args
  have hne : d' ≠ c := fun hd => by subst hd; exact absurd rfl (he w args)
  simp [hne]

theorem argsD_nil {d : Nat} {h : List (Event S A ℚ)} (hr : returnsD d h = []) : argsD d h = [] := by
  rw [returnsD_args] at hr
  simpa using hr

theorem argsC_nil {c : Nat} {h : List (Event S A ℚ)} (hr : returnsC c h = []) : argsC c h = [] := by
  rw [returnsC_args] at hr
  simpa using hr

/-- Arguments of a backup: doubles of bounded size, not too many. -/
def GoodArgs (ρ : ℚ) (L : Nat) (args : BArgs ℚ) : Prop :=
  ∃ hv rs, args.after = hv :: rs ∧ args.retAfter = (hv :: rs).sum ∧ (IsDouble hv ∧ |hv| ≤ ρ) ∧ (∀ r ∈ rs, IsDouble r ∧ |r| ≤ ρ) ∧ rs.length ≤ L

theorem isPath_double {env : Env S A ℚ} {m : Manager S ℚ} {ρ : ℚ} (hb : FpBounded env m ρ) {st : St S A ℚ X Y}
    {ss : List (Step S A ℚ)} : ∀ {d e : Nat}, IsPath env st d ss e → ∀ s ∈ ss, IsDouble s.r ∧ |s.r| ≤ ρ := by
  induction ss with
  | nil => simp
  | cons t ss ih =>
    intro d e hp s hs
    obtain ⟨h1, h2, h3, ⟨x, h4, h5, h6, h7⟩, h8⟩ := hp
    rcases List.mem_cons.1 hs with rfl | hs
    · rw [h7]; exact hb.reward _ _ _ h5 h6
    · exact ih h8 s hs

theorem suffix_good {env : Env S A ℚ} {m : Manager S ℚ} {ρ : ℚ} (hb : FpBounded env m ρ) {s0 : S} {dp tm : Int} {st : St S A ℚ X Y}
    {h : List (Event S A ℚ)} (I : Inv env m s0 dp tm st h) {ss : List (Step S A ℚ)} {e : Nat} {hv : ℚ} (hB : Base env m st ss e)
    (hS : Stopped env m st ss e hv) {j : Nat} {s : Step S A ℚ} (hj : ss[j]? = some s) {nd : DNode S A ℚ X} (hd : st.dn[s.d]? = some nd) :
    (IsDouble hv ∧ |hv| ≤ ρ) ∧ (∀ r ∈ ((ss.map Step.r).drop j).reverse, IsDouble r ∧ |r| ≤ ρ) ∧
      ((ss.map Step.r).drop j).reverse.length ≤ remaining m nd.depth := by
  obtain ⟨hp, ⟨ne, he⟩, hcont⟩ := hB
  obtain ⟨nd', k1, k2⟩ := hcont.1 s (List.mem_of_getElem? hj)
  rw [hd] at k1
  obtain rfl := Option.some.inj k1
  have hdrop := isPath_drop hp hj
  have hdep := isPath_depth I.tree hdrop hd he
  have hlt : nd.depth < m.maxDepth := by
    simp only [isLeaf, Bool.or_eq_false_iff, decide_eq_false_iff_not] at k2
    omega
  have hdp : dp ≤ nd.depth := (I.tree.heap.dTime s.d nd.skel (by simp [hd])).2
  have hmax : ne.depth ≤ m.maxDepth := I.tree.heap.dMax (by omega) e ne.skel (by simp [he])
  refine ⟨?_, ?_, ?_⟩
  · obtain ⟨n, g1, g2, _⟩ := hS
    have := I.tree.heap.dHeur e n.skel (by simp [g1])
    rw [← g2]
    rw [show n.heur = heurOf env m n.state from this]
    exact hb.heur _
  · intro r hr
    rw [List.mem_reverse, ← List.map_drop] at hr
    obtain ⟨t, ht, rfl⟩ := List.mem_map.1 hr
    exact isPath_double hb hp t (List.mem_of_mem_drop ht)
  · simp only [List.length_cons, List.length_reverse, List.length_drop, List.length_map, remaining] at hdep ⊢
    omega

/-- The data of a node are its backups one after the other. -/
structure AvgFold (env : Env S A ℚ) (m : Manager S ℚ) (px : X → Stats ℚ) (py : Y → Stats ℚ) (pseudo : Nat) (ρ : ℚ) (st : St S A ℚ X Y)
    (h : List (Event S A ℚ)) : Prop where
  d : ∀ (d : Nat) (nd : DNode S A ℚ X), st.dn[d]? = some nd →
    px nd.x = (argsD d h).foldr (fun a s => backupAvg s (sumAfter a.after)) ⟨pseudo, nd.heur⟩ ∧ ∀ a ∈ argsD d h, GoodArgs ρ (remaining m nd.depth) a
  c : ∀ (c : Nat) (nc : CNode S A ℚ Y), st.cn[c]? = some nc →
    py nc.y = (argsC c h).foldr (fun a s => backupAvg s (sumAfter a.after)) ⟨0, 0⟩ ∧ ∀ a ∈ argsC c h, GoodArgs ρ (remaining m nc.depth) a

variable {px : X → Stats ℚ} {py : Y → Stats ℚ} {pseudo : Nat}

theorem avgFold_eff {env : Env S A ℚ} {m : Manager S ℚ} {ρ : ℚ} (hb : FpBounded env m ρ) {alg : Alg S A ℚ X Y} (H : HasFpAvg alg px py pseudo)
    {s0 : S} {dp tm : Int} {st st' : St S A ℚ X Y} {h : List (Event S A ℚ)} {w : Nat} {e : Event S A ℚ} (I : Inv env m s0 dp tm st h)
    (T : Touch st h) (D : AvgFold env m px py pseudo ρ st h) (E : Eff env m alg st w e st') : AvgFold env m px py pseudo ρ st' (e :: h) := by
  constructor
  · intro d nd' hd'
    rcases dn_chg E hd' with ⟨nd, hd, hchg⟩ | ⟨rfl, ht, s, dep, tim, rfl⟩
    · have F := D.d d nd hd
      cases hchg with
      | same he =>
        rw [argsD_keep (by rintro w' args rfl; simp [Event.touchesD] at he)]
        exact F
      | selOld hl ha hf => rw [argsD_keep (by simp)]; simpa only [H.visitD] using F
      | selNew hl ha hf => rw [argsD_keep (by simp)]; simpa only [H.visitD] using F
      | ended => rw [argsD_keep (by simp)]; simpa only [H.visitD] using F
      | @backed w' args =>
        have hr : argsD d (Event.backedD w' d args :: h) = args :: argsD d h := by simp [argsD]
        rw [hr]
        constructor
        · simp only [H.backupD, List.foldr_cons]
          rw [← F.1]
          rfl
        · intro a hm
          rcases List.mem_cons.1 hm with rfl | hm
          · obtain ⟨_, nodes, nd0, hw, _⟩ := eff_backedD E
            obtain ⟨e, hv, j, s, h1, h2, h3, h4, h5, h6, h7, h8, h9, _⟩ := I.ws w _ hw
            subst h2
            obtain ⟨g1, g2, g3⟩ := suffix_good hb I h4 h5 h1 hd
            exact ⟨hv, _, h8, by rw [h9, h8], g1, g2, g3⟩
          · exact F.2 a hm
    · rw [argsD_keep (by rintro w' args rfl; simp [Event.touchesD] at ht), argsD_nil (returnsD_nil T.freshD)]
      simp [newD, H.initD]
  · intro c nc' hc'
    rcases cn_chg E hc' with ⟨nc, hc, hchg⟩ | ⟨rfl, ht, nd, a, rfl⟩
    · have F := D.c c nc hc
      cases hchg with
      | same he =>
        rw [argsC_keep (by rintro w' args rfl; simp [Event.touchesC] at he)]
        exact F
      | stepped ho hk => rw [argsC_keep (by simp)]; simpa only [H.visitC] using F
      | @backed w' args =>
        have hr : argsC c (Event.backedC w' c args :: h) = args :: argsC c h := by simp [argsC]
        rw [hr]
        constructor
        · simp only [H.backupC, List.foldr_cons]
          rw [← F.1]
        · intro a hm
          rcases List.mem_cons.1 hm with rfl | hm
          · obtain ⟨_, nodes, d, r, aft, ret, nc0, hw, hafter, hret, hc0, _⟩ := eff_backedC E
            obtain ⟨e, hv, j, h1, h2, h3, h4, h5, h6, h7, h8, _⟩ := I.ws w _ hw
            -- the pair `(d, c)` is step number `j - 1`
            have hlen : nodes.length + 1 = j := by
              have := congrArg List.length h5
              simp only [List.length_append, List.length_singleton, List.length_take, pairs, List.length_map] at this
              omega
            have hlt : nodes.length < (stepsOf w h).length := by omega
            obtain ⟨s, hs⟩ : ∃ s, (stepsOf w h)[nodes.length]? = some s := ⟨_, List.getElem?_eq_getElem hlt⟩
            have hpair : (s.d, s.c) = (d, c) := by
              have h' : ((pairs (stepsOf w h)).take j)[nodes.length]? = some (s.d, s.c) := by
                rw [List.getElem?_take_of_lt (by omega)]
                simp [pairs, hs]
              rw [← h5] at h'
              simpa using h'.symm
            simp only [Prod.mk.injEq] at hpair
            obtain ⟨p1, p2⟩ := hpair
            have hrr : s.r = r := by
              have h' : (((stepsOf w h).map Step.r).take j)[nodes.length]? = some s.r := by
                rw [List.getElem?_take_of_lt (by omega)]
                simp [hs]
              have hbl : a.before.length = nodes.length := by
                have := congrArg List.length h6
                simp only [List.length_append, List.length_singleton, List.length_take, List.length_map] at this
                omega
              rw [← h6, ← hbl] at h'
              simpa using h'.symm
            obtain ⟨nd, nc', g1, g2, _, _, _, g3, _⟩ := childC_facts I.tree (isPath_mem h3.1 s (List.mem_of_getElem? hs)).1
            rw [p2, hc] at g2
            obtain rfl := Option.some.inj g2
            obtain ⟨f1, f2, f3⟩ := suffix_good hb I h3 h4 hs g1
            have hdrop : ((stepsOf w h).map Step.r).drop nodes.length = r :: ((stepsOf w h).map Step.r).drop j := by
              rw [← hlen, List.drop_eq_getElem_cons (by simpa using hlt)]
              congr 1
              rw [← hrr, List.getElem_map]
              congr 1
              rw [List.getElem?_eq_getElem hlt] at hs
              exact Option.some.inj hs
            have haf : a.after = hv :: (((stepsOf w h).map Step.r).drop nodes.length).reverse := by
              rw [hafter, h7, hdrop]; simp
            refine ⟨hv, _, haf, ?_, f1, f2, by rw [g3]; exact f3⟩
            rw [← haf, hafter, hret, h8]
            simp [List.sum_append]
          · exact F.2 a hm
    · rw [argsC_keep (by rintro w' args rfl; simp [Event.touchesC] at ht), argsC_nil (returnsC_nil T.freshC)]
      simp [newC, H.initC]

theorem avgFold_reach {env : Env S A ℚ} {m : Manager S ℚ} {ρ : ℚ} (hb : FpBounded env m ρ) {alg : Alg S A ℚ X Y} (hv : alg.Valid)
    (H : HasFpAvg alg px py pseudo) {k : Nat} {s0 : S} {dp tm : Int} {tb : List ((Int × S) × Option Nat)} (htb : Leftover tb) {st : St S A ℚ X Y}
    {h : List (Event S A ℚ)} (hr : Reachable env m alg k s0 dp tm tb st h) : AvgFold env m px py pseudo ρ st h := by
  obtain ⟨ls, hx⟩ := hr
  refine (exec_induct (fun s h => Inv env m s0 dp tm s h ∧ Touch s h ∧ AvgFold env m px py pseudo ρ s h)
    (fun _ _ _ _ _ hp _ E => ⟨inv_eff hv hp.1 E, touch_eff hp.2.1 E, avgFold_eff hb H hp.1 hp.2.1 hp.2.2 E⟩)
    ⟨inv_init env m alg k s0 dp tm tb htb, ⟨by simp, by simp⟩, ?_⟩ hx).2.2
  constructor
  · intro d nd hd
    rcases d with _ | d
    · simp [init] at hd
      subst hd
      simp [argsD, newD, H.initD]
    · simp [init] at hd
  · intro c nc hc
    simp [init] at hc

/-! ## The error of an average -/

theorem sumAfter_eq (hv : ℚ) (rs : List ℚ) : sumAfter (hv :: rs) = returnAfter hv rs.reverse := by
  unfold sumAfter returnAfter
  rw [List.foldr_reverse]

/-- The return handed to a backup. -/
theorem goodArgs_err {ρ : ℚ} {L : Nat} (hL : L ≤ 2 ^ 49) {a : BArgs ℚ} (G : GoodArgs ρ L a) :
    IsDouble (sumAfter a.after) ∧ |sumAfter a.after - a.retAfter| ≤ L * (L + 3) * (unit * ρ) ∧ |sumAfter a.after| ≤ 5 / 4 * ((L + 1) * ρ) := by
  obtain ⟨hv, rs, g1, g2, g3, g4, g5⟩ := G
  have hρ : 0 ≤ ρ := le_trans (abs_nonneg _) g3.2
  have hup := unit_pos
  rw [g1, sumAfter_eq, g2]
  obtain ⟨h1, h2, h3⟩ := returnAfter_err g3.1 g3.2 rs.reverse (fun x hx => g4 x (by simpa using hx)) (by
    rw [List.length_reverse]; exact le_trans g5 (le_trans hL (by norm_num)))
  rw [List.sum_reverse, List.length_reverse] at h3 h2
  rw [List.sum_cons, add_comm hv]
  have hl : (rs.length : ℚ) ≤ L := by exact_mod_cast g5
  have hl0 : (0 : ℚ) ≤ rs.length := by positivity
  have hLq : (0 : ℚ) ≤ L := by positivity
  have h4 : (rs.length : ℚ) * (rs.length + 3) * (unit * ρ) ≤ L * (L + 3) * (unit * ρ) := by
    refine mul_le_mul_of_nonneg_right ?_ (mul_nonneg hup.le hρ)
    exact mul_le_mul hl (by linarith) (by linarith) hLq
  refine ⟨h1, le_trans h3 h4, ?_⟩
  have h5 := abs_sub_abs_le_abs_sub (returnAfter hv rs.reverse) (rs.sum + hv)
  have h6 : (rs.length + 1 : ℚ) * ρ ≤ (L + 1) * ρ := mul_le_mul_of_nonneg_right (by linarith) hρ
  have h7 : (L : ℚ) * (L + 3) * (unit * ρ) ≤ 1 / 4 * ((L + 1) * ρ) := by
    have hL2 : (L : ℚ) * unit ≤ 1 / 16 := by
      have : (L : ℚ) ≤ 2 ^ 49 := by exact_mod_cast hL
      rw [unit_eq]; linarith
    have h8 : (L : ℚ) * (L + 3) * (unit * ρ) = (L * unit) * ((L + 3) * ρ) := by ring
    rw [h8]
    have h9 : (L * unit : ℚ) * ((L + 3) * ρ) ≤ 1 / 16 * ((L + 3) * ρ) := mul_le_mul_of_nonneg_right hL2 (by positivity)
    nlinarith [mul_nonneg hLq hρ]
  linarith

/-- The first backup of a node that has a value but no pseudo trials. -/
theorem first_err {h x B : ℚ} (hh : IsDouble h) (hx : IsDouble x) (h1 : |h| ≤ B) (h2 : |x| ≤ B) : |(backupAvg ⟨0, h⟩ x).avg - x| ≤ 4 * unit * B := by
  have hu := unit_pos
  have hs := unit_small
  have hB : 0 ≤ B := le_trans (abs_nonneg _) h1
  unfold backupAvg
  simp only [zero_add, Nat.cast_one]
  rw [show fl 1 = 1 from fl_one, fdiv_one (show IsDouble (fsub x h) from isDouble_fl _)]
  have e1 := fsub_err hx hh
  have e2 := fadd_err hh (isDouble_fl (x - h))
  have a1 : |x - h| ≤ 2 * B := by have := abs_sub x h; linarith
  have a2 : |fsub x h - (x - h)| ≤ unit * (2 * B) := le_trans e1 (mul_le_mul_of_nonneg_left a1 hu.le)
  have a3 : |h + fsub x h| ≤ B + unit * (2 * B) := by
    have e : h + fsub x h = x + (fsub x h - (x - h)) := by ring
    rw [e]
    have := abs_add_le x (fsub x h - (x - h))
    linarith
  have a4 : |fadd h (fsub x h) - (h + fsub x h)| ≤ unit * (B + unit * (2 * B)) := le_trans e2 (mul_le_mul_of_nonneg_left a3 hu.le)
  have e : fadd h (fsub x h) - x = (fadd h (fsub x h) - (h + fsub x h)) + (fsub x h - (x - h)) := by ring
  rw [e]
  have := abs_add_le (fadd h (fsub x h) - (h + fsub x h)) (fsub x h - (x - h))
  nlinarith [mul_nonneg hu.le hB]

/-- The average after `xs`, of a node that starts with the value `h` and `p` pseudo trials: rounding error of the average only. -/
theorem avg_err {M B h : ℚ} (hM : IsDouble M) (hB : B ≤ M - 4 * unit * B) (hh : IsDouble h) (hhB : |h| ≤ B) {p : Nat} {xs : List ℚ}
    (hx : ∀ x ∈ xs, IsDouble x ∧ |x| ≤ B) (hn0 : 1 ≤ p + xs.length) (hn : p + xs.length ≤ 2 ^ 53) :
    |(xs.foldl backupAvg ⟨p, h⟩).avg - (p * h + xs.sum) / (p + xs.length)| ≤
      (10 + (p + xs.length + 1) / 2) * unit * M + (p + xs.length + 1) / 2 * tiny := by
  have hu := unit_pos
  have ht := tiny_pos
  have hB0 : 0 ≤ B := le_trans (abs_nonneg _) hhB
  have hBM : B ≤ M := by nlinarith [mul_nonneg hu.le hB0]
  have hM0 : 0 ≤ M := le_trans hB0 hBM
  have huM : 0 ≤ unit * M := mul_nonneg hu.le hM0
  -- from a fold that starts with at least one backup
  have main : ∀ (ys : List ℚ) (s : Stats ℚ) (T : ℚ), (∀ x ∈ ys, IsDouble x ∧ |x| ≤ B) → 1 ≤ s.n → s.n + ys.length ≤ 2 ^ 53 → IsDouble s.avg → |s.avg| ≤ M →
      |(s.n : ℚ) * s.avg - T| ≤ 4 * unit * M →
      |(ys.foldl backupAvg s).avg - (T + ys.sum) / (s.n + ys.length)| ≤
        (10 + (s.n + ys.length + 1) / 2) * unit * M + (s.n + ys.length + 1) / 2 * tiny := by
    intro ys s T hys h1 h2 h3 h4 h5
    have f := fold_err hM ys s T (fun x hx => ⟨(hys x hx).1, le_trans (hys x hx).2 hBM⟩) h1 h2 h3 h4
    have hs1 : (1 : ℚ) ≤ s.n := by exact_mod_cast h1
    have hL0 : (0 : ℚ) ≤ ys.length := by positivity
    generalize (ys.foldl backupAvg s).avg = a at *
    generalize (ys.length : ℚ) = L at *
    generalize (s.n : ℚ) = n at *
    have hN : 0 < n + L := by linarith
    have e : a - (T + ys.sum) / (n + L) = ((n + L) * a - (T + ys.sum)) / (n + L) := by field_simp
    rw [e, abs_div, abs_of_pos hN, div_le_iff₀ hN]
    have r1 : ((10 + (n + L + 1) / 2) * unit * M + (n + L + 1) / 2 * tiny) * (n + L) =
        (n + L) * (10 * (unit * M)) + (n + L) * (n + L + 1) / 2 * (unit * M + tiny) := by ring
    rw [r1]
    have r2 : ((n + L) * (n + L + 1) / 2 - n * (n + 1) / 2) * (unit * M + tiny) ≤ (n + L) * (n + L + 1) / 2 * (unit * M + tiny) :=
      mul_le_mul_of_nonneg_right (by nlinarith) (by linarith [ht.le])
    have r3 : L * (6 * unit * M) ≤ (n + L) * (6 * (unit * M)) := by nlinarith
    have r4 : 4 * unit * M ≤ (n + L) * (4 * (unit * M)) := by nlinarith
    linarith
  by_cases hp : 1 ≤ p
  · have := main xs ⟨p, h⟩ (p * h) hx hp hn hh (le_trans hhB hBM) (by simp only [sub_self, abs_zero]; nlinarith)
    exact this
  · have hp0 : p = 0 := by omega
    subst hp0
    cases xs with
    | nil => simp at hn0
    | cons x xs =>
      have hxx := hx x (by simp)
      have fe := first_err hh hxx.1 hhB hxx.2
      simp only [List.length_cons] at hn
      have hab : |(backupAvg ⟨0, h⟩ x).avg| ≤ M := by
        have := abs_sub_abs_le_abs_sub (backupAvg ⟨0, h⟩ x).avg x
        linarith [hxx.2]
      have := main xs (backupAvg ⟨0, h⟩ x) x (fun y hy => hx y (by simp [hy])) (by simp [backupAvg]) (by simp only [backupAvg]; omega) (backupAvg_double _ _) hab (by
        have hn1 : (backupAvg ⟨0, h⟩ x).n = 1 := rfl
        rw [hn1]
        push_cast
        rw [one_mul]
        refine le_trans fe ?_
        nlinarith)
      have hn1 : (backupAvg ⟨0, h⟩ x).n = 1 := rfl
      rw [hn1] at this
      simp only [List.foldl_cons, List.length_cons, List.sum_cons]
      push_cast at this ⊢
      rw [zero_mul, zero_add, zero_add]
      rw [show (xs.length : ℚ) + 1 = 1 + xs.length by ring]
      exact this

/-- The average of a node whose backups have the arguments `args` (newest first). -/
theorem node_err {M ρ h : ℚ} {L p : Nat} (hM : IsDouble M) (hL : L ≤ 2 ^ 49) (hbound : 2 * (L + 1) * ρ ≤ M) (hh : IsDouble h) (hhB : |h| ≤ ρ)
    {args : List (BArgs ℚ)} (hg : ∀ a ∈ args, GoodArgs ρ L a) (hn0 : 1 ≤ p + args.length) (hn : p + args.length ≤ 2 ^ 53) :
    |(args.foldr (fun a s => backupAvg s (sumAfter a.after)) ⟨p, h⟩).avg - (p * h + (args.map BArgs.retAfter).sum) / (p + args.length)| ≤
      L * (L + 3) * (unit * ρ) + ((10 + (p + args.length + 1) / 2) * unit * M + (p + args.length + 1) / 2 * tiny) := by
  have hu := unit_pos
  have hus := unit_small
  have hρ : 0 ≤ ρ := le_trans (abs_nonneg _) hhB
  have hLq : (0 : ℚ) ≤ L := by positivity
  have hLr : 0 ≤ L * ρ := mul_nonneg hLq hρ
  have e : args.foldr (fun a s => backupAvg s (sumAfter a.after)) ⟨p, h⟩ = ((args.map fun a => sumAfter a.after).reverse).foldl backupAvg ⟨p, h⟩ := by
    rw [List.foldl_reverse, List.foldr_map]
  have h1 := avg_err (M := M) (B := 5 / 4 * ((L + 1) * ρ)) (h := h) (p := p) (xs := (args.map fun a => sumAfter a.after).reverse) hM (by nlinarith) hh
    (by nlinarith) (by
      intro x hx
      obtain ⟨a, ha, rfl⟩ := List.mem_map.1 (List.mem_reverse.1 hx)
      obtain ⟨g1, _, g3⟩ := goodArgs_err hL (hg a ha)
      exact ⟨g1, g3⟩) (by simpa using hn0) (by simpa using hn)
  rw [← e, List.sum_reverse, List.length_reverse, List.length_map] at h1
  have h2 : |(args.map fun a => sumAfter a.after).sum - (args.map BArgs.retAfter).sum| ≤ args.length * (L * (L + 3) * (unit * ρ)) := by
    clear h1 e hn hn0
    induction args with
    | nil => simp
    | cons a l ih =>
      have g1 := (goodArgs_err hL (hg a (by simp))).2.1
      have g2 := ih fun b hb => hg b (by simp [hb])
      simp only [List.map_cons, List.sum_cons, List.length_cons]
      rw [add_sub_add_comm]
      refine le_trans (abs_add_le _ _) ?_
      push_cast
      linarith
  have hN : (0 : ℚ) < p + args.length := by exact_mod_cast hn0
  have h3 : |(p * h + (args.map fun a => sumAfter a.after).sum) / (p + args.length) - (p * h + (args.map BArgs.retAfter).sum) / (p + args.length)| ≤
      L * (L + 3) * (unit * ρ) := by
    rw [← sub_div, add_sub_add_left_eq_sub, abs_div, abs_of_pos hN, div_le_iff₀ hN]
    refine le_trans h2 ?_
    rw [mul_comm]
    refine mul_le_mul_of_nonneg_left ?_ (by positivity)
    have : (0 : ℚ) ≤ p := by positivity
    linarith
  have := abs_sub_le (args.foldr (fun a s => backupAvg s (sumAfter a.after)) ⟨p, h⟩).avg ((p * h + (args.map fun a => sumAfter a.after).sum) / (p + args.length))
    ((p * h + (args.map BArgs.retAfter).sum) / (p + args.length))
  linarith

end Verif.Fp
