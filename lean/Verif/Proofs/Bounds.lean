import Verif.Proofs.Dp
import Verif.Proofs.Consistent

/-! # Averages of returns, and bounds on values -/

namespace Verif.Backups

open Verif.Search

set_option linter.unusedSimpArgs false
set_option linter.unusedSectionVars false

variable {S A 𝕜 X Y : Type} [DecidableEq S] [DecidableEq A] [Field 𝕜] [LinearOrder 𝕜] [IsStrictOrderedRing 𝕜]

/-! ## Returns -/

theorem Within.add {lo hi u v : 𝕜} {n k : Nat} (h1 : Within lo hi n u) (h2 : Within lo hi k v) : Within lo hi (n + k) (u + v) := by
  unfold Within at *
  push_cast
  constructor <;> nlinarith [h1.1, h1.2, h2.1, h2.2]

theorem Within.one {lo hi v : 𝕜} (h : lo ≤ v ∧ v ≤ hi) : Within lo hi 1 v := by simpa [Within] using h

theorem Within.mono {lo hi v : 𝕜} {n k : Nat} (hlo : lo ≤ 0) (hhi : 0 ≤ hi) (h : Within lo hi n v) (hk : n ≤ k) : Within lo hi k v := by
  unfold Within at *
  have : (n : 𝕜) ≤ k := by exact_mod_cast hk
  exact ⟨le_trans (mul_le_mul_of_nonpos_right this hlo) h.1, le_trans h.2 (mul_le_mul_of_nonneg_right this hhi)⟩

theorem within_sum {lo hi : 𝕜} (l : List 𝕜) (h : ∀ r ∈ l, lo ≤ r ∧ r ≤ hi) : Within lo hi l.length l.sum := by
  induction l with
  | nil => simp [Within]
  | cons r l ih =>
    have := (Within.one (h r (by simp))).add (ih (fun q hq => h q (by simp [hq])))
    rw [Nat.add_comm] at this
    simpa using this

theorem isPath_drop {env : Env S A 𝕜} {st : St S A 𝕜 X Y} {ss : List (Step S A 𝕜)} {s : Step S A 𝕜} :
    ∀ {d e j : Nat}, IsPath env st d ss e → ss[j]? = some s → IsPath env st s.d (ss.drop j) e := by
  induction ss with
  | nil => intro d e j hp hj; simp at hj
  | cons t ss ih =>
    intro d e j hp hj
    obtain ⟨h1, h2, h3, h4, h6⟩ := id hp
    cases j with
    | zero => simp at hj; subst hj; rw [h1]; exact hp
    | succ j => exact ih h6 (by simpa using hj)

theorem isPath_rewards {env : Env S A 𝕜} {m : Manager S 𝕜} {lo hi : 𝕜} (hb : Bounded env m lo hi) {st : St S A 𝕜 X Y}
    {ss : List (Step S A 𝕜)} : ∀ {d e : Nat}, IsPath env st d ss e → ∀ s ∈ ss, lo ≤ s.r ∧ s.r ≤ hi := by
  induction ss with
  | nil => simp
  | cons t ss ih =>
    intro d e hp s hs
    obtain ⟨h1, h2, h3, ⟨x, h4, h5, h6, h7⟩, h8⟩ := hp
    rcases List.mem_cons.1 hs with rfl | hs
    · rw [h7]; exact hb.reward _ _ _ h5 h6
    · exact ih h8 s hs

/-- The return from position `j` of a trial on. -/
theorem suffix_bound {env : Env S A 𝕜} {m : Manager S 𝕜} {lo hi : 𝕜} (hb : Bounded env m lo hi) {s0 : S} {dp tm : Int} {st : St S A 𝕜 X Y}
    {h : List (Event S A 𝕜)} (I : Inv env m s0 dp tm st h) {ss : List (Step S A 𝕜)} {e : Nat} {hv : 𝕜} (hB : Base env m st ss e)
    (hS : Stopped env m st ss e hv) {j : Nat} {s : Step S A 𝕜} (hj : ss[j]? = some s) {nd : DNode S A 𝕜 X} (hd : st.dn[s.d]? = some nd) :
    Within lo hi (remaining m nd.depth + 1) (hv :: ((ss.map Step.r).drop j).reverse).sum := by
  obtain ⟨hp, ⟨ne, he⟩, hcont⟩ := hB
  obtain ⟨nd', k1, k2⟩ := hcont.1 s (List.mem_of_getElem? hj)
  rw [hd] at k1
  obtain rfl := Option.some.inj k1
  have hdrop := isPath_drop hp hj
  have hdep := isPath_depth I.tree hdrop hd he
  have hlt : nd.depth < m.maxDepth := by
    simp only [isLeaf, Bool.or_eq_false_iff, decide_eq_false_iff_not] at k2
    omega
  have hdp : dp ≤ nd.depth := (I.tree.heap.dTime s.d nd.skel (by simp [hd])).2
  have hmax : ne.depth ≤ m.maxDepth := I.tree.heap.dMax (by omega) e ne.skel (by simp [he])
  have hhv : lo ≤ hv ∧ hv ≤ hi := by
    obtain ⟨n, g1, g2, _⟩ := hS
    have := I.tree.heap.dHeur e n.skel (by simp [g1])
    rw [← g2]
    rw [show n.heur = heurOf env m n.state from this]
    exact hb.heur _
  have hl := within_sum (lo := lo) (hi := hi) (hv :: ((ss.map Step.r).drop j).reverse) (by
    intro r hr
    rcases List.mem_cons.1 hr with rfl | hr
    · exact hhv
    · rw [List.mem_reverse, ← List.map_drop] at hr
      obtain ⟨t, ht, rfl⟩ := List.mem_map.1 hr
      exact isPath_rewards hb hp t (List.mem_of_mem_drop ht))
  refine hl.mono hb.lo0 hb.hi0 ?_
  simp only [List.length_cons, List.length_reverse, List.length_drop, List.length_map, remaining] at hdep ⊢
  omega

structure RetInv (m : Manager S 𝕜) (lo hi : 𝕜) (st : St S A 𝕜 X Y) (h : List (Event S A 𝕜)) : Prop where
  d : ∀ (d : Nat) (nd : DNode S A 𝕜 X), st.dn[d]? = some nd → ∀ r ∈ returnsD d h, Within lo hi (remaining m nd.depth + 1) r
  c : ∀ (c : Nat) (nc : CNode S A 𝕜 Y), st.cn[c]? = some nc → ∀ r ∈ returnsC c h, Within lo hi (remaining m nc.depth + 1) r

theorem ret_eff {env : Env S A 𝕜} {m : Manager S 𝕜} {lo hi : 𝕜} (hb : Bounded env m lo hi) {alg : Alg S A 𝕜 X Y} {s0 : S} {dp tm : Int}
    {st st' : St S A 𝕜 X Y} {h : List (Event S A 𝕜)} {w : Nat} {e : Event S A 𝕜} (I : Inv env m s0 dp tm st h)
    (T : Touch st h) (D : RetInv m lo hi st h) (E : Eff env m alg st w e st') : RetInv m lo hi st' (e :: h) := by
  constructor
  · intro d nd' hd'
    rcases dn_chg E hd' with ⟨nd, hd, hchg⟩ | ⟨rfl, ht, s, dep, tim, rfl⟩
    · have H := D.d d nd hd
      cases hchg with
      | same he => rw [returnsD_cons d e h he]; exact H
      | selOld hl ha hf => rw [returnsD_keep (by simp)]; exact H
      | selNew hl ha hf => rw [returnsD_keep (by simp)]; exact H
      | ended => rw [returnsD_keep (by simp)]; exact H
      | @backed w' args =>
        have hr : returnsD d (Event.backedD w' d args :: h) = args.retAfter :: returnsD d h := by simp [returnsD]
        rw [hr]
        intro r hm
        rcases List.mem_cons.1 hm with rfl | hm
        · obtain ⟨_, nodes, nd0, hw, _⟩ := eff_backedD E
          obtain ⟨e, hv, j, s, h1, h2, h3, h4, h5, h6, h7, h8, h9, _⟩ := I.ws w _ hw
          subst h2
          have := suffix_bound hb I h4 h5 h1 hd
          rw [← h8, ← h9] at this
          exact this
        · exact H r hm
    · rw [returnsD_cons _ e h ht, returnsD_nil T.freshD]; simp
  · intro c nc' hc'
    rcases cn_chg E hc' with ⟨nc, hc, hchg⟩ | ⟨rfl, ht, nd, a, rfl⟩
    · have H := D.c c nc hc
      cases hchg with
      | same he => rw [returnsC_cons c e h he]; exact H
      | stepped ho hk => rw [returnsC_keep (by simp)]; exact H
      | @backed w' args =>
        have hr : returnsC c (Event.backedC w' c args :: h) = args.retAfter :: returnsC c h := by simp [returnsC]
        rw [hr]
        intro r hm
        rcases List.mem_cons.1 hm with rfl | hm
        · obtain ⟨_, nodes, d, r, aft, ret, nc0, hw, hafter, hret, hc0, _⟩ := eff_backedC E
          obtain ⟨e, hv, j, h1, h2, h3, h4, h5, h6, h7, h8, _⟩ := I.ws w _ hw
          -- the pair `(d, c)` is step number `j - 1`
          have hlen : nodes.length + 1 = j := by
            have := congrArg List.length h5
            simp only [List.length_append, List.length_singleton, List.length_take, pairs, List.length_map] at this
            omega
          have hlt : nodes.length < (stepsOf w h).length := by omega
          obtain ⟨s, hs⟩ : ∃ s, (stepsOf w h)[nodes.length]? = some s := ⟨_, List.getElem?_eq_getElem hlt⟩
          have hpair : (s.d, s.c) = (d, c) := by
            have h' : ((pairs (stepsOf w h)).take j)[nodes.length]? = some (s.d, s.c) := by
              rw [List.getElem?_take_of_lt (by omega)]
              simp [pairs, hs]
            rw [← h5] at h'
            simpa using h'.symm
          simp only [Prod.mk.injEq] at hpair
          obtain ⟨p1, p2⟩ := hpair
          have hrr : s.r = r := by
            have h' : (((stepsOf w h).map Step.r).take j)[nodes.length]? = some s.r := by
              rw [List.getElem?_take_of_lt (by omega)]
              simp [hs]
            have hbl : args.before.length = nodes.length := by
              have := congrArg List.length h6
              simp only [List.length_append, List.length_singleton, List.length_take, List.length_map] at this
              omega
            rw [← h6, ← hbl] at h'
            simpa using h'.symm
          obtain ⟨nd, nc', g1, g2, _, _, _, g3, _⟩ := childC_facts I.tree (isPath_mem h3.1 s (List.mem_of_getElem? hs)).1
          rw [p2, hc] at g2
          obtain rfl := Option.some.inj g2
          have := suffix_bound hb I h3 h4 hs g1
          rw [show ((stepsOf w h).map Step.r).drop nodes.length = r :: ((stepsOf w h).map Step.r).drop j by
            rw [← hlen, List.drop_eq_getElem_cons (by simpa using hlt)]
            congr 1
            rw [← hrr, List.getElem_map]
            congr 1
            rw [List.getElem?_eq_getElem hlt] at hs
            exact Option.some.inj hs] at this
          rw [hret, h8, h7, g3]
          simpa [List.sum_append, add_assoc] using this
        · exact H r hm
    · rw [returnsC_cons _ e h ht, returnsC_nil T.freshC]; simp

theorem ret_reach {env : Env S A 𝕜} {m : Manager S 𝕜} {lo hi : 𝕜} (hb : Bounded env m lo hi) {alg : Alg S A 𝕜 X Y} (hv : alg.Valid)
    {k : Nat} {s0 : S} {dp tm : Int} {tb : List ((Int × S) × Option Nat)} (htb : Leftover tb) {st : St S A 𝕜 X Y} {h : List (Event S A 𝕜)}
    (hr : Reachable env m alg k s0 dp tm tb st h) : RetInv m lo hi st h := by
  obtain ⟨ls, hx⟩ := hr
  exact (exec_induct (fun s h => Inv env m s0 dp tm s h ∧ Touch s h ∧ RetInv m lo hi s h)
    (fun _ _ _ _ _ hp _ E => ⟨inv_eff hv hp.1 E, touch_eff hp.2.1 E, ret_eff hb hp.1 hp.2.1 hp.2.2 E⟩)
    ⟨inv_init env m alg k s0 dp tm tb htb, ⟨by simp, by simp⟩, ⟨fun _ _ _ r hr => by simp [returnsD] at hr,
      fun _ _ _ r hr => by simp [returnsC] at hr⟩⟩ hx).2.2

/-- A number whose multiple is a sum of bounded numbers is bounded. -/
theorem within_avg {lo hi avg h0 : 𝕜} {n p k : Nat} {l : List 𝕜} (hn : n = p + l.length) (h : (n : 𝕜) * avg = p * h0 + l.sum)
    (h00 : Within lo hi k h0) (hl : ∀ r ∈ l, Within lo hi k r) (hz : n = 0 → avg = h0) : Within lo hi k avg := by
  by_cases h1 : n = 0
  · rw [hz h1]; exact h00
  · have hpos : (0 : 𝕜) < n := by exact_mod_cast Nat.pos_of_ne_zero h1
    have hs := within_sum (lo := k * lo) (hi := k * hi) l hl
    have hp : (0 : 𝕜) ≤ p := Nat.cast_nonneg p
    unfold Within at *
    have e : (n : 𝕜) = p + l.length := by exact_mod_cast hn
    have a1 := mul_le_mul_of_nonneg_left h00.1 hp
    have a2 := mul_le_mul_of_nonneg_left h00.2 hp
    constructor
    · refine le_of_mul_le_mul_left ?_ hpos
      rw [h, e]; nlinarith [hs.1]
    · refine le_of_mul_le_mul_left ?_ hpos
      rw [h, e]; nlinarith [hs.2]

/-! ## DP values -/

variable {px : X → Dp 𝕜} {py : Y → Dp 𝕜} {lr : S → A → 𝕜}

structure DpBnd (m : Manager S 𝕜) (px : X → Dp 𝕜) (py : Y → Dp 𝕜) (lo hi : 𝕜) (st : St S A 𝕜 X Y) : Prop where
  d : ∀ (d : Nat) (nd : DNode S A 𝕜 X), st.dn[d]? = some nd → ∀ v, (px nd.x).val = some v → Within lo hi (remaining m nd.depth + 1) v
  c : ∀ (c : Nat) (nc : CNode S A 𝕜 Y), st.cn[c]? = some nc → ∀ v, (py nc.y).val = some v → Within lo hi (remaining m nc.depth + 1) v

theorem dpbnd_eff {env : Env S A 𝕜} {m : Manager S 𝕜} {lo hi : 𝕜} (hb : Bounded env m lo hi)
    (hlr : ∀ s a, a ∈ env.actions s → lo ≤ lr s a ∧ lr s a ≤ hi)
    {alg : Alg S A 𝕜 X Y} (H : HasDp alg px py lr) {s0 : S} {dp tm : Int}
    {st st' : St S A 𝕜 X Y} {h : List (Event S A 𝕜)} {w : Nat} {e : Event S A 𝕜} (I : Inv env m s0 dp tm st h)
    (F : DpInv env m px py st h) (D : DpBnd m px py lo hi st) (E : Eff env m alg st w e st') : DpBnd m px py lo hi st' := by
  constructor
  · intro d nd' hd'
    rcases dn_chg E hd' with ⟨nd, hd, hchg⟩ | ⟨rfl, ht, s, dep, tim, rfl⟩
    · have K := D.d d nd hd
      cases hchg with
      | same he => exact K
      | selOld hl ha hf => simpa only [H.visitD, dpVisit, Bool.false_eq_true, if_false] using K
      | selNew hl ha hf => simpa only [H.visitD, dpVisit, Bool.false_eq_true, if_false] using K
      | ended =>
        simp only [H.visitD, dpVisit]
        split <;> exact K
      | @backed w' args =>
        intro v hv
        simp only [H.backupD] at hv
        obtain ⟨_, nodes, nd0, hw, _⟩ := eff_backedD E
        obtain ⟨nd1, a, c, nc, k1, k2, k3, k4⟩ := backD_kid I hw
        rw [hd] at k1
        obtain rfl := Option.some.inj k1
        obtain ⟨v', hv', hbest⟩ := dpBackupD_best (viewOf env m st nd).opp ((viewOf env m st nd).kids.map fun k => py k.2.2)
          (px (viewOf env m st nd).x) (by
            intro k hk
            obtain ⟨q, hq, rfl⟩ := List.mem_map.1 hk
            obtain ⟨c', nc', _, g2, g3⟩ := mem_kidsY.1 hq
            rw [g3]
            exact (F.c c' nc' g2).2) (by
            refine ⟨py nc.y, List.mem_map.2 ⟨(a, nc.visits, nc.y), mem_kidsY.2 ⟨c, nc, k2, k3, rfl⟩, rfl⟩, ?_⟩
            rw [(F.c c nc k3).1]
            simpa using k4)
        rw [hv'] at hv
        obtain rfl := Option.some.inj hv
        obtain ⟨k, hk, _, hval⟩ := ((best_iff _ _ _).1 hbest).1
        obtain ⟨q, hq, rfl⟩ := List.mem_map.1 hk
        obtain ⟨c', nc', g1, g2, g3⟩ := mem_kidsY.1 hq
        rw [g3] at hval
        have := D.c c' nc' g2 _ hval
        obtain ⟨n, e1, _, _, e2, _⟩ := I.tree.heap.dKid d nd.skel _ c' (by simp [hd]) g1
        simp only [List.getElem?_map, g2, Option.map_some, Option.some.injEq] at e1
        subst e1
        rw [show nd.depth = nc'.depth from e2.symm]
        exact this
    · intro v hv
      simp only [newD, H.initD, dpInitD, Option.some.injEq] at hv
      subst hv
      exact (Within.one (hb.heur s)).mono hb.lo0 hb.hi0 (by omega)
  · intro c nc' hc'
    rcases cn_chg E hc' with ⟨nc, hc, hchg⟩ | ⟨rfl, ht, nd, a, rfl⟩
    · have K := D.c c nc hc
      cases hchg with
      | same he => exact K
      | stepped ho hk => simpa only [H.visitC] using K
      | @backed w' args =>
        intro v hv
        simp only [H.backupC] at hv
        obtain ⟨l, hl, hl2⟩ := finiteKids_spec ((kidsX st nc).map fun k => px k.2) (by
          intro k hk
          obtain ⟨q, hq, rfl⟩ := List.mem_map.1 hk
          obtain ⟨d', nd', _, g2, g3⟩ := mem_kidsX.1 hq
          rw [g3]
          exact (F.d d' nd' g2).2)
        simp only [dpBackupC, hl, Option.map_some, Option.some.injEq, meanLoop_eq] at hv
        obtain ⟨i, dS, e1, e2⟩ := I.tree.heap.cPar c nc.skel (by simp [hc])
        obtain ⟨n, f1, f2, f3, f4, _⟩ := I.tree.heap.dKid i dS _ c e1 e2
        simp only [List.getElem?_map, hc, Option.map_some, Option.some.injEq] at f1
        subst f1
        have hact := I.tree.heap.dAct i dS _ c e1 e2
        rw [← f2] at hact
        have hleaf : leafS env m dS = false := by
          refine Bool.eq_false_iff.2 fun hc => ?_
          have := I.tree.heap.dLeaf i dS e1 hc
          rw [this] at e2
          simp at e2
        have hdep : nc.depth < m.maxDepth := by
          simp only [leafS, Bool.or_eq_false_iff, decide_eq_false_iff_not] at hleaf
          have : nc.depth = dS.depth := f4
          omega
        have hrem : remaining m nc.depth = remaining m (nc.depth + 1) + 1 := by
          unfold remaining; omega
        subst hv
        have hmean : Within lo hi (remaining m nc.depth) (wmean l) := by
          by_cases hex : ∃ p ∈ l, p.1 ≠ 0
          · refine wmean_bounds l _ _ ?_ hex
            intro p hp _
            have : ({ n := p.1, val := some p.2 } : Dp 𝕜) ∈ (kidsX st nc).map fun k => px k.2 := by
              rw [hl2]; exact List.mem_map.2 ⟨p, hp, rfl⟩
            obtain ⟨q, hq, hpq⟩ := List.mem_map.1 this
            obtain ⟨d', nd', g1, g2, g3⟩ := mem_kidsX.1 hq
            rw [g3] at hpq
            have hb' := D.d d' nd' g2 p.2 (by rw [hpq])
            obtain ⟨n2, j1, _, j2, _⟩ := I.tree.heap.cKid c nc.skel _ d' (by simp [hc]) g1
            simp only [List.getElem?_map, g2, Option.map_some, Option.some.injEq] at j1
            subst j1
            rw [hrem, ← show nd'.depth = nc.depth + 1 from j2]
            exact hb'
          · rw [wmean_zero l (by
              intro p hp
              by_contra hne
              exact hex ⟨p, hp, hne⟩)]
            have hz : Within lo hi 0 (0 : 𝕜) := by simp [Within]
            exact hz.mono hb.lo0 hb.hi0 (by omega)
        exact hmean.add (Within.one (hlr nc.state nc.action hact))
    · intro v hv
      simp only [newC, H.initC, dpInitC, Option.some.injEq] at hv
      subst hv
      have hz : Within lo hi 0 (0 : 𝕜) := by simp [Within]
      exact hz.mono hb.lo0 hb.hi0 (by omega)

theorem dpbnd_reach {env : Env S A 𝕜} {m : Manager S 𝕜} {lo hi : 𝕜} (hb : Bounded env m lo hi)
    (hlr : ∀ s a, a ∈ env.actions s → lo ≤ lr s a ∧ lr s a ≤ hi) {alg : Alg S A 𝕜 X Y} (hv : alg.Valid) (H : HasDp alg px py lr)
    {k : Nat} {s0 : S} {dp tm : Int} {tb : List ((Int × S) × Option Nat)} (htb : Leftover tb) {st : St S A 𝕜 X Y} {h : List (Event S A 𝕜)}
    (hr : Reachable env m alg k s0 dp tm tb st h) : DpBnd m px py lo hi st := by
  obtain ⟨ls, hx⟩ := hr
  refine (exec_induct (fun s h => Inv env m s0 dp tm s h ∧ Touch s h ∧ DpInv env m px py s h ∧ DpBnd m px py lo hi s)
    (fun _ _ _ _ _ hp _ E => ⟨inv_eff hv hp.1 E, touch_eff hp.2.1 E, dp_eff H hp.1 hp.2.1 hp.2.2.1 E,
      dpbnd_eff hb hlr H hp.1 hp.2.2.1 hp.2.2.2 E⟩)
    ⟨inv_init env m alg k s0 dp tm tb htb, ⟨by simp, by simp⟩, dp_init H k s0 dp tm tb, ?_⟩ hx).2.2.2
  constructor
  · intro d nd hd
    rcases d with _ | d
    · simp [init] at hd
      subst hd
      intro v hv
      simp only [newD, H.initD, dpInitD, Option.some.injEq] at hv
      subst hv
      exact (Within.one (hb.heur s0)).mono hb.lo0 hb.hi0 (by omega)
    · simp [init] at hd
  · intro c nc hc
    simp [init] at hc

end Verif.Backups
