import Verif.Proofs.LockReach

/-! # Which children's locks a worker holds -/

namespace Verif.LockLevel

open Verif.Search

set_option linter.unusedSimpArgs false
set_option linter.unusedSectionVars false

variable {S A R X Y : Type} [DecidableEq S] [DecidableEq A] [Add R] [Zero R]

/-- The locks held apart from that of the node itself are those of children of the node; a worker in a block has a node. -/
def HeldOk (f : FSt S A R X Y) : Pc S A R X Y → Prop
  | .own p => (lkOf p).isSome
  | .lockD p _ held _ | .readD p _ held _ _ | .relD p _ held => ∃ d nd, nodeD p = some d ∧ f.dn[d]? = some nd ∧ ∀ k ∈ held, k ∈ nd.kids.map fun q => q.2
  | .lockC p _ held _ | .readC p _ held _ _ | .relC p _ held => ∃ nodes d c before r after ret tot nc,
      p = .back (nodes ++ [(d, c)]) (before ++ [r]) after ret tot ∧ f.cn[c]? = some nc ∧ ∀ k ∈ held, k ∈ nc.kids.map fun q => q.2
  | _ => True

variable {env : Env S A R} {m : Manager S R} {hash : Int × S → Nat} {alg : Alg S A R X Y} {code : Code S A R X Y}
  {f f' : FSt S A R X Y} {w : Nat} {e : Option (Event S A R)}

theorem nodeD_lk {p : Phase S A R} {d : Nat} (h : nodeD p = some d) : lkOf p = some (.d d) := by
  cases p <;> simp_all [nodeD, lkOf]

theorem heldOk_frame {pc : Pc S A R X Y} (h : HeldOk f pc) (hd : ∀ i nd, Lk.d i ∈ holds pc → f.dn[i]? = some nd → f'.dn[i]? = some nd)
    (hc : ∀ i nc, Lk.c i ∈ holds pc → f.cn[i]? = some nc → f'.cn[i]? = some nc) : HeldOk f' pc := by
  cases pc with
  | own p => exact h
  | lockD p _ held _ | readD p _ held _ _ | relD p _ held =>
    obtain ⟨d, nd, h1, h2, h3⟩ := h
    exact ⟨d, nd, h1, hd d nd (by simp [holds, nodeD_lk h1]) h2, h3⟩
  | lockC p _ held _ | readC p _ held _ _ | relC p _ held =>
    obtain ⟨nodes, d, c, before, r, after, ret, tot, nc, h1, h2, h3⟩ := h
    subst h1
    exact ⟨nodes, d, c, before, r, after, ret, tot, nc, rfl, hc c nc (by simp [holds, lkOf]) h2, h3⟩
  | _ => trivial

theorem kidsToRead_sub {k : A × Nat} {p : Phase S A R} {nd : DNode S A R X} (h : k ∈ kidsToRead env m code f w p nd) : k ∈ nd.kids := by
  unfold kidsToRead at h
  split at h
  · exact (List.mem_filter.1 h).1
  · exact h

/-- The worker that takes the step. -/
theorem heldOk_self (I : LInv env m code f) (hH : ∀ (v : Nat) pc, f.ws[v]? = some pc → HeldOk f pc) (E : FEff env m hash alg code f w e f')
    (pc' : Pc S A R X Y) (hw' : f'.ws[w]? = some pc') : HeldOk f' pc' := by
  have at' : ∀ {f0 : FSt S A R X Y} {pc pc0 : Pc S A R X Y}, f.ws[w]? = some pc → f0.ws = f.ws.set w pc0 → f0.ws[w]? = some pc' → pc' = pc0 := by
    intro f0 pc pc0 h1 h2 h3
    rw [h2, List.getElem?_set_self (List.getElem?_eq_some_iff.1 h1).1] at h3
    exact (Option.some.inj h3).symm
  cases E with
  | crash => exact heldOk_frame (hH w pc' hw') (fun _ _ _ h => h) (fun _ _ _ h => h)
  | @post next act acts hw =>
    have := at' (pc0 := .post next acts) hw (by simp [FSt.setW, doAct_ws]) hw'
    subst this; trivial
  | enter hw hl =>
    have := at' hw rfl hw'
    subst this; simp [HeldOk, hl]
  | startSel hw hd hk =>
    have := at' hw rfl hw'
    subst this; exact ⟨_, _, rfl, hd, by simp⟩
  | startD hw hd hpc hk =>
    have := at' hw rfl hw'
    subst this; exact ⟨_, _, rfl, hd, by simp⟩
  | @lockD p snaps held k todo hw hv hf =>
    have := at' hw rfl hw'
    subst this
    obtain ⟨d, nd, h1, h2, h3⟩ := hH w _ hw
    refine ⟨d, nd, h1, h2, ?_⟩
    obtain ⟨-, d', nd', g1, g2, g3⟩ := I.ok w _ hw
    rw [h1] at g1; obtain rfl := Option.some.inj g1
    rw [h2] at g2; obtain rfl := Option.some.inj g2
    intro x hx
    rcases List.mem_append.1 hx with hx | hx
    · exact h3 x hx
    · have : x ∈ (kidsToRead env m code f w p nd).map fun k => k.2 := g3.subset (by simp at hx; simp [hx])
      obtain ⟨q, hq, rfl⟩ := List.mem_map.1 this
      exact List.mem_map.2 ⟨q, kidsToRead_sub hq, rfl⟩
  | readySel hw hd =>
    have := at' hw rfl hw'
    subst this; exact hH w _ hw
  | readyD hw hd =>
    have := at' hw rfl hw'
    subst this; exact hH w _ hw
  | readD hw =>
    have := at' hw rfl hw'
    subst this; exact hH w _ hw
  | snapD hw hd =>
    have := at' hw rfl hw'
    subst this; exact hH w _ hw
  | relD hw =>
    have := at' hw rfl hw'
    subst this
    obtain ⟨d, nd, h1, h2, h3⟩ := hH w _ hw
    exact ⟨d, nd, h1, h2, fun k hk => h3 k (by simp [hk])⟩
  | startC hw hc hpc hk =>
    have := at' hw rfl hw'
    subst this; exact ⟨_, _, _, _, _, _, _, _, _, rfl, hc, by simp⟩
  | @lockC p snaps held k todo hw hv hf =>
    have := at' hw rfl hw'
    subst this
    obtain ⟨nodes, d, c, before, r, after, ret, tot, nc, rfl, h2, h3⟩ := hH w _ hw
    refine ⟨nodes, d, c, before, r, after, ret, tot, nc, rfl, h2, ?_⟩
    obtain ⟨-, nodes', d', c', before', r', after', ret', tot', nc', g1, g2, g3⟩ := I.ok w _ hw
    simp only [Phase.back.injEq, List.append_eq_nil_iff] at g1
    obtain ⟨g1, -⟩ := g1
    obtain ⟨-, g1⟩ := List.append_inj' g1 rfl
    simp at g1
    obtain ⟨-, rfl⟩ := g1
    rw [h2] at g2; obtain rfl := Option.some.inj g2
    intro x hx
    rcases List.mem_append.1 hx with hx | hx
    · exact h3 x hx
    · exact g3.subset (by simp at hx; simp [hx])
  | readyC hw hd =>
    have := at' hw rfl hw'
    subst this; exact hH w _ hw
  | readC hw =>
    have := at' hw rfl hw'
    subst this; exact hH w _ hw
  | snapC hw hd =>
    have := at' hw rfl hw'
    subst this; exact hH w _ hw
  | relC hw =>
    have := at' hw rfl hw'
    subst this
    obtain ⟨nodes, d, c, before, r, after, ret, tot, nc, h1, h2, h3⟩ := hH w _ hw
    exact ⟨nodes, d, c, before, r, after, ret, tot, nc, h1, h2, fun k hk => h3 k (by simp [hk])⟩
  | began hw | completed hw | leave hw | visit hw | ended hw | selOld hw | selNew hw | backedD hw | visitC hw | stepOld hw | stepNew hw | wantTable hw
    | tabHit hw | tabMiss hw | backedC hw =>
    have := at' hw rfl hw'
    subst this; trivial

theorem heldOk_reach {k : Nat} {s0 : S} {dp tm : Int} {tb : List ((Int × S) × Option Nat)} {h : List (Event S A R)}
    (hr : FReachable env m hash alg code k s0 dp tm tb f h) (v : Nat) (pc : Pc S A R X Y) (hv : f.ws[v]? = some pc) : HeldOk f pc := by
  obtain ⟨ls, hr⟩ := hr
  refine (fexec_induct (hash := hash) (alg := alg) (P := fun f _ => LInv env m code f ∧ ∀ (v : Nat) pc, f.ws[v]? = some pc → HeldOk f pc) ?_ ls _ _ _ _
    ⟨linv_init env m alg code k s0 dp tm tb, ?_⟩ hr).2 v pc hv
  · rintro f h w e f' ⟨I, hH⟩ hc E
    refine ⟨linv_eff I E, ?_⟩
    rcases eff_chg I E with ⟨x, rfl, -⟩ | ⟨pc, pc', C, -⟩
    · exact fun v pc hv => heldOk_frame (hH v pc hv) (fun _ _ _ h => h) (fun _ _ _ h => h)
    · intro v pcv hv
      by_cases hvw : v = w
      · subst hvw
        exact heldOk_self I hH E pcv hv
      · have hv' : f.ws[v]? = some pcv := by
          rw [C.after, List.getElem?_set_ne (Ne.symm hvw)] at hv; exact hv
        have hex : ∀ l, l ∈ holds pcv → l ∉ holds pc := by
          intro l h1 h2
          have g1 := I.own v pcv hv' l h1
          have g2 := I.own w pc C.before l h2
          rw [g1] at g2
          exact hvw (Option.some.inj g2)
        exact heldOk_frame (hH v pcv hv') (fun i nd h1 h2 => C.dn i nd h2 (hex _ h1)) (fun i nc h1 h2 => C.cn i nc h2 (hex _ h1))
  · intro v pc hv
    simp only [finit, List.getElem?_replicate] at hv
    split at hv
    · simp at hv; subst hv; trivial
    · simp at hv

end Verif.LockLevel
