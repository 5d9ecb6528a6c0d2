import Verif.Proofs.LockRefineAll
import Verif.Proofs.SearchMore
import Verif.Proofs.Live

/-! # Every run at the level of locks is a run of the search -/

namespace Verif.LockLevel

open Verif.Search

set_option linter.unusedSimpArgs false
set_option linter.unusedSectionVars false

variable {S A R X Y X' Y' : Type} [DecidableEq S] [DecidableEq A] [AddMonoid R]
variable {env : Env S A R} {m : Manager S R} {hash : Int × S → Nat} {code : Code S A R X Y} {alg : Alg S A R X Y} {alg' : Alg S A R X' Y'}
  {π : X → X'} {ρ : Y → Y'} {jD jC : Nat} {f f' : FSt S A R X Y} {s s' : St S A R X' Y'} {w : Nat} {e : Option (Event S A R)}
  {k : Nat} {s0 : S} {dp tm : Int} {tb : List ((Int × S) × Option Nat)} {h h' : List (Event S A R)}

theorem inv_kidD (J : Inv env m s0 dp tm s h) (i : Nat) (nd' : DNode S A R X') (k : A × Nat) (hd : s.dn[i]? = some nd') (hk : k ∈ nd'.kids) :
    k.2 < s.cn.length := by
  obtain ⟨n, h1, -⟩ := J.tree.heap.dKid i nd'.skel k.1 k.2 (by simp [hd]) hk
  have := (List.getElem?_eq_some_iff.1 h1).1
  simpa using this

theorem inv_kidC (J : Inv env m s0 dp tm s h) (i : Nat) (nc' : CNode S A R Y') (k : S × Nat) (hd : s.cn[i]? = some nc') (hk : k ∈ nc'.kids) :
    k.2 < s.dn.length := by
  obtain ⟨n, h1, -⟩ := J.tree.heap.cKid i nc'.skel k.1 k.2 (by simp [hd]) hk
  have := (List.getElem?_eq_some_iff.1 h1).1
  simpa using this

theorem no_dangling (J : Inv env m s0 dp tm s h) (hc : Cause m s w .dangling) : False := by
  rcases cause_cases J hc with ⟨h, -⟩ | ⟨h, -⟩ <;> cases h

/-- If the program dies then so does the search, in the same way, and the worker has no event to come. -/
theorem crash_sim (hm : m.useTable = true → m.numMutexes ≤ 1) (J : Inv env m s0 dp tm s h)
    (I : LInv env m code f) (H : Rel env m code alg alg' π ρ jD jC f s) {x : Err} (hc : FCause env m f w x) :
    (∃ ch, step env m alg' s w ch = some ({ s with crashed := some x }, .crash w x)) ∧ ∀ pc, f.ws[w]? = some pc → pendE jD jC w pc = [] := by
  have hdn : ∀ {i}, ¬ i < f.dn.length → s.dn[i]? = none := fun h => by simp [H.dlen]; omega
  have hcn : ∀ {i}, ¬ i < f.cn.length → s.cn[i]? = none := fun h => by simp [H.clen]; omega
  have hsc : s.crashed = none := H.crashed
  have holds_valid : ∀ {pc l}, f.ws[w]? = some pc → l ∈ holds pc → Valid f l := fun h1 h2 => I.valid _ w (I.own w _ h1 _ h2)
  cases hc with
  | @outside p l hw hl hv hb =>
    have hph := H.ws w _ hw
    exfalso
    cases p with
    | idle => simp [lkOf] at hl
    | sel cur path rs new =>
      simp [lkOf] at hl; subst hl
      exact no_dangling J (.sel hph (hdn hv))
    | samp cur a c path rs new =>
      simp [lkOf] at hl; subst hl
      exact no_dangling J (.samp hph (.inl (hcn hv)))
    | back nodes before after ret tot =>
      simp only [lkOf] at hl
      cases hn : nodes.getLast? with
      | none => simp [hn] at hl
      | some p =>
        simp [hn] at hl; subst hl
        exact no_dangling J (.backC hph hn (hcn hv))
    | backD d nodes before after ret tot =>
      simp [lkOf] at hl; subst hl
      exact no_dangling J (.backD hph (hdn hv))
  | empty hw =>
    have hph := H.ws w _ hw
    rcases cause_cases J (.backV hph (by simp) rfl) with ⟨h, -⟩ | ⟨h, -⟩ <;> cases h
  | lost hw hl hv => exact absurd (holds_valid hw hl) hv
  | @kidD p snaps held k todo hw hv =>
    exfalso
    obtain ⟨h1, d, nd, h2, h3, h4⟩ := I.ok w _ hw
    obtain ⟨nd', h3'⟩ := dn_get H h3
    have hrel := H.down d nd nd' h3 h3' w _ hw (by simp [holds, lkOf_nodeD h2])
    have hkids : nd'.kids = nd.kids := by
      simp only [dRel] at hrel
      cases p <;> simp only [dBlk] at hrel
      · rw [hrel]; rfl
      · split at hrel
        · obtain ⟨nd0, rfl, rfl, -⟩ := hrel; rfl
        · rw [hrel]; rfl
      · rw [hrel]; rfl
      · rw [hrel]; rfl
      · split at hrel
        · obtain ⟨kids, -, rfl⟩ := hrel; rfl
        · rw [hrel]; rfl
    have hk : k ∈ (kidsToRead env m code f w p nd).map fun k => k.2 := h4.subset (by simp)
    obtain ⟨y, hy, rfl⟩ := List.mem_map.1 hk
    have hy' : y ∈ nd.kids := by
      cases p <;> simp only [kidsToRead] at hy <;> first | exact hy | exact (List.mem_filter.1 hy).1
    have := inv_kidD J d nd' y h3' (by rw [hkids]; exact hy')
    rw [H.clen] at this
    exact hv this
  | @kidC p snaps held k todo hw hv =>
    exfalso
    obtain ⟨h1, nodes, d, c, before, r, after, ret, tot, nc, rfl, h3, h4⟩ := I.ok w _ hw
    obtain ⟨nc', h3'⟩ := cn_get H h3
    have hrel := H.cown c nc nc' h3 h3' w _ hw (by simp [holds, lkOf])
    have hkids : nc'.kids = nc.kids := by
      simp only [cRel, cBlk_back] at hrel
      split at hrel
      · obtain ⟨kids, -, rfl⟩ := hrel; rfl
      · rw [hrel]; rfl
    have hk : k ∈ nc.kids.map fun k => k.2 := h4.subset (by simp)
    obtain ⟨y, hy, rfl⟩ := List.mem_map.1 hk
    have := inv_kidC J c nc' y h3' (by rw [hkids]; exact hy)
    rw [H.dlen] at this
    exact hv this
  | @readD p snaps held acc a k todo hw hv =>
    exfalso
    obtain ⟨h1, d, nd, done, h2, h3, h4, h5, h6⟩ := I.ok w _ hw
    have := h5 (a, k) (by rw [h4]; simp)
    exact hv (holds_valid (l := .c k) hw (by simp [holds]; exact .inr this))
  | @readC p snaps held acc a k todo hw hv =>
    exfalso
    obtain ⟨h1, nodes, d, c, before, r, after, ret, tot, nc, done, rfl, h3, h4, h5, h6⟩ := I.ok w _ hw
    have := h5 (a, k) (by rw [h4]; simp)
    exact hv (holds_valid (l := .d k) hw (by simp [holds]; exact .inr this))
  | @noMutex cur a c path rs new nc o hw hc ho hf ht h0 =>
    have hph := H.ws w _ hw
    obtain ⟨nc', hc'⟩ := cn_get H hc
    have hrel := H.cown c nc nc' hc hc' w _ hw (by simp [holds, lkOf])
    simp only [cRel, cSamp, if_true] at hrel
    obtain ⟨nc0, rfl, rfl⟩ := hrel
    refine ⟨⟨.obs o, ?_⟩, ?_⟩
    · have hcur : ∃ nd, s.dn[cur]? = some nd := by
        cases hcd : s.dn[cur]? with
        | some nd => exact ⟨nd, rfl⟩
        | none => exact (no_dangling J (.samp hph (.inr hcd))).elim
      obtain ⟨nd, hcur⟩ := hcur
      have ho' : o ∈ env.succ nc0.state nc0.action := ho
      have hf' : find? o nc0.kids = none := hf
      simp [step, hsc, hph, absPhase, blockC, hc', hcur, mapC, ho', createD, hf', ht, h0, Verif.Search.crash]
    · intro pc h; rw [hw] at h; simp at h; subst h; rfl
  | @weak cur a c path rs new nc o j hw hc hx =>
    have hph := H.ws w _ hw
    obtain ⟨cur1, a1, c1, path1, rs1, new1, nc1, he, hc1, ho, hf, hu, hm0⟩ := I.ok w _ hw
    cases he
    rw [hc] at hc1; simp at hc1; subst hc1
    obtain ⟨htab, -⟩ := tab_table hm I H hw
    obtain ⟨nc', hc'⟩ := cn_get H hc
    have hrel := H.cown c nc nc' hc hc' w _ hw (by simp [holds, lkOf])
    simp only [cRel, cSamp, if_true] at hrel
    obtain ⟨nc0, rfl, rfl⟩ := hrel
    refine ⟨⟨.obs o, ?_⟩, ?_⟩
    · have hcur : ∃ nd, s.dn[cur]? = some nd := by
        cases hcd : s.dn[cur]? with
        | some nd => exact ⟨nd, rfl⟩
        | none => exact (no_dangling J (.samp hph (.inr hcd))).elim
      obtain ⟨nd, hcur⟩ := hcur
      have ho' : o ∈ env.succ nc0.state nc0.action := ho
      have hf' : find? o nc0.kids = none := hf
      have hx' : find? (nc0.time, o) s.table = some none := by rw [htab]; exact hx
      simp [step, hsc, hph, absPhase, blockC, hc', hcur, mapC, ho', createD, hf', hu, hm0, hx', Verif.Search.crash]
    · intro pc h; rw [hw] at h; simp at h; subst h; rfl
  | @cur pc cur a c path rs new hw hpc hd =>
    exfalso
    have hph : s.ws[w]? = some (.samp cur a c path rs new) := by
      rw [H.ws w _ hw]
      rcases hpc with rfl | ⟨o, j, rfl⟩ <;> rfl
    refine no_dangling J (.samp hph (.inr (hdn ?_)))
    simpa using hd

/-- The event of worker `w` that the search has seen already. -/
def pendOf (jD jC : Nat) (f : FSt S A R X Y) (w : Nat) : List (Event S A R) := ((f.ws[w]?).map (pendE jD jC w)).getD []

theorem eventsOf_self (h : List (Event S A R)) {ev : Event S A R} (he : ev.worker = w) : eventsOf w (ev :: h) = ev :: eventsOf w h := by
  simp [eventsOf, he]

theorem eventsOf_other (h : List (Event S A R)) {ev : Event S A R} {v : Nat} (he : ev.worker = w) (hv : v ≠ w) :
    eventsOf v (ev :: h) = eventsOf v h := by
  simp [eventsOf, he, Ne.symm hv]

theorem step_worker {ch : Choice S A} {ev : Event S A R} (hs : step env m alg' s w ch = some (s', ev)) : ev.worker = w :=
  eff_worker (step_eff hs).2

theorem rel_init (hS : Simulates alg code alg' π ρ jD jC) :
    Rel env m code alg alg' π ρ jD jC (finit env m alg k s0 dp tm tb) (init env m alg' k s0 dp tm tb) := by
  have hD : newD env m alg' s0 dp tm = mapD π (newD env m alg s0 dp tm) := by simp [newD, mapD, hS.initVisits, hS.initD]
  have key : ∀ (w : Nat) pc, (finit env m alg k s0 dp tm tb).ws[w]? = some pc → pc = .out .idle ∧ w < k := by
    intro w pc h
    simp only [finit, List.getElem?_replicate] at h
    split at h
    · simp at h; exact ⟨h.symm, by assumption⟩
    · simp at h
  refine ⟨rfl, rfl, rfl, by simp [init, finit], ?_, rfl, rfl, ?_, ?_, ?_, ?_, fun _ => rfl, ?_⟩
  · intro w pc h
    obtain ⟨rfl, hk⟩ := key w pc h
    simp [init, List.getElem?_replicate, hk, absPhase]
  · intro i nd nd' h h' _
    simp only [finit, init] at h h'
    cases i with
    | zero => simp at h h'; subst h; subst h'; exact hD
    | succ i => simp at h
  · intro i nd nd' h h' w pc hw hl
    obtain ⟨rfl, -⟩ := key w pc hw
    simp [holds] at hl
  · intro i nd nd' h; simp [finit] at h
  · intro i nd nd' h; simp [finit] at h
  · intro w pc hw hl
    obtain ⟨rfl, -⟩ := key w pc hw
    simp [holds] at hl

/-- What is kept. -/
structure Main (env : Env S A R) (m : Manager S R) (code : Code S A R X Y) (alg : Alg S A R X Y) (alg' : Alg S A R X' Y') (π : X → X') (ρ : Y → Y')
    (jD jC k : Nat) (s0 : S) (dp tm : Int) (tb : List ((Int × S) × Option Nat)) (f : FSt S A R X Y) (h : List (Event S A R)) : Prop where
  alive : f.crashed = none → LInv env m code f ∧ ∃ s h', Reachable env m alg' k s0 dp tm tb s h' ∧ Rel env m code alg alg' π ρ jD jC f s ∧
    (∀ w, eventsOf w h' = pendOf jD jC f w ++ eventsOf w h) ∧ (code.nD ≤ jD + 1 → code.nC ≤ jC + 1 → h' = h)
  dead : ∀ x, f.crashed = some x → ∃ s h', Reachable env m alg' k s0 dp tm tb s h' ∧ s.crashed = some x ∧
    (∀ w, ∃ l, eventsOf w h' = l ++ eventsOf w h) ∧ (code.nD ≤ jD + 1 → code.nC ≤ jC + 1 → h' = h)

theorem pendOf_at {pc : Pc S A R X Y} (h : f.ws[w]? = some pc) : pendOf jD jC f w = pendE jD jC w pc := by simp [pendOf, h]

theorem pendOf_other {pc' : Pc S A R X Y} (hw' : f'.ws = f.ws.set w pc') {v : Nat} (hv : v ≠ w) : pendOf jD jC f' v = pendOf jD jC f v := by
  simp [pendOf, hw', List.getElem?_set_ne (Ne.symm hv)]

theorem pendE_worker {pc : Pc S A R X Y} {ev : Event S A R} (h : ev ∈ pendE jD jC w pc) : ev.worker = w := by
  have hD : ∀ p : Phase S A R, ev ∈ evD w p → ev.worker = w := by
    intro p h; cases p <;> simp [evD] at h; subst h; rfl
  have hC : ∀ p : Phase S A R, ev ∈ evC w p → ev.worker = w := by
    intro p h
    cases p <;> simp only [evC, List.not_mem_nil] at h
    split at h
    · simp at h; subst h; rfl
    · simp at h
  cases pc <;> simp only [pendE, List.not_mem_nil] at h <;> split at h <;> first | exact hD _ h | exact hC _ h | simp at h

theorem eff_alive (E : FEff env m hash alg code f w e f') :
    (∃ x, f' = { f with crashed := some x } ∧ FCause env m f w x ∧ e = some (.crash w x)) ∨ f'.crashed = f.crashed := by
  cases E with
  | @crash x h => exact .inl ⟨_, rfl, h, rfl⟩
  | @post next act acts hw => exact .inr (doAct_ws f act).2.2.2
  | _ => exact .inr rfl

theorem main_step (hS : Simulates alg code alg' π ρ jD jC) (hm : m.useTable = true → m.numMutexes ≤ 1) (hv : alg'.Valid) (htb : Leftover tb)
    (P : Main env m code alg alg' π ρ jD jC k s0 dp tm tb f h) (hcr : f.crashed = none) (E : FEff env m hash alg code f w e f') :
    Main env m code alg alg' π ρ jD jC k s0 dp tm tb f' (e.toList ++ h) := by
  obtain ⟨I, s, h', hr, H, hev, hsame⟩ := P.alive hcr
  have J := (reach_both hv htb hr).1
  rcases eff_alive E with ⟨x, rfl, hcause, rfl⟩ | hal
  · refine ⟨by simp, ?_⟩
    intro x' hx'
    simp at hx'; subst hx'
    obtain ⟨⟨ch, hst⟩, hp⟩ := crash_sim hm J I H hcause
    refine ⟨_, _, reach_snoc hr hst, rfl, ?_, ?_⟩
    · intro v
      by_cases hvw : v = w
      · subst hvw
        refine ⟨[], ?_⟩
        have : pendOf jD jC f v = [] := by
          cases hw : f.ws[v]? with
          | none => simp [pendOf, hw]
          | some pc => rw [pendOf_at hw]; exact hp pc hw
        simp only [Option.toList, List.singleton_append, List.nil_append]
        rw [eventsOf_self (w := v) h' rfl, eventsOf_self (w := v) h rfl, hev, this]; rfl
      · refine ⟨pendOf jD jC f v, ?_⟩
        simp only [Option.toList, List.singleton_append]
        rw [eventsOf_other (w := w) _ rfl hvw, eventsOf_other (w := w) _ rfl hvw, hev]
    · intro h1 h2; rw [hsame h1 h2]; rfl
  · rw [hcr] at hal
    refine ⟨fun _ => ⟨linv_eff I E, ?_⟩, by simp [hal]⟩
    have hO := sim hS hm (inv_kidD J) I H E hal
    obtain ⟨pc, pc', C, -⟩ := (eff_chg I E).resolve_left (by rintro ⟨x, rfl, -⟩; simp at hal)
    have hw := C.before
    have hw' := C.after
    have hself : f'.ws[w]? = some pc' := by rw [hw']; exact List.getElem?_set_self (List.getElem?_eq_some_iff.1 hw).1
    cases hO with
    | same he H' hp =>
      subst he
      refine ⟨s, h', hr, H', ?_, hsame⟩
      intro v
      by_cases hvw : v = w
      · subst hvw; rw [hev, pendOf_at hw, pendOf_at hself, hp pc pc' hw hw']; rfl
      · rw [hev, pendOf_other hw' hvw]; rfl
    | @sync ev s' he hs H' hp =>
      subst he
      obtain ⟨ch, hs⟩ := hs
      have hwk := step_worker hs
      refine ⟨s', _, reach_snoc hr hs, H', ?_, fun h1 h2 => by rw [hsame h1 h2]; rfl⟩
      intro v
      simp only [Option.toList, List.singleton_append]
      obtain ⟨p1, p2⟩ := hp pc pc' hw hw'
      by_cases hvw : v = w
      · subst hvw; rw [eventsOf_self h' hwk, eventsOf_self h hwk, hev, pendOf_at hw, pendOf_at hself, p1, p2]; rfl
      · rw [eventsOf_other h' hwk hvw, eventsOf_other h hwk hvw, hev, pendOf_other hw' hvw]
    | @early ev s' he hs H' hp hmul =>
      subst he
      obtain ⟨ch, hs⟩ := hs
      have hwk := step_worker hs
      refine ⟨s', _, reach_snoc hr hs, H', ?_, fun h1 h2 => by omega⟩
      intro v
      simp only [Option.toList, List.nil_append]
      obtain ⟨p1, p2⟩ := hp pc pc' hw hw'
      by_cases hvw : v = w
      · subst hvw; rw [eventsOf_self h' hwk, hev, pendOf_at hw, pendOf_at hself, p1, p2]; rfl
      · rw [eventsOf_other h' hwk hvw, hev, pendOf_other hw' hvw]
    | @late ev he H' hp hmul =>
      subst he
      refine ⟨s, h', hr, H', ?_, fun h1 h2 => by omega⟩
      intro v
      simp only [Option.toList, List.singleton_append]
      obtain ⟨p1, p2⟩ := hp pc pc' hw hw'
      have hwk : ev.worker = w := pendE_worker (by rw [p2]; simp)
      by_cases hvw : v = w
      · subst hvw
        rw [eventsOf_self h hwk, hev, pendOf_at hw, pendOf_at hself, p1, p2]; rfl
      · rw [eventsOf_other h hwk hvw, hev, pendOf_other hw' hvw]

theorem main_init (hS : Simulates alg code alg' π ρ jD jC) :
    Main env m code alg alg' π ρ jD jC k s0 dp tm tb (finit env m alg k s0 dp tm tb) [] := by
  refine ⟨fun _ => ⟨linv_init .., _, [], ⟨[], rfl⟩, rel_init hS, ?_, fun _ _ => rfl⟩, by simp [finit]⟩
  intro w
  simp only [pendOf, finit, List.getElem?_replicate]
  split <;> rfl

theorem main_reach (hS : Simulates alg code alg' π ρ jD jC) (hm : m.useTable = true → m.numMutexes ≤ 1) (hv : alg'.Valid) (htb : Leftover tb)
    (hr : FReachable env m hash alg code k s0 dp tm tb f h) : Main env m code alg alg' π ρ jD jC k s0 dp tm tb f h := by
  obtain ⟨ls, hx⟩ := hr
  exact fexec_induct (P := Main env m code alg alg' π ρ jD jC k s0 dp tm tb)
    (fun f h w e f' P hc E => main_step hS hm hv htb P hc E) ls _ _ _ _ (main_init hS) hx

theorem quiet_eq (I : LInv env m code f) (H : Rel env m code alg alg' π ρ jD jC f s) (hcr : f.crashed = none) (hq : Quiet f) :
    s = quietState π ρ f := by
  have hfree : ∀ l, f.lock l = none := by
    intro l
    cases hl : f.lock l with
    | none => rfl
    | some v =>
      obtain ⟨pc, h1, h2⟩ := I.only l v hl
      obtain ⟨q, rfl⟩ := hq v pc h1
      simp [holds] at h2
  obtain ⟨root, dn, cn, table, ws, ctxs, crashed⟩ := s
  simp only [quietState, St.mk.injEq]
  refine ⟨H.root, ?_, ?_, H.tfree (hfree _), ?_, H.ctxs, by rw [hcr]; exact H.crashed⟩
  · apply List.ext_getElem?
    intro i
    rw [List.getElem?_map]
    cases hd : f.dn[i]? with
    | none => have := H.dlen; simp at hd this ⊢; omega
    | some nd =>
      obtain ⟨nd', hd'⟩ := dn_get H hd
      have := H.dfree i nd nd' hd hd' (hfree _)
      simp at hd'
      rw [hd', this]; rfl
  · apply List.ext_getElem?
    intro i
    rw [List.getElem?_map]
    cases hd : f.cn[i]? with
    | none => have := H.clen; simp at hd this ⊢; omega
    | some nd =>
      obtain ⟨nd', hd'⟩ := cn_get H hd
      have := H.cfree i nd nd' hd hd' (hfree _)
      simp at hd'
      rw [hd', this]; rfl
  · have key : ∀ (l : List (Pc S A R X Y)) (l' : List (Phase S A R)), (∀ (w : Nat) pc, l[w]? = some pc → ∃ q, pc = .out q) → l'.length = l.length →
        (∀ (w : Nat) pc, l[w]? = some pc → l'[w]? = some (absPhase jD jC pc)) → l' = l.filterMap Pc.between := by
      intro l
      induction l with
      | nil => intro l' _ h _; simp at h; subst h; rfl
      | cons p l ih =>
        intro l' h1 h2 h3
        cases l' with
        | nil => simp at h2
        | cons p' l' =>
          obtain ⟨q, rfl⟩ := h1 0 p rfl
          have e := h3 0 _ rfl
          simp [absPhase] at e; subst e
          simp only [List.filterMap_cons, Pc.between, List.cons.injEq, true_and]
          exact ih l' (fun w pc h => h1 (w + 1) pc h) (by simpa using h2) (fun w pc h => by simpa using h3 (w + 1) pc h)
    exact key f.ws ws hq H.wlen H.ws

end Verif.LockLevel
