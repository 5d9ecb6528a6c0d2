import Verif.Proofs.LockRefineC

/-! # Every step at the level of locks is simulated -/

namespace Verif.LockLevel

open Verif.Search

set_option linter.unusedSimpArgs false
set_option linter.unusedSectionVars false

variable {S A R X Y X' Y' : Type} [DecidableEq S] [DecidableEq A] [Add R] [Zero R]
variable {env : Env S A R} {m : Manager S R} {hash : Int × S → Nat} {code : Code S A R X Y} {alg : Alg S A R X Y} {alg' : Alg S A R X' Y'}
  {π : X → X'} {ρ : Y → Y'} {jD jC : Nat} {f f' : FSt S A R X Y} {s s' : St S A R X' Y'} {w : Nat} {e : Option (Event S A R)}

theorem doAct_ws (f : FSt S A R X Y) (act : Act S X Y A) : (doAct f act).ws = f.ws ∧ (doAct f act).ctxs = f.ctxs ∧ (doAct f act).root = f.root ∧
    (doAct f act).crashed = f.crashed := by
  cases act <;> exact ⟨rfl, rfl, rfl, rfl⟩

theorem doAct_dn (f : FSt S A R X Y) (act : Act S X Y A) (i : Nat) : (doAct f act).dn[i]? = (f.dn[i]?).map (actD i act) := by
  cases act <;> simp only [doAct, FSt.setLock] <;> first
    | (rw [List.getElem?_modify]; rfl)
    | (cases f.dn[i]? <;> rfl)

theorem doAct_cn (f : FSt S A R X Y) (act : Act S X Y A) (i : Nat) : (doAct f act).cn[i]? = (f.cn[i]?).map (actC i act) := by
  cases act <;> simp only [doAct, FSt.setLock] <;> first
    | (rw [List.getElem?_modify]; rfl)
    | (cases f.cn[i]? <;> rfl)

theorem doAct_len (f : FSt S A R X Y) (act : Act S X Y A) : (doAct f act).dn.length = f.dn.length ∧ (doAct f act).cn.length = f.cn.length := by
  cases act <;> simp [doAct, FSt.setLock]

theorem doAct_table (f : FSt S A R X Y) (act : Act S X Y A) (acts : List (Act S X Y A)) (next : Phase S A R) :
    f.table ++ insOf (.post next (act :: acts) : Pc S A R X Y) = (doAct f act).table ++ insOf (.post next acts : Pc S A R X Y) := by
  cases act <;> simp [doAct, FSt.setLock, insOf]

theorem sim_post (hm : m.useTable = true → m.numMutexes ≤ 1)
    (I : LInv env m code f) (H : Rel env m code alg alg' π ρ jD jC f s)
    {next act acts} (hcr : ((doAct f act).setW w (.post next acts)).crashed = none)
    (E : FEff env m hash alg code f w none ((doAct f act).setW w (.post next acts)))
    (hw : f.ws[w]? = some (.post next (act :: acts))) :
    Out env m code alg alg' π ρ jD jC f ((doAct f act).setW w (.post next acts)) s w none := by
  obtain ⟨e1, e2, e3, e4⟩ := doAct_ws f act
  have hctx : ((doAct f act).setW w (.post next acts)).ctxOf w = f.ctxOf w := by simp [FSt.ctxOf, FSt.setW, e2]
  have hw' : ((doAct f act).setW w (.post next acts)).ws = f.ws.set w (.post next acts) := by simp [FSt.setW, e1]
  have ok := I.ok w _ hw
  refine .same rfl ?_ ?_
  · refine rel_parts I E H hm hcr hw hw' (by rw [H.root]; exact e3.symm) (by rw [H.ctxs]; exact e2.symm) H.crashed (ws_same H hw rfl)
      ⟨?_, ?_, ?_, fun _ _ _ _ h => h⟩ ⟨?_, ?_, ?_, fun _ _ _ _ h => h⟩ ?_ ?_
    · rw [H.dlen]; exact (doAct_len f act).1.symm
    · intro i _ nd nd' h1 h2 h3 n n' h4 h5
      have : (doAct f act).dn[i]? = some n := h4
      rw [doAct_dn, h1] at this
      simp at this; subst this
      rw [h2] at h5; simp at h5; subst h5
      exact h3
    · intro i hi n n' h4
      have : (doAct f act).dn[i]? = some n := h4
      have := (List.getElem?_eq_some_iff.1 this).1
      rw [(doAct_len f act).1] at this; omega
    · rw [H.clen]; exact (doAct_len f act).2.symm
    · intro i _ nd nd' h1 h2 h3 n n' h4 h5
      have : (doAct f act).cn[i]? = some n := h4
      rw [doAct_cn, h1] at this
      simp at this; subst this
      rw [h2] at h5; simp at h5; subst h5
      exact h3
    · intro i hi n n' h4
      have : (doAct f act).cn[i]? = some n := h4
      have := (List.getElem?_eq_some_iff.1 this).1
      rw [(doAct_len f act).2] at this; omega
    · intro h
      rw [h]
      exact doAct_table f act acts next
    · intro h
      refine ⟨?_, rfl⟩
      cases act with
      | ins k d =>
        obtain ⟨⟨j, hj⟩, -⟩ := ok
        have hj' : Lk.t j ∈ holds (.post next (.ins k d :: acts) : Pc S A R X Y) := by
          simp only [holds, List.mem_filterMap]
          exact ⟨.rel (.t j), by simp [hj], rfl⟩
        obtain ⟨u, x, e⟩ := I.index j w (I.own w _ hw _ hj')
        have : j = 0 := by rw [e]; have := hm u; unfold mutexIndex; split <;> omega
        subst this
        exact absurd hj' h
      | _ => rfl
  · intro q q' h h'
    obtain ⟨rfl, rfl⟩ := pc_of hw hw' q q' h h'
    rfl

theorem sim (hS : Simulates alg code alg' π ρ jD jC) (hm : m.useTable = true → m.numMutexes ≤ 1)
    (hkid : ∀ (i : Nat) nd' k, s.dn[i]? = some nd' → k ∈ nd'.kids → k.2 < s.cn.length)
    (I : LInv env m code f) (H : Rel env m code alg alg' π ρ jD jC f s) (E : FEff env m hash alg code f w e f') (hcr : f'.crashed = none) :
    Out env m code alg alg' π ρ jD jC f f' s w e := by
  have E0 := E
  cases E with
  | crash h => simp at hcr
  | began hw =>
    have E' := Eff.began (env := env) (m := m) (alg := alg') (H.ws w _ hw)
    refine .sync rfl (do_step H.crashed E' H.crashed (fun _ => .inr (by simp))) ?_ ?_
    · refine rel_parts I E0 H hm hcr hw rfl H.root (by simp [H.ctxs]) H.crashed (by simp [absPhase, H.root])
        (DPart.same H rfl rfl (fun i n n' h => h)) (CPart.same H rfl rfl (fun i n n' h => h)) id (fun _ => ⟨rfl, rfl⟩)
    · intro q q' h h'
      obtain ⟨rfl, rfl⟩ := pc_of hw rfl q q' h h'
      exact ⟨rfl, rfl⟩
  | completed hw =>
    have E' := Eff.completed (env := env) (m := m) (alg := alg') (H.ws w _ hw)
    refine .sync rfl (do_step H.crashed E' H.crashed (fun _ => .inr (by simp))) ?_ ?_
    · refine rel_parts I E0 H hm hcr hw rfl H.root H.ctxs H.crashed (by simp [absPhase])
        (DPart.same H rfl rfl (fun i n n' h => h)) (CPart.same H rfl rfl (fun i n n' h => h)) id (fun _ => ⟨rfl, rfl⟩)
    · intro q q' h h'
      obtain ⟨rfl, rfl⟩ := pc_of hw rfl q q' h h'
      exact ⟨rfl, rfl⟩
  | enter hw hl hv hf => exact same_of I E0 H hm hcr hw rfl rfl rfl rfl rfl rfl rfl (fun _ _ _ h => h) (fun _ _ _ h => h) rfl rfl
  | @visit cur path rs new nd hw hd hl hmc =>
    have hheld : Lk.d cur ∈ holds (.own (.sel cur path rs new) : Pc S A R X Y) := by simp [holds, lkOf]
    refine .same rfl ?_ ?_
    · refine rel_parts I E0 H hm hcr hw rfl H.root H.ctxs H.crashed (ws_same H hw rfl)
        (DPart.one H cur hheld ?_ (by simp) (fun _ _ => rfl) rfl ?_ ?_) (CPart.same H rfl rfl (fun i n n' h => h)) id (fun _ => ⟨rfl, rfl⟩)
      · intro i hi; simp only; rw [List.getElem?_set_ne (Ne.symm hi)]
      · intro n n' e1 e2 e3 p p' e4 e5
        have := set_same_get hd e4
        subst this
        rw [hd] at e1; simp at e1; subst e1
        rw [e2] at e5; simp at e5; subst e5
        simp only [dRel, dBlk, if_true]
        exact ⟨nd, rfl, e3, hl, hmc⟩
      · intro i n n' hi h
        simpa [dRel, dBlk, hi] using h
    · intro q q' h h'
      obtain ⟨rfl, rfl⟩ := pc_of hw rfl q q' h h'
      rfl
  | @ended cur path rs new nd hw hd hs =>
    have hheld : Lk.d cur ∈ holds (.own (.sel cur path rs new) : Pc S A R X Y) := by simp [holds, lkOf]
    obtain ⟨nd', hd'⟩ := dn_get H hd
    have hrel : nd' = mapD π nd := H.down cur nd nd' hd hd' w _ hw hheld
    subst hrel
    have E' := Eff.ended (env := env) (m := m) (alg := alg') (H.ws w _ hw) hd' hs
    refine .sync rfl (do_step H.crashed E' H.crashed (fun _ => .inr (by simp))) ?_ ?_
    · refine rel_parts I E0 H hm hcr hw rfl H.root H.ctxs H.crashed rfl
        (DPart.one H cur hheld ?_ (by simp) ?_ (by simp) ?_ ?_) (CPart.same H rfl rfl (fun i n n' h => h)) id (fun _ => ⟨rfl, rfl⟩)
      · intro i hi; simp only; rw [List.getElem?_set_ne (Ne.symm hi)]
      · intro i hi; simp only; rw [List.getElem?_set_ne (Ne.symm hi)]
      · intro n n' e1 e2 e3 p p' e4 e5
        have h1 := set_same_get hd e4
        have h2 := set_same_get hd' e5
        subst h1; subst h2
        simp only [dRel, actsD, actD, List.foldl_cons, List.foldl_nil]
        simp only [mapD, DNode.mk.injEq, true_and]
        exact hS.visitD (isLeaf env m nd) nd.x
      · intro i n n' hi h
        exact h
    · intro q q' h h'
      obtain ⟨rfl, rfl⟩ := pc_of hw rfl q q' h h'
      exact ⟨rfl, rfl⟩
  | selOld hw hd hpc hf => exact sim_sel hS hm hkid I H hcr E0 hw hd hpc (.inl ⟨hf, rfl⟩)
  | selNew hw hd hpc hf => exact sim_sel hS hm hkid I H hcr E0 hw hd hpc (.inr ⟨hf, rfl, rfl⟩)
  | startSel hw hd hk => exact same_of I E0 H hm hcr hw rfl rfl rfl rfl rfl rfl rfl (fun _ _ _ h => h) (fun _ _ _ h => h) rfl rfl
  | startD hw hd hpc hk =>
    rcases hpc with ⟨rfl, rfl, -⟩ | rfl
    · refine same_of I E0 H hm hcr hw rfl rfl rfl rfl rfl rfl rfl ?_ (fun _ _ _ h => h) rfl rfl
      intro i n n' h
      simpa [dRel, dBlk] using h
    · exact same_of I E0 H hm hcr hw rfl rfl rfl rfl rfl rfl rfl (fun _ _ _ h => h) (fun _ _ _ h => h) rfl rfl
  | lockD hw hv hf => exact same_of I E0 H hm hcr hw rfl rfl rfl rfl rfl rfl rfl (fun _ _ _ h => h) (fun _ _ _ h => h) rfl rfl
  | readySel hw hd => exact same_of I E0 H hm hcr hw rfl rfl rfl rfl rfl rfl rfl (fun _ _ _ h => h) (fun _ _ _ h => h) rfl rfl
  | readyD hw hd => exact same_of I E0 H hm hcr hw rfl rfl rfl rfl rfl rfl rfl (fun _ _ _ h => h) (fun _ _ _ h => h) rfl rfl
  | readD hw hd => exact same_of I E0 H hm hcr hw rfl rfl rfl rfl rfl rfl rfl (fun _ _ _ h => h) (fun _ _ _ h => h) rfl rfl
  | snapD hw hd hn => exact sim_snapD hm I H hcr E0 hw hd hn rfl
  | relD hw => exact same_of I E0 H hm hcr hw rfl rfl rfl rfl rfl rfl rfl (fun _ _ _ h => h) (fun _ _ _ h => h) rfl rfl
  | backedD hw hd hpc => exact sim_backD hS hm I H hcr E0 hw hd hpc rfl
  | @visitC cur a c path rs new nc hw hc =>
    have hheld : Lk.c c ∈ holds (.own (.samp cur a c path rs new) : Pc S A R X Y) := by simp [holds, lkOf]
    refine .same rfl ?_ ?_
    · refine rel_parts I E0 H hm hcr hw rfl H.root H.ctxs H.crashed (ws_same H hw rfl) (DPart.same H rfl rfl ?_)
        (CPart.one H c hheld ?_ (by simp) (fun _ _ => rfl) rfl ?_ ?_) id (fun _ => ⟨rfl, rfl⟩)
      · intro i n n' h
        simpa [dRel, dBlk] using h
      · intro i hi; simp only; rw [List.getElem?_set_ne (Ne.symm hi)]
      · intro n n' e1 e2 e3 p p' e4 e5
        have := set_same_get hc e4
        subst this
        rw [hc] at e1; simp at e1; subst e1
        rw [e2] at e5; simp at e5; subst e5
        simp only [cRel, cSamp, if_true]
        exact ⟨nc, rfl, e3⟩
      · intro i n n' hi h
        simpa [cRel, cSamp, hi] using h
    · intro q q' h h'
      obtain ⟨rfl, rfl⟩ := pc_of hw rfl q q' h h'
      rfl
  | @stepOld cur a c path rs new nc nd o d' hw hc hd ho hf =>
    refine sim_samp hS hm I H hcr [.rel (.c c)] [] [] [] E0 hw hc hd (.inl rfl) (by simp) (fun _ => rfl) ?_ ?_ (fun _ _ => rfl) (.inl rfl) (fun _ => rfl) ?_
    · intro n; simp [actsC, actC]
    · intro i _ n; rfl
    · rintro nc0 nd' rfl hc' hd' hst hph hl -
      have E' := Eff.stepOld (env := env) (m := m) (alg := alg') (o := o) (d' := d') hph hc' hd' ho hf
      rw [hst] at E'
      obtain ⟨ch, h⟩ := do_step H.crashed E' H.crashed (fun _ => .inr (by simp))
      refine ⟨ch, ?_⟩
      rw [h]; simp [mapC]
  | @stepNew cur a c path rs new nc nd o hw hc hd ho hf hu =>
    refine sim_samp hS hm I H hcr [.kidC c o f.dn.length, .rel (.c c)] [newD env m alg o (nc.depth + 1) (nc.time + 1)] [] [(o, f.dn.length)] E0 hw hc hd
      (.inl rfl) (by simp) (fun _ => rfl) ?_ ?_ (fun _ _ => rfl) (.inr rfl) (fun _ => rfl) ?_
    · intro n; simp [actsC, actC]
    · intro i hi n; simp [actsC, actC, Ne.symm hi]
    · rintro nc0 nd' rfl hc' hd' hst hph hl -
      have E' := Eff.stepNew (env := env) (m := m) (alg := alg') (o := o) hph hc' hd' ho hf (.inl ⟨hu, rfl⟩)
      rw [hst] at E'
      obtain ⟨ch, h⟩ := do_step H.crashed E' H.crashed (fun h => by rw [hu] at h; simp at h)
      refine ⟨ch, ?_⟩
      rw [h]; simp [mapC, hl]
  | wantTable hw hc ho hf hu hm0 hl => exact same_of I E0 H hm hcr hw rfl rfl rfl rfl rfl rfl rfl (fun _ _ _ h => by simpa [dRel, dBlk] using h) (fun _ _ _ h => h) rfl rfl
  | @tabHit cur a c path rs new nc nd o j i hw hc hd ht =>
    obtain ⟨htab, ht0⟩ := tab_table hm I H hw
    obtain ⟨cur1, a1, c1, path1, rs1, new1, nc1, he, hc1, ho, hf, hu, hm0⟩ := I.ok w _ hw
    cases he
    rw [hc] at hc1; simp at hc1; subst hc1
    refine sim_samp hS hm I H hcr [.kidC c o i, .rel (.t j), .rel (.c c)] [] [] [(o, i)] E0 hw hc hd
      (.inr ⟨j, rfl⟩) (by simp) (fun _ => rfl) ?_ ?_ (fun _ _ => rfl) (.inl rfl) (fun _ => rfl) ?_
    · intro n; simp [actsC, actC]
    · intro i hi n; simp [actsC, actC, Ne.symm hi]
    · rintro nc0 nd' rfl hc' hd' hst hph hl -
      have E' := Eff.stepHit (env := env) (m := m) (alg := alg') (o := o) hph hc' hd' ho hf hu (by rw [htab]; exact ht)
      rw [hst] at E'
      obtain ⟨ch, h⟩ := do_step H.crashed E' H.crashed (fun _ => .inl hm0)
      refine ⟨ch, ?_⟩
      rw [h]; simp [mapC, hl]
  | @tabMiss cur a c path rs new nc nd o j hw hc hd ht =>
    obtain ⟨htab, ht0⟩ := tab_table hm I H hw
    obtain ⟨cur1, a1, c1, path1, rs1, new1, nc1, he, hc1, ho, hf, hu, hm0⟩ := I.ok w _ hw
    cases he
    rw [hc] at hc1; simp at hc1; subst hc1
    refine sim_samp hS hm I H hcr [.kidC c o f.dn.length, .ins (nc.time, o) f.dn.length, .rel (.t j), .rel (.c c)]
      [newD env m alg o (nc.depth + 1) (nc.time + 1)] [((nc.time, o), some f.dn.length)] [(o, f.dn.length)] E0 hw hc hd
      (.inr ⟨j, rfl⟩) (by simp) (fun _ => rfl) ?_ ?_ (fun _ _ => rfl) (.inr rfl) (fun h => absurd ht0 h) ?_
    · intro n; simp [actsC, actC]
    · intro i hi n; simp [actsC, actC, Ne.symm hi]
    · rintro nc0 nd' rfl hc' hd' hst hph hl -
      have E' := Eff.stepNew (env := env) (m := m) (alg := alg') (o := o) hph hc' hd' ho hf (.inr ⟨hu, by rw [htab]; exact ht, rfl⟩)
      rw [hst] at E'
      obtain ⟨ch, h⟩ := do_step H.crashed E' H.crashed (fun _ => .inl hm0)
      refine ⟨ch, ?_⟩
      rw [h]; simp [mapC, hl]
  | startC hw hc hpc hk =>
    rcases hpc with ⟨rfl, rfl, -⟩ | rfl
    · refine same_of I E0 H hm hcr hw rfl rfl rfl rfl rfl rfl rfl (fun _ _ _ h => h) ?_ rfl rfl
      intro i n n' h
      simpa [cRel, cBlk_back] using h
    · exact same_of I E0 H hm hcr hw rfl rfl rfl rfl rfl rfl rfl (fun _ _ _ h => h) (fun _ _ _ h => h) rfl rfl
  | lockC hw hv hf => exact same_of I E0 H hm hcr hw rfl rfl rfl rfl rfl rfl rfl (fun _ _ _ h => h) (fun _ _ _ h => h) rfl rfl
  | readyC hw hd => exact same_of I E0 H hm hcr hw rfl rfl rfl rfl rfl rfl rfl (fun _ _ _ h => h) (fun _ _ _ h => h) rfl rfl
  | readC hw hd => exact same_of I E0 H hm hcr hw rfl rfl rfl rfl rfl rfl rfl (fun _ _ _ h => h) (fun _ _ _ h => h) rfl rfl
  | snapC hw hc hn => exact sim_snapC hm I H hcr E0 hw hc hn rfl
  | relC hw => exact same_of I E0 H hm hcr hw rfl rfl rfl rfl rfl rfl rfl (fun _ _ _ h => h) (fun _ _ _ h => h) rfl rfl
  | backedC hw hc hpc => exact sim_backC hS hm I H hcr E0 hw hc hpc rfl
  | post hw => exact sim_post hm I H hcr E0 hw
  | leave hw => exact same_of I E0 H hm hcr hw rfl rfl rfl rfl rfl rfl rfl (fun _ _ _ h => h) (fun _ _ _ h => h) rfl rfl

end Verif.LockLevel
