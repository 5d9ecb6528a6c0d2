import Verif.Proofs.LockSim

/-! # The simulation, step by step -/

namespace Verif.LockLevel

open Verif.Search

set_option linter.unusedSimpArgs false
set_option linter.unusedSectionVars false

variable {S A R X Y X' Y' : Type} [DecidableEq S] [DecidableEq A] [Add R] [Zero R]
variable {env : Env S A R} {m : Manager S R} {hash : Int × S → Nat} {code : Code S A R X Y} {alg : Alg S A R X Y} {alg' : Alg S A R X' Y'}
  {π : X → X'} {ρ : Y → Y'} {jD jC : Nat} {f f' : FSt S A R X Y} {s s' : St S A R X' Y'} {w : Nat} {e : Option (Event S A R)}

theorem dn_get (H : Rel env m code alg alg' π ρ jD jC f s) {i : Nat} {nd : DNode S A R X} (h : f.dn[i]? = some nd) : ∃ nd', s.dn[i]? = some nd' :=
  ⟨_, List.getElem?_eq_getElem (by rw [H.dlen]; exact (List.getElem?_eq_some_iff.1 h).1)⟩

theorem cn_get (H : Rel env m code alg alg' π ρ jD jC f s) {i : Nat} {nc : CNode S A R Y} (h : f.cn[i]? = some nc) : ∃ nc', s.cn[i]? = some nc' :=
  ⟨_, List.getElem?_eq_getElem (by rw [H.clen]; exact (List.getElem?_eq_some_iff.1 h).1)⟩

/-- The static fields of a decision node are the same, whoever has locked it. -/
theorem static_state (I : LInv env m code f) (H : Rel env m code alg alg' π ρ jD jC f s) {i : Nat} {nd : DNode S A R X} {nd' : DNode S A R X'}
    (h : f.dn[i]? = some nd) (h' : s.dn[i]? = some nd') : nd'.state = nd.state := by
  have blk : ∀ ctx p snaps, dBlk env m code alg alg' π ρ jD ctx p snaps i nd nd' → nd'.state = nd.state := by
    intro ctx p snaps hb
    cases p <;> simp only [dBlk] at hb
    · rw [hb]; rfl
    · split at hb
      · obtain ⟨nd0, rfl, rfl, -⟩ := hb; rfl
      · rw [hb]; rfl
    · rw [hb]; rfl
    · rw [hb]; rfl
    · split at hb
      · obtain ⟨kids, -, rfl⟩ := hb; rfl
      · rw [hb]; rfl
  have act : ∀ (acts : List (Act S X Y A)) (nd : DNode S A R X), (actsD i acts nd).state = nd.state := by
    intro acts
    induction acts with
    | nil => intro nd; rfl
    | cons a acts ih =>
      intro nd
      show (actsD i acts (actD i a nd)).state = nd.state
      rw [ih]; cases a <;> simp only [actD] <;> (try split) <;> rfl
  cases hl : f.lock (.d i) with
  | none => rw [H.dfree i nd nd' h h' hl]; rfl
  | some v =>
    obtain ⟨pc, hw, hh⟩ := I.only _ _ hl
    have := H.down i nd nd' h h' v pc hw hh
    cases pc <;> simp only [dRel] at this <;> first | exact blk _ _ _ this | (rw [this]; rfl) | (rw [this]; exact act _ _)

/-- A selection that is possible here is possible in the search. -/
theorem sel_can (hS : Simulates alg code alg' π ρ jD jC) (I : LInv env m code f) (H : Rel env m code alg alg' π ρ jD jC f s)
    (hkid : ∀ (i : Nat) nd' k, s.dn[i]? = some nd' → k ∈ nd'.kids → k.2 < s.cn.length)
    {pc : Pc S A R X Y} {cur path rs new nd ks held a} (hw : f.ws[w]? = some pc) (hd : f.dn[cur]? = some nd)
    (hpc : (pc = .vis (.sel cur path rs new) ∧ ks = [] ∧ held = [] ∧
          code.selBlind (ownView env m nd []) (nd.kids.map fun k => k.1) (f.ctxOf w) a = true) ∨
        ∃ snaps, pc = .readD (.sel cur path rs new) snaps held ks [] ∧ alg.canSelect (ownView env m nd ks) (f.ctxOf w) a = true) :
    ∃ nd0 : DNode S A R X, nd = { nd0 with visits := nd0.visits + 1, x := alg.visitD false nd0.x } ∧ s.dn[cur]? = some (mapD π nd0) ∧
      isLeaf env m nd0 = false ∧ (m.mctsMode && new) = false ∧ s.ws[w]? = some (.sel cur path rs new) ∧
      alg'.canSelect (viewOf env m s { mapD π nd0 with visits := nd0.visits + 1, x := alg'.visitD false (π nd0.x) }) (s.ctxOf w) a = true ∧
      alg'.selCtx (viewOf env m s { mapD π nd0 with visits := nd0.visits + 1, x := alg'.visitD false (π nd0.x) }) (s.ctxOf w) a =
        alg.selCtx (ownView env m nd ks) (f.ctxOf w) a := by
  obtain ⟨nd', hd'⟩ := dn_get H hd
  have hheld : Lk.d cur ∈ holds pc := by
    rcases hpc with ⟨rfl, -⟩ | ⟨sn, rfl, -⟩ <;> simp [holds, lkOf]
  have hrel := H.down cur nd nd' hd hd' w pc hw hheld
  have hsel : SelRel env m alg π new nd nd' := by
    rcases hpc with ⟨rfl, -⟩ | ⟨sn, rfl, -⟩ <;> simpa [dRel, dBlk] using hrel
  have hph : s.ws[w]? = some (.sel cur path rs new) := by
    have := H.ws w pc hw
    rw [this]
    rcases hpc with ⟨rfl, -⟩ | ⟨sn, rfl, -⟩
    · rfl
    · simp only [absPhase, nextD]; split <;> rfl
  obtain ⟨nd0, rfl, rfl, hl, hmc⟩ := hsel
  refine ⟨nd0, rfl, hd', hl, hmc, hph, ?_⟩
  rw [ctx_eq H]
  rcases hpc with ⟨rfl, rfl, rfl, hb⟩ | ⟨sn, rfl, hb⟩
  · have hk : (kidsY s (mapD π nd0)).map (fun k => k.1) = nd0.kids.map fun k => k.1 := by
      unfold kidsY
      exact kidsY_fst fun k hk => hkid cur _ k hd' hk
    have := hS.blind (ownView env m { nd0 with visits := nd0.visits + 1, x := alg.visitD false nd0.x } []) (kidsY s (mapD π nd0)) (f.ctxOf w) a
      rfl (by rw [hk]; exact hb)
    have hview : viewOf env m s { mapD π nd0 with visits := nd0.visits + 1, x := alg'.visitD false (π nd0.x) } =
      { mapV π ρ (ownView env m { nd0 with visits := nd0.visits + 1, x := alg.visitD false nd0.x } []) with kids := kidsY s (mapD π nd0) } := by
      simp [viewOf, mapV, ownView, mapD, hS.visitD, kidsY]
    rw [hview]; exact this
  · have ok := I.ok w _ hw
    obtain ⟨h1, d, nd1, done, h2, h3, h4, h5, h6⟩ := ok
    simp [nodeD] at h2; subst h2
    rw [hd] at h3; simp at h3; subst h3
    simp only [kidsToRead, List.append_nil] at h4 h5
    subst h4
    have hk := kidsY_read I H hw h5 ks h6
    have := hS.select (ownView env m { nd0 with visits := nd0.visits + 1, x := alg.visitD false nd0.x } ks) (f.ctxOf w) a hb
    have hview : viewOf env m s { mapD π nd0 with visits := nd0.visits + 1, x := alg'.visitD false (π nd0.x) } =
      mapV π ρ (ownView env m { nd0 with visits := nd0.visits + 1, x := alg.visitD false nd0.x } ks) := by
      simp only [viewOf, mapV, ownView, mapD, hS.visitD, kidsY, View.mk.injEq, true_and]
      exact hk
    rw [hview]; exact this

theorem sim_sel (hS : Simulates alg code alg' π ρ jD jC) (hm : m.useTable = true → m.numMutexes ≤ 1)
    (hkid : ∀ (i : Nat) nd' k, s.dn[i]? = some nd' → k ∈ nd'.kids → k.2 < s.cn.length)
    (I : LInv env m code f) (H : Rel env m code alg alg' π ρ jD jC f s) (hcr : f'.crashed = none)
    {pc : Pc S A R X Y} {cur path rs new nd ks held a c} (E : FEff env m hash alg code f w (some (.selected w cur a c)) f')
    (hw : f.ws[w]? = some pc) (hd : f.dn[cur]? = some nd)
    (hpc : (pc = .vis (.sel cur path rs new) ∧ ks = [] ∧ held = [] ∧
          code.selBlind (ownView env m nd []) (nd.kids.map fun k => k.1) (f.ctxOf w) a = true) ∨
        ∃ snaps, pc = .readD (.sel cur path rs new) snaps held ks [] ∧ alg.canSelect (ownView env m nd ks) (f.ctxOf w) a = true)
    (hc : (find? a nd.kids = some c ∧
        f' =
        { f with ws := f.ws.set w (.post (.samp cur a c path rs new) (held.map (fun k => Act.rel (.c k)) ++ [.rel (.d cur)])),
                 ctxs := f.ctxs.set w (alg.selCtx (ownView env m nd ks) (f.ctxOf w) a) }) ∨
      (find? a nd.kids = none ∧ c = f.cn.length ∧
        f' =
        { f with cn := f.cn ++ [newC alg nd a],
                 ws := f.ws.set w (.post (.samp cur a f.cn.length path rs new)
                   (held.map (fun k => Act.rel (.c k)) ++ [.kidD cur a f.cn.length, .rel (.d cur)])),
                 ctxs := f.ctxs.set w (alg.selCtx (ownView env m nd ks) (f.ctxOf w) a) })) :
    Out env m code alg alg' π ρ jD jC f f' s w (some (.selected w cur a c)) := by
  obtain ⟨nd0, hnd, hd', hl, hmc, hph, hcan, hctx⟩ := sel_can hS I H hkid hw hd hpc
  have hheld : Lk.d cur ∈ holds pc := by
    rcases hpc with ⟨rfl, -⟩ | ⟨sn, rfl, -⟩ <;> simp [holds, lkOf]
  have hpend : pendE jD jC w pc = [] := by
    rcases hpc with ⟨rfl, -⟩ | ⟨sn, rfl, -⟩ <;> simp [pendE, evD]
  have hoth : ∀ i n n', i ≠ cur → dRel env m code alg alg' π ρ jD (f.ctxOf w) pc i n n' → n' = mapD π n := by
    intro i n n' hi h
    rcases hpc with ⟨rfl, -⟩ | ⟨sn, rfl, -⟩ <;> simpa [dRel, dBlk, hi] using h
  have hcsame : ∀ i n n', cRel alg alg' π ρ jC pc i n n' → n' = mapC ρ n := by
    intro i n n' h
    rcases hpc with ⟨rfl, -⟩ | ⟨sn, rfl, -⟩
    · simpa [cRel, cSamp] using h
    · exact h
  have hins : insOf pc = [] := by rcases hpc with ⟨rfl, -⟩ | ⟨sn, rfl, -⟩ <;> rfl
  have hkids : (mapD π nd0).kids = nd.kids := by rw [hnd]; rfl
  have hvis : { mapD π nd0 with visits := nd0.visits + 1, x := alg'.visitD false (π nd0.x) } = mapD π nd := by
    rw [hnd]; simp [mapD, hS.visitD]
  have hleaf : isLeaf env m (mapD π nd0) = false := hl
  rcases hc with ⟨hf, rfl⟩ | ⟨hf, rfl, rfl⟩
  · have E' := Eff.selOld (alg := alg') hph hd' hleaf hmc hcan (by rw [hkids]; exact hf)
    refine .sync rfl (do_step H.crashed E' H.crashed (fun _ => .inr (by simp))) ?_ ?_
    · refine rel_parts I E H hm hcr hw rfl H.root ?_ H.crashed rfl (DPart.one H cur hheld (fun _ _ => rfl) rfl ?_ (by simp) ?_ ?_)
        (CPart.same H rfl rfl ?_) ?_ (fun _ => ⟨rfl, rfl⟩)
      · simp only [H.ctxs]; congr 1
      · intro i hi; simp only; rw [List.getElem?_set_ne (Ne.symm hi)]
      · intro n n' h1 h2 h3 p p' h4 h5
        simp only at h4 h5
        rw [hd] at h4; simp at h4; subst h4
        have := set_same_get hd' h5
        subst this
        simp only [dRel, actsD_rel]
        exact hvis
      · intro i n n' hi h
        simp only [dRel, actsD_rel]
        exact hoth i n n' hi h
      · intro i n n' h
        simp only [cRel, actsC_rel]
        exact hcsame i n n' h
      · intro h; rw [hins] at h; rw [insOf_rel]; exact h
    · intro q q' h h'
      obtain ⟨rfl, rfl⟩ := pc_of hw rfl q q' h h'
      exact ⟨rfl, hpend⟩
  · have E' := Eff.selNew (alg := alg') hph hd' hleaf hmc hcan (by rw [hkids]; exact hf)
    rw [H.clen] at E'
    refine .sync rfl (do_step H.crashed E' H.crashed (fun _ => .inr (by simp))) ?_ ?_
    · refine rel_parts I E H hm hcr hw rfl H.root ?_ H.crashed rfl (DPart.one H cur hheld (fun _ _ => rfl) rfl ?_ (by simp) ?_ ?_)
        (CPart.snoc H rfl (x := newC alg nd a) ?_ ?_ ?_) ?_ (fun _ => ⟨rfl, rfl⟩)
      · simp only [H.ctxs]; congr 1
      · intro i hi; simp only; rw [List.getElem?_set_ne (Ne.symm hi)]
      · intro n n' h1 h2 h3 p p' h4 h5
        simp only at h4 h5
        rw [hd] at h4; simp at h4; subst h4
        have := set_same_get hd' h5
        subst this
        simp only [dRel, actsD_rel]
        rw [hnd]; simp [actsD, actD, mapD, hS.visitD]
      · intro i n n' hi h
        simp only [dRel, actsD_rel]
        rw [hoth i n n' hi h]
        simp [actsD, actD, Ne.symm hi]
      · simp only [List.append_cancel_left_eq, List.cons.injEq, and_true]
        rw [hnd]; simp [newC, mapC, mapD, hS.initC]
      · simp only [cRel, actsC_rel]; rfl
      · intro i n n' h
        simp only [cRel, actsC_rel]
        exact hcsame i n n' h
      · intro h; rw [hins] at h; rw [insOf_rel]; exact h
    · intro q q' h h'
      obtain ⟨rfl, rfl⟩ := pc_of hw rfl q q' h h'
      exact ⟨rfl, hpend⟩

/-- A worker that has locked the table sees the table of the search. -/
theorem tab_table (hm : m.useTable = true → m.numMutexes ≤ 1) (I : LInv env m code f) (H : Rel env m code alg alg' π ρ jD jC f s)
    {p : Phase S A R} {o : S} {j : Nat} (hw : f.ws[w]? = some (.tab p o j)) : s.table = f.table ∧ Lk.t 0 ∈ holds (.tab p o j : Pc S A R X Y) := by
  have hj : Lk.t j ∈ holds (.tab p o j : Pc S A R X Y) := by simp [holds]
  obtain ⟨u, x, e⟩ := I.index j w (I.own w _ hw _ hj)
  have : j = 0 := by rw [e]; have := hm u; unfold mutexIndex; split <;> omega
  subst this
  have := H.town w _ hw hj
  exact ⟨by simpa [insOf] using this, hj⟩

theorem sim_samp (hS : Simulates alg code alg' π ρ jD jC) (hm : m.useTable = true → m.numMutexes ≤ 1)
    (I : LInv env m code f) (H : Rel env m code alg alg' π ρ jD jC f s) (hcr : f'.crashed = none)
    {pc : Pc S A R X Y} {cur a c path rs new nc nd o d'} {grew : Bool} (acts : List (Act S X Y A)) (fresh : List (DNode S A R X))
    (tb : List ((Int × S) × Option Nat)) (kid : List (S × Nat))
    (E : FEff env m hash alg code f w (some (.stepped w cur a c o d' (env.reward nd.state a o) grew)) f')
    (hw : f.ws[w]? = some pc) (hc : f.cn[c]? = some nc) (hd : f.dn[cur]? = some nd)
    (hpc : pc = .vis (.samp cur a c path rs new) ∨ ∃ j, pc = .tab (.samp cur a c path rs new) o j)
    (hf' : f' = { f with dn := f.dn ++ fresh,
                         ws := f.ws.set w (.post (.sel d' (path ++ [(cur, c)]) (rs ++ [env.reward nd.state a o]) (new || grew)) acts) })
    (hacts : ∀ q : Phase S A R, insOf (.post q acts : Pc S A R X Y) = tb)
    (hactC : ∀ n : CNode S A R Y, actsC c acts n = { n with kids := n.kids ++ kid })
    (hactO : ∀ i, i ≠ c → ∀ n : CNode S A R Y, actsC i acts n = n) (hactD : ∀ i (n : DNode S A R X), actsD i acts n = n)
    (hfresh : fresh = [] ∨ fresh = [newD env m alg o (nc.depth + 1) (nc.time + 1)])
    (htb : Lk.t 0 ∉ holds pc → tb = [])
    (hstep : ∀ (nc0 : CNode S A R Y) nd', nc = { nc0 with visits := nc0.visits + 1, y := alg.visitC nc0.y } → s.cn[c]? = some (mapC ρ nc0) →
      s.dn[cur]? = some nd' → nd'.state = nd.state → s.ws[w]? = some (.samp cur a c path rs new) → s.dn.length = f.dn.length →
      (Lk.t 0 ∈ holds pc → s.table = f.table) →
      ∃ ch, step env m alg' s w ch = some
        ({ s with cn := s.cn.set c { mapC ρ nc0 with visits := nc0.visits + 1, y := alg'.visitC (ρ nc0.y), kids := nc0.kids ++ kid },
                  dn := s.dn ++ fresh.map fun _ => newD env m alg' o (nc0.depth + 1) (nc0.time + 1),
                  table := s.table ++ tb,
                  ws := s.ws.set w (.sel d' (path ++ [(cur, c)]) (rs ++ [env.reward nd.state a o]) (new || grew)) },
          .stepped w cur a c o d' (env.reward nd.state a o) grew)) :
    Out env m code alg alg' π ρ jD jC f f' s w (some (.stepped w cur a c o d' (env.reward nd.state a o) grew)) := by
  obtain ⟨nc', hc'⟩ := cn_get H hc
  obtain ⟨nd', hd'⟩ := dn_get H hd
  have hheld : Lk.c c ∈ holds pc := by
    rcases hpc with rfl | ⟨j, rfl⟩ <;> simp [holds, lkOf]
  have hrel := H.cown c nc nc' hc hc' w pc hw hheld
  have hsamp : ∃ nc0 : CNode S A R Y, nc = { nc0 with visits := nc0.visits + 1, y := alg.visitC nc0.y } ∧ nc' = mapC ρ nc0 := by
    rcases hpc with rfl | ⟨j, rfl⟩ <;> simpa [cRel, cSamp] using hrel
  have hph : s.ws[w]? = some (.samp cur a c path rs new) := by
    rw [H.ws w pc hw]; rcases hpc with rfl | ⟨j, rfl⟩ <;> rfl
  have hpend : pendE jD jC w pc = [] := by rcases hpc with rfl | ⟨j, rfl⟩ <;> rfl
  have hins : insOf pc = [] := by rcases hpc with rfl | ⟨j, rfl⟩ <;> rfl
  have hoth : ∀ i n n', i ≠ c → cRel alg alg' π ρ jC pc i n n' → n' = mapC ρ n := by
    intro i n n' hi h
    rcases hpc with rfl | ⟨j, rfl⟩ <;> simpa [cRel, cSamp, hi] using h
  have hdsame : ∀ i n n', dRel env m code alg alg' π ρ jD (f.ctxOf w) pc i n n' → n' = mapD π n := by
    intro i n n' h
    rcases hpc with rfl | ⟨j, rfl⟩
    · simpa [dRel, dBlk] using h
    · exact h
  obtain ⟨nc0, hnc, rfl⟩ := hsamp
  have hst := hstep nc0 nd' hnc hc' hd' (static_state I H hd hd') hph H.dlen (fun h => by
    have := H.town w pc hw h; rw [hins] at this; simpa using this)
  have hnew : (newD env m alg' o (nc0.depth + 1) (nc0.time + 1)) = mapD π (newD env m alg o (nc.depth + 1) (nc.time + 1)) := by
    rw [hnc]; simp [newD, mapD, hS.initVisits, hS.initD]
  subst hf'
  refine .sync rfl hst ?_ ?_
  · refine rel_parts I E H hm hcr hw rfl H.root H.ctxs H.crashed rfl ?_
      (CPart.one H c hheld (fun _ _ => rfl) rfl ?_ (by simp) ?_ ?_) ?_ ?_
    · rcases hfresh with rfl | rfl
      · refine DPart.same H (by simp) (by simp) ?_
        intro i n n' h
        simp only [dRel]; rw [hactD]; exact hdsame i n n' h
      · refine DPart.snoc H rfl (by rw [← hnew]; rfl) ?_ ?_
        · simp only [dRel]; rw [hactD]
        · intro i n n' h
          simp only [dRel]; rw [hactD]; exact hdsame i n n' h
    · intro i hi; simp only; rw [List.getElem?_set_ne (Ne.symm hi)]
    · intro n n' h1 h2 h3 p p' h4 h5
      simp only at h4 h5
      rw [hc] at h4; simp at h4; subst h4
      have := set_same_get hc' h5
      subst this
      simp only [cRel]
      rw [hactC, hnc]
      simp [mapC, hS.visitC]
    · intro i n n' hi h
      simp only [cRel]
      rw [hactO i hi]
      exact hoth i n n' hi h
    · intro h
      rw [hins, List.append_nil] at h
      rw [hacts, h]
    · intro h
      simp only
      rw [htb h]
      simp
  · intro q q' h h'
    obtain ⟨rfl, rfl⟩ := pc_of hw rfl q q' h h'
    exact ⟨rfl, hpend⟩

theorem sim_snapD (hm : m.useTable = true → m.numMutexes ≤ 1)
    (I : LInv env m code f) (H : Rel env m code alg alg' π ρ jD jC f s) (hcr : f'.crashed = none)
    {d nodes before after ret tot nd snaps held acc} (E : FEff env m hash alg code f w none f')
    (hw : f.ws[w]? = some (.readD (.backD d nodes before after ret tot) snaps held acc [])) (hd : f.dn[d]? = some nd)
    (hn : snaps.length + 1 ≠ code.nD)
    (hf' : f' = { f with ws := f.ws.set w (.relD (.backD d nodes before after ret tot) (snaps ++ [acc]) held) }) :
    Out env m code alg alg' π ρ jD jC f f' s w none := by
  subst hf'
  have ok := I.ok w _ hw
  obtain ⟨h1, d1, nd1, done, h2, h3, h4, h5, h6⟩ := ok
  simp only [nodeD, Option.some.injEq] at h2; subst h2
  rw [hd] at h3; simp at h3; subst h3
  simp only [kidsToRead, List.append_nil] at h4 h5
  simp only [RoundD] at h1
  subst h4
  by_cases hj : snaps.length = jD
  · obtain ⟨nd', hd'⟩ := dn_get H hd
    have hheld : Lk.d d ∈ holds (.readD (.backD d nodes before after ret tot) snaps held acc [] : Pc S A R X Y) := by simp [holds, lkOf]
    have hrel : nd' = mapD π nd := by
      have := H.down d nd nd' hd hd' w _ hw hheld
      simpa [dRel, dBlk, hj] using this
    subst hrel
    have hph : s.ws[w]? = some (.backD d nodes before after ret tot) := by
      rw [H.ws w _ hw]; simp [absPhase, hj]
    have E' := Eff.backedD (env := env) (m := m) (alg := alg') hph hd'
    refine .early rfl (do_step H.crashed E' H.crashed (fun _ => .inr (by simp))) ?_ ?_ (.inl (by omega))
    · refine rel_parts I E H hm hcr hw rfl H.root H.ctxs H.crashed ?_ (DPart.one H d hheld (fun _ _ => rfl) rfl ?_ (by simp) ?_ ?_)
        (CPart.same H rfl rfl (fun i n n' h => h)) id (fun _ => ⟨rfl, rfl⟩)
      · simp [absPhase, hj, nextD]
      · intro i hi; simp only; rw [List.getElem?_set_ne (Ne.symm hi)]
      · intro n n' g1 g2 g3 p p' g4 g5
        simp only at g4 g5
        rw [hd] at g4; simp at g4; subst g4
        have := set_same_get hd' g5
        subst this
        have hk := kidsY_read I H hw h5 acc h6
        rw [ctx_eq H]
        simp only [dRel, dBlk, true_and, List.length_append, List.length_singleton]
        rw [if_pos (by omega)]
        refine ⟨kidsY s (mapD π nd), ?_, ?_⟩
        · rw [← hj]
          simp only [List.getElem?_concat_length, Option.map_some, Option.some.injEq]
          unfold kidsY
          rw [kidsY_filter, ← hk]
          rfl
        · rfl
      · intro i n n' hi h
        simp only [dRel, dBlk, hi, false_and, if_false] at h ⊢
        exact h
    · intro q q' h h'
      obtain ⟨rfl, rfl⟩ := pc_of hw rfl q q' h h'
      simp [pendE, hj, evD]
  · have hlt : jD < (snaps ++ [acc]).length ↔ jD < snaps.length := by simp; omega
    refine same_of I E H hm hcr hw rfl rfl rfl rfl rfl rfl ?_ ?_ (fun _ _ _ h => h) rfl ?_
    · simp only [absPhase, hlt]
    · intro i n n' h
      simp only [dRel, dBlk, hlt] at h ⊢
      split at h
      · rename_i hc
        rw [if_pos hc]
        obtain ⟨kids, g1, g2⟩ := h
        refine ⟨kids, ?_, g2⟩
        rw [List.getElem?_append_left hc.2]; exact g1
      · rename_i hc; rw [if_neg hc]; exact h
    · simp only [pendE, hlt]

theorem sim_backD (hS : Simulates alg code alg' π ρ jD jC) (hm : m.useTable = true → m.numMutexes ≤ 1)
    (I : LInv env m code f) (H : Rel env m code alg alg' π ρ jD jC f s) (hcr : f'.crashed = none)
    {pc : Pc S A R X Y} {d nodes before after ret tot nd snaps held}
    (E : FEff env m hash alg code f w (some (.backedD w d ⟨before, after, ret, tot⟩)) f')
    (hw : f.ws[w]? = some pc) (hd : f.dn[d]? = some nd)
    (hpc : (pc = .own (.backD d nodes before after ret tot) ∧ snaps = [] ∧ held = [] ∧ code.nD = 0) ∨
        ∃ sn acc, pc = .readD (.backD d nodes before after ret tot) sn held acc [] ∧ snaps = sn ++ [acc] ∧ sn.length + 1 = code.nD)
    (hf' : f' = { f with ws := f.ws.set w (.post (.back nodes before after ret tot) (held.map (fun k => Act.rel (.c k)) ++
            [.setX d (code.resD (ownView env m nd []) snaps (f.ctxOf w) ⟨before, after, ret, tot⟩), .rel (.d d)])) }) :
    Out env m code alg alg' π ρ jD jC f f' s w (some (.backedD w d ⟨before, after, ret, tot⟩)) := by
  subst hf'
  obtain ⟨nd', hd'⟩ := dn_get H hd
  have hheld : Lk.d d ∈ holds pc := by
    rcases hpc with ⟨rfl, -⟩ | ⟨sn, acc, rfl, -⟩ <;> simp [holds, lkOf]
  have hrel := H.down d nd nd' hd hd' w _ hw hheld
  have hoth : ∀ i n n', i ≠ d → dRel env m code alg alg' π ρ jD (f.ctxOf w) pc i n n' → n' = mapD π n := by
    intro i n n' hi h
    rcases hpc with ⟨rfl, -⟩ | ⟨sn, acc, rfl, -⟩
    · exact h
    · simpa [dRel, dBlk, hi] using h
  have hcsame : ∀ i n n', cRel alg alg' π ρ jC pc i n n' → n' = mapC ρ n := by
    intro i n n' h
    rcases hpc with ⟨rfl, -⟩ | ⟨sn, acc, rfl, -⟩ <;> exact h
  have hins : insOf pc = [] := by rcases hpc with ⟨rfl, -⟩ | ⟨sn, acc, rfl, -⟩ <;> rfl
  have hlen : snaps.length = code.nD := by
    rcases hpc with ⟨rfl, rfl, rfl, h⟩ | ⟨sn, acc, rfl, rfl, h⟩
    · simp [h]
    · simpa using h
  have hC : ∀ g : FSt S A R X Y → FSt S A R X Y, True := fun _ => trivial
  have sync : ∀ (_ : nd' = mapD π nd) (_ : s.ws[w]? = some (.backD d nodes before after ret tot)) (_ : pendE jD jC w pc = [])
      (_ : jD < code.nD → (snaps[jD]?).map (fun l => l.map (mapK ρ)) =
        some ((kidsY s (mapD π nd)).filter fun k => code.readsD (ownView env m nd []) (f.ctxOf w) k.1)),
      Out env m code alg alg' π ρ jD jC f
        { f with ws := f.ws.set w (.post (.back nodes before after ret tot) (held.map (fun k => Act.rel (.c k)) ++
            [.setX d (code.resD (ownView env m nd []) snaps (f.ctxOf w) ⟨before, after, ret, tot⟩), .rel (.d d)])) }
        s w (some (.backedD w d ⟨before, after, ret, tot⟩)) := by
    rintro rfl hph hpend hk
    have E' := Eff.backedD (env := env) (m := m) (alg := alg') hph hd'
    refine .sync rfl (do_step H.crashed E' H.crashed (fun _ => .inr (by simp))) ?_ ?_
    · refine rel_parts I E H hm hcr hw rfl H.root H.ctxs H.crashed rfl (DPart.one H d hheld (fun _ _ => rfl) rfl ?_ (by simp) ?_ ?_)
        (CPart.same H rfl rfl ?_) ?_ (fun _ => ⟨rfl, rfl⟩)
      · intro i hi; simp only; rw [List.getElem?_set_ne (Ne.symm hi)]
      · intro n n' g1 g2 g3 p p' g4 g5
        simp only at g4 g5
        rw [hd] at g4; simp at g4; subst g4
        have := set_same_get hd' g5
        subst this
        have hr := hS.resD (ownView env m nd []) (kidsY s (mapD π nd)) snaps (f.ctxOf w) ⟨before, after, ret, tot⟩ rfl hlen hk
        rw [ctx_eq H]
        simp only [dRel, actsD_rel]
        simp only [actsD, actD, List.foldl_cons, List.foldl_nil, if_true, mapD, DNode.mk.injEq, true_and]
        rw [hr]; rfl
      · intro i n n' hi h
        simp only [dRel, actsD_rel]
        rw [hoth i n n' hi h]
        simp [actsD, actD, Ne.symm hi]
      · intro i n n' h
        simp only [cRel, actsC_rel]
        rw [hcsame i n n' h]
        rfl
      · intro h; rw [hins] at h; rw [insOf_rel]; exact h
    · intro q q' h h'
      obtain ⟨rfl, rfl⟩ := pc_of hw rfl q q' h h'
      exact ⟨rfl, hpend⟩
  rcases hpc with ⟨rfl, rfl, rfl, h0⟩ | ⟨sn, acc, rfl, rfl, h0⟩
  · exact sync hrel (H.ws w _ hw) rfl (fun h => by omega)
  · by_cases hj : jD < sn.length
    · simp only [dRel, dBlk, true_and, hj, if_true] at hrel
      obtain ⟨kids, g1, g2⟩ := hrel
      refine .late rfl ?_ ?_ (.inl (by omega))
      · refine rel_parts I E H hm hcr hw rfl H.root H.ctxs H.crashed ?_ (DPart.one H d hheld (fun _ _ => rfl) rfl (fun _ _ => rfl) rfl ?_ ?_)
          (CPart.same H rfl rfl ?_) ?_ (fun _ => ⟨rfl, rfl⟩)
        · exact ws_same H hw (by simp [absPhase, hj, nextD])
        · intro n n' e1 e2 _ p p' e4 e5
          simp only at e4 e5
          rw [hd] at e4; rw [hd'] at e5; simp at e4 e5; subst e4; subst e5
          have hr := hS.resD (ownView env m nd []) kids (sn ++ [acc]) (f.ctxOf w) ⟨before, after, ret, tot⟩ rfl hlen
            (fun _ => by rw [List.getElem?_append_left hj]; exact g1)
          simp only [dRel, actsD_rel]
          simp only [actsD, actD, List.foldl_cons, List.foldl_nil, if_true, mapD]
          rw [g2, hr]; rfl
        · intro i n n' hi h
          simp only [dRel, actsD_rel]
          rw [hoth i n n' hi h]
          simp [actsD, actD, Ne.symm hi]
        · intro i n n' h
          simp only [cRel, actsC_rel]
          rw [hcsame i n n' h]
          rfl
        · intro h; rw [insOf_rel]; exact h
      · intro q q' h h'
        obtain ⟨rfl, rfl⟩ := pc_of hw rfl q q' h h'
        simp [pendE, hj, evD]
    · have hj' : jD = sn.length := by have := hS.roundD; omega
      refine sync (by simpa [dRel, dBlk, hj] using hrel) (by rw [H.ws w _ hw]; simp [absPhase, hj]) (by simp [pendE, hj]) ?_
      intro _
      have ok := I.ok w _ hw
      obtain ⟨h1, d1, nd1, done, h2, h3, h4, h5, h6⟩ := ok
      simp only [nodeD, Option.some.injEq] at h2; subst h2
      rw [hd] at h3; simp at h3; subst h3
      simp only [kidsToRead, List.append_nil] at h4 h5
      subst h4
      have hk := kidsY_read I H hw h5 acc h6
      rw [hj']
      simp only [List.getElem?_concat_length, Option.map_some, Option.some.injEq]
      unfold kidsY
      rw [kidsY_filter, ← hk]
      rfl

end Verif.LockLevel
