import Verif.Proofs.LockRefine

/-! # The simulation: backups of chance nodes, and every step -/

namespace Verif.LockLevel

open Verif.Search

set_option linter.unusedSimpArgs false
set_option linter.unusedSectionVars false

variable {S A R X Y X' Y' : Type} [DecidableEq S] [DecidableEq A] [Add R] [Zero R]
variable {env : Env S A R} {m : Manager S R} {hash : Int × S → Nat} {code : Code S A R X Y} {alg : Alg S A R X Y} {alg' : Alg S A R X' Y'}
  {π : X → X'} {ρ : Y → Y'} {jD jC : Nat} {f f' : FSt S A R X Y} {s s' : St S A R X' Y'} {w : Nat} {e : Option (Event S A R)}

theorem cBlk_back {nodes : List (Nat × Nat)} {d c : Nat} {before : List R} {r : R} {after : List R} {ret tot : R} {snaps : List (List (S × X))}
    {i : Nat} {nc : CNode S A R Y} {nc' : CNode S A R Y'} :
    cBlk alg' π ρ jC (.back (nodes ++ [(d, c)]) (before ++ [r]) after ret tot) snaps i nc nc' ↔
      if i = c ∧ jC < snaps.length then DoneC alg' π ρ jC snaps ⟨before, after ++ [r], ret + r, tot⟩ nc nc' else nc' = mapC ρ nc := by
  simp [cBlk]

theorem sim_snapC (hm : m.useTable = true → m.numMutexes ≤ 1)
    (I : LInv env m code f) (H : Rel env m code alg alg' π ρ jD jC f s) (hcr : f'.crashed = none)
    {nodes d c before r after ret tot nc snaps held acc} (E : FEff env m hash alg code f w none f')
    (hw : f.ws[w]? = some (.readC (.back (nodes ++ [(d, c)]) (before ++ [r]) after ret tot) snaps held acc [])) (hc : f.cn[c]? = some nc)
    (hn : snaps.length + 1 ≠ code.nC)
    (hf' : f' = { f with ws := f.ws.set w (.relC (.back (nodes ++ [(d, c)]) (before ++ [r]) after ret tot) (snaps ++ [acc]) held) }) :
    Out env m code alg alg' π ρ jD jC f f' s w none := by
  subst hf'
  have ok := I.ok w _ hw
  obtain ⟨h1, nodes', d', c1, before', r', after', ret', tot', nc1, done, he, h3, h4, h5, h6⟩ := ok
  simp only [Phase.back.injEq, List.append_singleton_inj, Prod.mk.injEq] at he
  obtain ⟨⟨rfl, rfl, rfl⟩, ⟨rfl, rfl⟩, rfl, rfl, rfl⟩ := he
  rw [hc] at h3; simp at h3; subst h3
  simp only [List.append_nil] at h4
  subst h4
  by_cases hj : snaps.length = jC
  · obtain ⟨nc', hc'⟩ := cn_get H hc
    have hheld : Lk.c c ∈ holds (.readC (.back (nodes ++ [(d, c)]) (before ++ [r]) after ret tot) snaps held acc [] : Pc S A R X Y) := by
      simp [holds, lkOf]
    have hrel : nc' = mapC ρ nc := by
      have := H.cown c nc nc' hc hc' w _ hw hheld
      simpa [cRel, cBlk_back, hj] using this
    subst hrel
    have hph : s.ws[w]? = some (.back (nodes ++ [(d, c)]) (before ++ [r]) after ret tot) := by
      rw [H.ws w _ hw]; simp [absPhase, hj]
    have E' := Eff.backedC (env := env) (m := m) (alg := alg') hph hc'
    refine .early rfl (do_step H.crashed E' H.crashed (fun _ => .inr (by simp))) ?_ ?_ (.inr (by omega))
    · refine rel_parts I E H hm hcr hw rfl H.root H.ctxs H.crashed ?_ (DPart.same H rfl rfl (fun i n n' h => h))
        (CPart.one H c hheld (fun _ _ => rfl) rfl ?_ (by simp) ?_ ?_) id (fun _ => ⟨rfl, rfl⟩)
      · simp [absPhase, hj, nextC]
      · intro i hi; simp only; rw [List.getElem?_set_ne (Ne.symm hi)]
      · intro n n' g1 g2 g3 p p' g4 g5
        simp only at g4 g5
        rw [hc] at g4; simp at g4; subst g4
        have := set_same_get hc' g5
        subst this
        have hk := kidsX_read I H hw h5 acc h6
        simp only [cRel, cBlk_back, true_and, List.length_append, List.length_singleton]
        rw [if_pos (by omega)]
        refine ⟨kidsX s (mapC ρ nc), ?_, rfl⟩
        rw [← hj]
        simp only [List.getElem?_concat_length, Option.map_some, Option.some.injEq]
        exact hk.symm
      · intro i n n' hi h
        simp only [cRel, cBlk_back, hi, false_and, if_false] at h ⊢
        exact h
    · intro q q' h h'
      obtain ⟨rfl, rfl⟩ := pc_of hw rfl q q' h h'
      simp [pendE, hj, evC]
  · have hlt : jC < (snaps ++ [acc]).length ↔ jC < snaps.length := by simp; omega
    refine same_of I E H hm hcr hw rfl rfl rfl rfl rfl rfl ?_ (fun _ _ _ h => h) ?_ rfl ?_
    · simp only [absPhase, hlt]
    · intro i n n' h
      simp only [cRel, cBlk_back, hlt] at h ⊢
      split at h
      · rename_i hc
        rw [if_pos hc]
        obtain ⟨kids, g1, g2⟩ := h
        refine ⟨kids, ?_, g2⟩
        rw [List.getElem?_append_left hc.2]; exact g1
      · rename_i hc; rw [if_neg hc]; exact h
    · simp only [pendE, hlt]

theorem sim_backC (hS : Simulates alg code alg' π ρ jD jC) (hm : m.useTable = true → m.numMutexes ≤ 1)
    (I : LInv env m code f) (H : Rel env m code alg alg' π ρ jD jC f s) (hcr : f'.crashed = none)
    {pc : Pc S A R X Y} {nodes d c before r after ret tot nc snaps held}
    (E : FEff env m hash alg code f w (some (.backedC w c ⟨before, after ++ [r], ret + r, tot⟩)) f')
    (hw : f.ws[w]? = some pc) (hc : f.cn[c]? = some nc)
    (hpc : (pc = .own (.back (nodes ++ [(d, c)]) (before ++ [r]) after ret tot) ∧ snaps = [] ∧ held = [] ∧ code.nC = 0) ∨
        ∃ sn acc, pc = .readC (.back (nodes ++ [(d, c)]) (before ++ [r]) after ret tot) sn held acc [] ∧ snaps = sn ++ [acc] ∧
          sn.length + 1 = code.nC)
    (hf' : f' = { f with ws := f.ws.set w (.post (.backD d nodes before (after ++ [r]) (ret + r) tot) (held.map (fun k => Act.rel (.d k)) ++
            [.setY c (code.resC nc.state nc.action nc.y snaps ⟨before, after ++ [r], ret + r, tot⟩), .rel (.c c)])) }) :
    Out env m code alg alg' π ρ jD jC f f' s w (some (.backedC w c ⟨before, after ++ [r], ret + r, tot⟩)) := by
  subst hf'
  obtain ⟨nc', hc'⟩ := cn_get H hc
  have hheld : Lk.c c ∈ holds pc := by
    rcases hpc with ⟨rfl, -⟩ | ⟨sn, acc, rfl, -⟩ <;> simp [holds, lkOf]
  have hrel := H.cown c nc nc' hc hc' w _ hw hheld
  have hoth : ∀ i n n', i ≠ c → cRel alg alg' π ρ jC pc i n n' → n' = mapC ρ n := by
    intro i n n' hi h
    rcases hpc with ⟨rfl, -⟩ | ⟨sn, acc, rfl, -⟩
    · exact h
    · simpa [cRel, cBlk_back, hi] using h
  have hdsame : ∀ i n n', dRel env m code alg alg' π ρ jD (f.ctxOf w) pc i n n' → n' = mapD π n := by
    intro i n n' h
    rcases hpc with ⟨rfl, -⟩ | ⟨sn, acc, rfl, -⟩ <;> exact h
  have hins : insOf pc = [] := by rcases hpc with ⟨rfl, -⟩ | ⟨sn, acc, rfl, -⟩ <;> rfl
  have hlen : snaps.length = code.nC := by
    rcases hpc with ⟨rfl, rfl, rfl, h⟩ | ⟨sn, acc, rfl, rfl, h⟩
    · simp [h]
    · simpa using h
  have sync : ∀ (_ : nc' = mapC ρ nc) (_ : s.ws[w]? = some (.back (nodes ++ [(d, c)]) (before ++ [r]) after ret tot))
      (_ : pendE jD jC w pc = [])
      (_ : jC < code.nC → (snaps[jC]?).map (fun l => l.map fun k => (k.1, π k.2)) = some (kidsX s (mapC ρ nc))),
      Out env m code alg alg' π ρ jD jC f
        { f with ws := f.ws.set w (.post (.backD d nodes before (after ++ [r]) (ret + r) tot) (held.map (fun k => Act.rel (.d k)) ++
            [.setY c (code.resC nc.state nc.action nc.y snaps ⟨before, after ++ [r], ret + r, tot⟩), .rel (.c c)])) }
        s w (some (.backedC w c ⟨before, after ++ [r], ret + r, tot⟩)) := by
    rintro rfl hph hpend hk
    have E' := Eff.backedC (env := env) (m := m) (alg := alg') hph hc'
    refine .sync rfl (do_step H.crashed E' H.crashed (fun _ => .inr (by simp))) ?_ ?_
    · refine rel_parts I E H hm hcr hw rfl H.root H.ctxs H.crashed rfl (DPart.same H rfl rfl ?_)
        (CPart.one H c hheld (fun _ _ => rfl) rfl ?_ (by simp) ?_ ?_) ?_ (fun _ => ⟨rfl, rfl⟩)
      · intro i n n' h
        simp only [dRel, actsD_rel]
        rw [hdsame i n n' h]
        rfl
      · intro i hi; simp only; rw [List.getElem?_set_ne (Ne.symm hi)]
      · intro n n' g1 g2 g3 p p' g4 g5
        simp only at g4 g5
        rw [hc] at g4; simp at g4; subst g4
        have := set_same_get hc' g5
        subst this
        have hr := hS.resC nc.state nc.action nc.y (kidsX s (mapC ρ nc)) snaps ⟨before, after ++ [r], ret + r, tot⟩ hlen hk
        simp only [cRel, actsC_rel]
        simp only [actsC, actC, List.foldl_cons, List.foldl_nil, if_true, mapC, CNode.mk.injEq, true_and]
        rw [hr]; rfl
      · intro i n n' hi h
        simp only [cRel, actsC_rel]
        rw [hoth i n n' hi h]
        simp [actsC, actC, Ne.symm hi]
      · intro h; rw [hins] at h; rw [insOf_rel]; exact h
    · intro q q' h h'
      obtain ⟨rfl, rfl⟩ := pc_of hw rfl q q' h h'
      exact ⟨rfl, hpend⟩
  rcases hpc with ⟨rfl, rfl, rfl, h0⟩ | ⟨sn, acc, rfl, rfl, h0⟩
  · exact sync hrel (H.ws w _ hw) rfl (fun h => by omega)
  · by_cases hj : jC < sn.length
    · simp only [cRel, cBlk_back, true_and, hj, if_true] at hrel
      obtain ⟨kids, g1, g2⟩ := hrel
      refine .late rfl ?_ ?_ (.inr (by omega))
      · refine rel_parts I E H hm hcr hw rfl H.root H.ctxs H.crashed ?_ (DPart.same H rfl rfl ?_)
          (CPart.one H c hheld (fun _ _ => rfl) rfl (fun _ _ => rfl) rfl ?_ ?_) ?_ (fun _ => ⟨rfl, rfl⟩)
        · exact ws_same H hw (by simp [absPhase, hj, nextC])
        · intro i n n' h
          simp only [dRel, actsD_rel]
          rw [hdsame i n n' h]
          rfl
        · intro n n' e1 e2 _ p p' e4 e5
          simp only at e4 e5
          rw [hc] at e4; rw [hc'] at e5; simp at e4 e5; subst e4; subst e5
          have hr := hS.resC nc.state nc.action nc.y kids (sn ++ [acc]) ⟨before, after ++ [r], ret + r, tot⟩ hlen
            (fun _ => by rw [List.getElem?_append_left hj]; exact g1)
          simp only [cRel, actsC_rel]
          simp only [actsC, actC, List.foldl_cons, List.foldl_nil, if_true, mapC]
          rw [g2, hr]; rfl
        · intro i n n' hi h
          simp only [cRel, actsC_rel]
          rw [hoth i n n' hi h]
          simp [actsC, actC, Ne.symm hi]
        · intro h; rw [insOf_rel]; exact h
      · intro q q' h h'
        obtain ⟨rfl, rfl⟩ := pc_of hw rfl q q' h h'
        simp [pendE, hj, evC]
    · have hj' : jC = sn.length := by have := hS.roundC; omega
      refine sync (by simpa [cRel, cBlk_back, hj] using hrel) (by rw [H.ws w _ hw]; simp [absPhase, hj]) (by simp [pendE, hj]) ?_
      intro _
      have ok := I.ok w _ hw
      obtain ⟨h1, nodes', d', c1, before', r', after', ret', tot', nc1, done, he, h3, h4, h5, h6⟩ := ok
      simp only [Phase.back.injEq, List.append_singleton_inj, Prod.mk.injEq] at he
      obtain ⟨⟨rfl, rfl, rfl⟩, ⟨rfl, rfl⟩, rfl, rfl, rfl⟩ := he
      rw [hc] at h3; simp at h3; subst h3
      simp only [List.append_nil] at h4
      subst h4
      have hk := kidsX_read I H hw h5 acc h6
      rw [hj']
      simp only [List.getElem?_concat_length, Option.map_some, Option.some.injEq]
      exact hk.symm

end Verif.LockLevel
