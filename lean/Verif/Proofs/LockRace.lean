import Verif.Proofs.LockInv

/-! # Every step keeps locks and workers in agreement; accesses are protected -/

namespace Verif.LockLevel

open Verif.Search

set_option linter.unusedSimpArgs false
set_option linter.unusedSectionVars false

variable {S A R X Y : Type} [DecidableEq S] [DecidableEq A] [Add R] [Zero R]

theorem holds_rel (l : List Nat) (g : Nat → Lk) (next : Phase S A R) (acts : List (Act S X Y A)) :
    holds (.post next (l.map (fun k => Act.rel (g k)) ++ acts) : Pc S A R X Y) = l.map g ++ holds (.post next acts : Pc S A R X Y) := by
  induction l with
  | nil => rfl
  | cons k l ih => simpa [holds] using ih

theorem postOk_rel (l : List Nat) (g : Nat → Lk) (acts : List (Act S X Y A)) :
    PostOk (l.map (fun k => Act.rel (g k)) ++ acts) ↔ PostOk acts := by
  induction l with
  | nil => rfl
  | cons k l ih => simpa [PostOk] using ih

theorem mem_holds_post {l : Lk} {next : Phase S A R} {acts : List (Act S X Y A)} :
    l ∈ holds (.post next acts : Pc S A R X Y) ↔ Act.rel l ∈ acts := by
  simp only [holds, List.mem_filterMap]
  constructor
  · rintro ⟨a, h1, h2⟩
    cases a <;> simp at h2
    subst h2; exact h1
  · intro h; exact ⟨_, h, rfl⟩

theorem set_other {α : Type} {l : List α} {i j : Nat} {x y : α} (h : l[j]? = some y) (hne : j ≠ i) : (l.set i x)[j]? = some y := by
  rw [List.getElem?_set_ne (Ne.symm hne)]; exact h

theorem modify_other {α : Type} {l : List α} {i j : Nat} {g : α → α} {y : α} (h : l[j]? = some y) (hne : j ≠ i) :
    (l.modify i g)[j]? = some y := by
  rw [List.getElem?_modify]; simp [h, Ne.symm hne]

theorem snoc_old {α : Type} {l l' : List α} {j : Nat} {y : α} (h : l[j]? = some y) : (l ++ l')[j]? = some y := by
  rw [List.getElem?_append_left (List.getElem?_eq_some_iff.1 h).1]; exact h

/-- One step: where the worker was, where it is, what has changed. -/
theorem eff_chg {env : Env S A R} {m : Manager S R} {hash : Int × S → Nat} {alg : Alg S A R X Y} {code : Code S A R X Y}
    {f f' : FSt S A R X Y} {w : Nat} {e : Option (Event S A R)} (I : LInv env m code f) (E : FEff env m hash alg code f w e f') :
    (∃ x, f' = { f with crashed := some x } ∧ FCause env m f w x ∧ e = some (.crash w x)) ∨
    ∃ pc pc', Chg m f f' w pc pc' ∧ PcOk env m code f' w pc' := by
  have cs : ∀ (v : Nat), v ≠ w → ∀ x, (f.ctxs.set w x)[v]? = f.ctxs[v]? := fun v hv x => List.getElem?_set_ne (Ne.symm hv)
  cases E with
  | @crash x h => exact .inl ⟨_, rfl, h, rfl⟩
  | began hw =>
    exact .inr ⟨_, _, ⟨hw, rfl, .same rfl (by simp [holds]), fun _ _ h _ => h, fun _ _ h _ => h, Nat.le_refl _, Nat.le_refl _, fun v hv => cs v hv _⟩, trivial⟩
  | completed hw =>
    exact .inr ⟨_, _, ⟨hw, rfl, .same rfl (by simp [holds]), fun _ _ h _ => h, fun _ _ h _ => h, Nat.le_refl _, Nat.le_refl _, fun _ _ => rfl⟩, trivial⟩
  | @enter p l hw hl hv hf =>
    refine .inr ⟨_, _, ⟨hw, rfl, .acq l hf rfl hv ?_ (by simp [holds, hl]), fun _ _ h _ => h, fun _ _ h _ => h, Nat.le_refl _, Nat.le_refl _, fun _ _ => rfl⟩, trivial⟩
    rintro j rfl
    cases p <;> simp [lkOf] at hl
  | @visit cur path rs new nd hw hd hl hm =>
    refine .inr ⟨_, _, ⟨hw, rfl, .same rfl (by simp [holds]), ?_, fun _ _ h _ => h, by simp, Nat.le_refl _, fun _ _ => rfl⟩, .inl ⟨_, _, _, _, rfl⟩⟩
    intro i nd' h hn
    exact set_other h (by rintro rfl; simp [holds, lkOf] at hn)
  | @ended cur path rs new nd hw hd hs =>
    refine .inr ⟨_, _, ⟨hw, rfl, .same rfl (by simp [holds, lkOf]), ?_, fun _ _ h _ => h, by simp, Nat.le_refl _, fun _ _ => rfl⟩, trivial⟩
    intro i nd' h hn
    exact set_other h (by rintro rfl; simp [holds, lkOf] at hn)
  | @selOld pc cur path rs new nd ks held a c hw hd hpc hf =>
    refine .inr ⟨_, _, ⟨hw, rfl, .same rfl ?_, fun _ _ h _ => h, fun _ _ h _ => h, Nat.le_refl _, Nat.le_refl _, fun v hv => cs v hv _⟩, ?_⟩
    · rw [holds_rel]
      rcases hpc with ⟨rfl, rfl, rfl, -⟩ | ⟨sn, rfl, -⟩
      · simp [holds, lkOf]
      · simp only [holds, lkOf, Option.toList, List.filterMap_cons, List.filterMap_nil]
        exact List.perm_append_comm
    · rw [PcOk, postOk_rel]; trivial
  | @selNew pc cur path rs new nd ks held a hw hd hpc hf =>
    refine .inr ⟨_, _, ⟨hw, rfl, .same rfl ?_, fun _ _ h _ => h, fun _ _ h _ => snoc_old h, Nat.le_refl _, by simp, fun v hv => cs v hv _⟩, ?_⟩
    · rw [holds_rel]
      rcases hpc with ⟨rfl, rfl, rfl, -⟩ | ⟨sn, rfl, -⟩
      · simp [holds, lkOf]
      · simp only [holds, lkOf, Option.toList, List.filterMap_cons, List.filterMap_nil]
        exact List.perm_append_comm
    · rw [PcOk, postOk_rel]; simp [PostOk]
  | @startSel cur path rs new nd ks hw hd hk =>
    refine .inr ⟨_, _, ⟨hw, rfl, .same rfl (by simp [holds]), fun _ _ h _ => h, fun _ _ h _ => h, Nat.le_refl _, Nat.le_refl _, fun _ _ => rfl⟩, ?_⟩
    exact ⟨rfl, cur, nd, rfl, hd, by simpa [kidsToRead] using hk⟩
  | @startD pc d nodes before after ret tot nd snaps ks hw hd hpc hk =>
    have ok := I.ok w pc hw
    refine .inr ⟨_, _, ⟨hw, rfl, .same rfl ?_, fun _ _ h _ => h, fun _ _ h _ => h, Nat.le_refl _, Nat.le_refl _, fun _ _ => rfl⟩, ?_⟩
    · rcases hpc with ⟨rfl, rfl, -⟩ | rfl <;> simp [holds]
    · refine ⟨?_, d, nd, rfl, hd, ?_⟩
      · rcases hpc with ⟨rfl, rfl, h⟩ | rfl
        · simpa [RoundD] using Nat.pos_of_ne_zero h
        · obtain ⟨_, _, _, _, _, _, _, h⟩ := ok; exact h
      · simpa [kidsToRead, FSt.ctxOf] using hk
  | @lockD p snaps held k todo hw hv hf =>
    refine .inr ⟨_, _, ⟨hw, rfl, .acq (.c k) hf rfl hv (by simp) ?_, fun _ _ h _ => h, fun _ _ h _ => h, Nat.le_refl _, Nat.le_refl _, fun _ _ => rfl⟩, ?_⟩
    · simp only [holds, List.map_append, List.map_cons, List.map_nil, ← List.append_assoc]
      exact List.perm_append_singleton _ _
    · obtain ⟨h1, d, nd, h2, h3, h4⟩ := I.ok w _ hw
      exact ⟨h1, d, nd, h2, h3, by rw [List.append_assoc]; exact h4⟩
  | @readySel cur path rs new nd snaps held hw hd =>
    refine .inr ⟨_, _, ⟨hw, rfl, .same rfl (by simp [holds]), fun _ _ h _ => h, fun _ _ h _ => h, Nat.le_refl _, Nat.le_refl _, fun _ _ => rfl⟩, ?_⟩
    obtain ⟨h1, d, nd', h2, h3, h4⟩ := I.ok w _ hw
    simp [nodeD] at h2; subst h2
    rw [hd] at h3; simp at h3; subst h3
    refine ⟨h1, _, nd, [], rfl, hd, rfl, ?_, rfl⟩
    intro k hk
    have : k.2 ∈ held ++ [] := h4.mem_iff.2 (List.mem_map_of_mem hk)
    simpa using this
  | @readyD d nodes before after ret tot nd snaps held hw hd =>
    refine .inr ⟨_, _, ⟨hw, rfl, .same rfl (by simp [holds]), fun _ _ h _ => h, fun _ _ h _ => h, Nat.le_refl _, Nat.le_refl _, fun _ _ => rfl⟩, ?_⟩
    obtain ⟨h1, d, nd', h2, h3, h4⟩ := I.ok w _ hw
    simp [nodeD] at h2; subst h2
    rw [hd] at h3; simp at h3; subst h3
    refine ⟨h1, _, nd, [], rfl, hd, rfl, ?_, rfl⟩
    intro k hk
    have : k.2 ∈ held ++ [] := h4.mem_iff.2 (List.mem_map_of_mem hk)
    simpa using this
  | @readD p snaps held acc a k todo nc hw hc =>
    refine .inr ⟨_, _, ⟨hw, rfl, .same rfl (by simp [holds]), fun _ _ h _ => h, fun _ _ h _ => h, Nat.le_refl _, Nat.le_refl _, fun _ _ => rfl⟩, ?_⟩
    obtain ⟨h1, d, nd, done, h2, h3, h4, h5, h6⟩ := I.ok w _ hw
    refine ⟨h1, d, nd, done ++ [(a, k)], h2, h3, ?_, h5, ?_⟩
    · rw [List.append_assoc]; exact h4
    · have : List.map (readY f) done = List.map (readY { f with ws := f.ws.set w (.readD p snaps held (acc ++ [(a, nc.visits, nc.y)]) todo) }) done := rfl
      rw [List.map_append, h6, List.map_append, this]
      simp [readY, hc]
  | @snapD d nodes before after ret tot nd snaps held acc hw hd hn =>
    refine .inr ⟨_, _, ⟨hw, rfl, .same rfl (by simp [holds]), fun _ _ h _ => h, fun _ _ h _ => h, Nat.le_refl _, Nat.le_refl _, fun _ _ => rfl⟩, ?_⟩
    obtain ⟨h1, -⟩ := I.ok w _ hw
    simp only [RoundD] at h1
    exact ⟨_, _, _, _, _, _, rfl, by simp; omega⟩
  | @relD p snaps k held hw =>
    refine .inr ⟨_, _, ⟨hw, rfl, .rel (.c k) rfl ?_, fun _ _ h _ => h, fun _ _ h _ => h, Nat.le_refl _, Nat.le_refl _, fun _ _ => rfl⟩, I.ok w _ hw⟩
    simp only [holds, List.map_cons]
    exact List.perm_middle
  | @backedD pc d nodes before after ret tot nd snaps held hw hd hpc =>
    refine .inr ⟨_, _, ⟨hw, rfl, .same rfl ?_, fun _ _ h _ => h, fun _ _ h _ => h, Nat.le_refl _, Nat.le_refl _, fun _ _ => rfl⟩, ?_⟩
    · rw [holds_rel]
      rcases hpc with ⟨rfl, rfl, rfl, -⟩ | ⟨sn, acc, rfl, -⟩
      · simp [holds, lkOf]
      · simp only [holds, lkOf, Option.toList, List.filterMap_cons, List.filterMap_nil]
        exact List.perm_append_comm
    · rw [PcOk, postOk_rel]; simp [PostOk]
  | @visitC cur a c path rs new nc hw hc =>
    refine .inr ⟨_, _, ⟨hw, rfl, .same rfl (by simp [holds]), fun _ _ h _ => h, ?_, Nat.le_refl _, by simp, fun _ _ => rfl⟩, .inr ⟨_, _, _, _, _, _, rfl⟩⟩
    intro i nd' h hn
    exact set_other h (by rintro rfl; simp [holds, lkOf] at hn)
  | @stepOld cur a c path rs new nc nd o d' hw hc hd ho hf =>
    exact .inr ⟨_, _, ⟨hw, rfl, .same rfl (by simp [holds, lkOf]), fun _ _ h _ => h, fun _ _ h _ => h, Nat.le_refl _, Nat.le_refl _, fun _ _ => rfl⟩, trivial⟩
  | @stepNew cur a c path rs new nc nd o hw hc hd ho hf hu =>
    exact .inr ⟨_, _, ⟨hw, rfl, .same rfl (by simp [holds, lkOf]), fun _ _ h _ => snoc_old h, fun _ _ h _ => h, by simp, Nat.le_refl _, fun _ _ => rfl⟩,
      by simp [PcOk, PostOk]⟩
  | @wantTable cur a c path rs new nc o hw hc ho hf hu hm hl =>
    refine .inr ⟨_, _, ⟨hw, rfl, .acq _ hl rfl trivial ?_ (by simp [holds, lkOf]; exact List.Perm.swap _ _ _), fun _ _ h _ => h, fun _ _ h _ => h, Nat.le_refl _, Nat.le_refl _, fun _ _ => rfl⟩, ?_⟩
    · intro j hj; simp at hj; exact ⟨hu, _, hj.symm⟩
    · exact ⟨_, _, _, _, _, _, nc, rfl, hc, ho, hf, hu, hm⟩
  | @tabHit cur a c path rs new nc nd o j i hw hc hd ht =>
    exact .inr ⟨_, _, ⟨hw, rfl, .same rfl (by simp [holds, lkOf]; exact List.Perm.swap _ _ _), fun _ _ h _ => h, fun _ _ h _ => h, Nat.le_refl _, Nat.le_refl _, fun _ _ => rfl⟩,
      by simp [PcOk, PostOk]⟩
  | @tabMiss cur a c path rs new nc nd o j hw hc hd ht =>
    exact .inr ⟨_, _, ⟨hw, rfl, .same rfl (by simp [holds, lkOf]; exact List.Perm.swap _ _ _), fun _ _ h _ => snoc_old h, fun _ _ h _ => h, by simp, Nat.le_refl _, fun _ _ => rfl⟩,
      by simp [PcOk, PostOk]⟩
  | @startC pc nodes d c before r after ret tot nc snaps ks hw hc hpc hk =>
    have ok := I.ok w pc hw
    refine .inr ⟨_, _, ⟨hw, rfl, .same rfl ?_, fun _ _ h _ => h, fun _ _ h _ => h, Nat.le_refl _, Nat.le_refl _, fun _ _ => rfl⟩, ?_⟩
    · rcases hpc with ⟨rfl, rfl, -⟩ | rfl <;> simp [holds]
    · refine ⟨?_, nodes, d, c, before, r, after, ret, tot, nc, rfl, hc, by simpa using hk⟩
      rcases hpc with ⟨rfl, rfl, h⟩ | rfl
      · simpa [RoundD] using Nat.pos_of_ne_zero h
      · obtain ⟨_, _, _, _, _, _, _, _, _, h⟩ := ok; exact h
  | @lockC p snaps held k todo hw hv hf =>
    refine .inr ⟨_, _, ⟨hw, rfl, .acq (.d k) hf rfl hv (by simp) ?_, fun _ _ h _ => h, fun _ _ h _ => h, Nat.le_refl _, Nat.le_refl _, fun _ _ => rfl⟩, ?_⟩
    · simp only [holds, List.map_append, List.map_cons, List.map_nil, ← List.append_assoc]
      exact List.perm_append_singleton _ _
    · obtain ⟨h1, nodes, d, c, before, r, after, ret, tot, nc, h2, h3, h4⟩ := I.ok w _ hw
      exact ⟨h1, nodes, d, c, before, r, after, ret, tot, nc, h2, h3, by rw [List.append_assoc]; exact h4⟩
  | @readyC nodes d c before r after ret tot nc snaps held hw hc =>
    refine .inr ⟨_, _, ⟨hw, rfl, .same rfl (by simp [holds]), fun _ _ h _ => h, fun _ _ h _ => h, Nat.le_refl _, Nat.le_refl _, fun _ _ => rfl⟩, ?_⟩
    obtain ⟨h1, nodes', d', c', before', r', after', ret', tot', nc', h2, h3, h4⟩ := I.ok w _ hw
    simp at h2
    obtain ⟨⟨-, -, rfl⟩, -⟩ := h2
    rw [hc] at h3; simp at h3; subst h3
    refine ⟨h1, nodes, d, c, before, r, after, ret, tot, nc, [], rfl, hc, rfl, ?_, rfl⟩
    intro k hk
    have : k.2 ∈ held ++ [] := h4.mem_iff.2 (List.mem_map_of_mem hk)
    simpa using this
  | @readC p snaps held acc o k todo nd hw hd =>
    refine .inr ⟨_, _, ⟨hw, rfl, .same rfl (by simp [holds]), fun _ _ h _ => h, fun _ _ h _ => h, Nat.le_refl _, Nat.le_refl _, fun _ _ => rfl⟩, ?_⟩
    obtain ⟨h1, nodes, d, c, before, r, after, ret, tot, nc, done, h2, h3, h4, h5, h6⟩ := I.ok w _ hw
    refine ⟨h1, nodes, d, c, before, r, after, ret, tot, nc, done ++ [(o, k)], h2, h3, ?_, h5, ?_⟩
    · rw [List.append_assoc]; exact h4
    · have : List.map (readX f) done = List.map (readX { f with ws := f.ws.set w (.readC p snaps held (acc ++ [(o, nd.x)]) todo) }) done := rfl
      rw [List.map_append, h6, List.map_append, this]
      simp [readX, hd]
  | @snapC nodes d c before r after ret tot nc snaps held acc hw hc hn =>
    refine .inr ⟨_, _, ⟨hw, rfl, .same rfl (by simp [holds]), fun _ _ h _ => h, fun _ _ h _ => h, Nat.le_refl _, Nat.le_refl _, fun _ _ => rfl⟩, ?_⟩
    obtain ⟨h1, -⟩ := I.ok w _ hw
    exact ⟨_, _, _, _, _, _, _, _, rfl, by simp; omega⟩
  | @relC p snaps k held hw =>
    refine .inr ⟨_, _, ⟨hw, rfl, .rel (.d k) rfl ?_, fun _ _ h _ => h, fun _ _ h _ => h, Nat.le_refl _, Nat.le_refl _, fun _ _ => rfl⟩, I.ok w _ hw⟩
    simp only [holds, List.map_cons]
    exact List.perm_middle
  | @backedC pc nodes d c before r after ret tot nc snaps held hw hc hpc =>
    refine .inr ⟨_, _, ⟨hw, rfl, .same rfl ?_, fun _ _ h _ => h, fun _ _ h _ => h, Nat.le_refl _, Nat.le_refl _, fun _ _ => rfl⟩, ?_⟩
    · rw [holds_rel]
      rcases hpc with ⟨rfl, rfl, rfl, -⟩ | ⟨sn, acc, rfl, -⟩
      · simp [holds, lkOf]
      · simp only [holds, lkOf, List.getLast?_concat, Option.map_some, Option.toList, List.filterMap_cons, List.filterMap_nil]
        exact List.perm_append_comm
    · rw [PcOk, postOk_rel]; simp [PostOk]
  | @post next act acts hw =>
    have ok := I.ok w _ hw
    cases act with
    | rel l =>
      exact .inr ⟨_, _, ⟨hw, rfl, .rel l rfl (by simp [holds]), fun _ _ h _ => h, fun _ _ h _ => h, Nat.le_refl _, Nat.le_refl _, fun _ _ => rfl⟩, ok⟩
    | kidD d a c =>
      refine .inr ⟨_, _, ⟨hw, rfl, .same rfl (by simp [holds]), ?_, fun _ _ h _ => h, by simp [doAct, FSt.setW], Nat.le_refl _, fun _ _ => rfl⟩, ok.2⟩
      intro i nd' h hn
      exact modify_other h (by rintro rfl; exact hn (mem_holds_post.2 (List.mem_cons_of_mem _ ok.1)))
    | setX d x =>
      refine .inr ⟨_, _, ⟨hw, rfl, .same rfl (by simp [holds]), ?_, fun _ _ h _ => h, by simp [doAct, FSt.setW], Nat.le_refl _, fun _ _ => rfl⟩, ok.2⟩
      intro i nd' h hn
      exact modify_other h (by rintro rfl; exact hn (mem_holds_post.2 (List.mem_cons_of_mem _ ok.1)))
    | kidC c o d =>
      refine .inr ⟨_, _, ⟨hw, rfl, .same rfl (by simp [holds]), fun _ _ h _ => h, ?_, Nat.le_refl _, by simp [doAct, FSt.setW], fun _ _ => rfl⟩, ok.2⟩
      intro i nd' h hn
      exact modify_other h (by rintro rfl; exact hn (mem_holds_post.2 (List.mem_cons_of_mem _ ok.1)))
    | setY c y =>
      refine .inr ⟨_, _, ⟨hw, rfl, .same rfl (by simp [holds]), fun _ _ h _ => h, ?_, Nat.le_refl _, by simp [doAct, FSt.setW], fun _ _ => rfl⟩, ok.2⟩
      intro i nd' h hn
      exact modify_other h (by rintro rfl; exact hn (mem_holds_post.2 (List.mem_cons_of_mem _ ok.1)))
    | ins k d =>
      exact .inr ⟨_, _, ⟨hw, rfl, .same rfl (by simp [holds]), fun _ _ h _ => h, fun _ _ h _ => h, Nat.le_refl _, Nat.le_refl _, fun _ _ => rfl⟩, ok.2⟩
  | @leave next hw =>
    exact .inr ⟨_, _, ⟨hw, rfl, .same rfl (by simp [holds]), fun _ _ h _ => h, fun _ _ h _ => h, Nat.le_refl _, Nat.le_refl _, fun _ _ => rfl⟩, trivial⟩

theorem linv_eff {env : Env S A R} {m : Manager S R} {hash : Int × S → Nat} {alg : Alg S A R X Y} {code : Code S A R X Y}
    {f f' : FSt S A R X Y} {w : Nat} {e : Option (Event S A R)} (I : LInv env m code f) (E : FEff env m hash alg code f w e f') :
    LInv env m code f' := by
  rcases eff_chg I E with ⟨x, rfl, -⟩ | ⟨pc, pc', C, ok⟩
  · refine ⟨I.own, I.only, I.nodup, I.valid, I.index, ?_⟩
    intro w pc h
    exact pcOk_frame (I.ok w pc h) rfl (fun _ _ => rfl) (fun _ _ => rfl)
  · exact linv_step I C ok

theorem linv_init (env : Env S A R) (m : Manager S R) (alg : Alg S A R X Y) (code : Code S A R X Y) (k : Nat) (s0 : S) (dp tm : Int)
    (tb : List ((Int × S) × Option Nat)) : LInv env m code (finit env m alg k s0 dp tm tb) := by
  have key : ∀ (w : Nat) pc, (finit env m alg k s0 dp tm tb).ws[w]? = some pc → pc = .out .idle := by
    intro w pc h
    simp only [finit, List.getElem?_replicate] at h
    split at h
    · simpa using h.symm
    · simp at h
  refine ⟨?_, ?_, ?_, ?_, ?_, ?_⟩
  · intro w pc h l hl; rw [key w pc h] at hl; simp [holds] at hl
  · intro l w h; simp [finit] at h
  · intro w pc h; rw [key w pc h]; simp [holds]
  · intro l w h; simp [finit] at h
  · intro l w h; simp [finit] at h
  · intro w pc h; rw [key w pc h]; trivial

theorem fexec_induct {env : Env S A R} {m : Manager S R} {hash : Int × S → Nat} {alg : Alg S A R X Y} {code : Code S A R X Y}
    {P : FSt S A R X Y → List (Event S A R) → Prop}
    (hs : ∀ f h w e f', P f h → f.crashed = none → FEff env m hash alg code f w e f' → P f' (e.toList ++ h)) :
    ∀ ls f h f' h', P f h → fexec env m hash alg code f h ls = some (f', h') → P f' h' := by
  intro ls
  induction ls with
  | nil => intro f h f' h' hp he; simp [fexec] at he; obtain ⟨rfl, rfl⟩ := he; exact hp
  | cons x ls ih =>
    intro f h f' h' hp he
    obtain ⟨w, ch⟩ := x
    simp only [fexec] at he
    split at he
    · rename_i f1 e h1
      obtain ⟨hc, E⟩ := fstep_eff h1
      exact ih _ _ _ _ (hs _ _ _ _ _ hp hc E) he
    · simp at he

theorem linv_reach {env : Env S A R} {m : Manager S R} {hash : Int × S → Nat} {alg : Alg S A R X Y} {code : Code S A R X Y} {k : Nat} {s0 : S}
    {dp tm : Int} {tb : List ((Int × S) × Option Nat)} {f : FSt S A R X Y} {h : List (Event S A R)}
    (hr : FReachable env m hash alg code k s0 dp tm tb f h) : LInv env m code f := by
  obtain ⟨ls, hr⟩ := hr
  exact fexec_induct (P := fun f _ => LInv env m code f) (fun _ _ _ _ _ I _ E => linv_eff I E) ls _ _ _ _
    (linv_init env m alg code k s0 dp tm tb) hr

/-- The lock that protects a location is among the locks held. -/
def Protected (pc : Pc S A R X Y) : Loc → Prop
  | .d i => Lk.d i ∈ holds pc
  | .c i => Lk.c i ∈ holds pc
  | .table => ∃ j, Lk.t j ∈ holds pc

theorem nodeOf_lkOf {p : Phase S A R} {l : Loc} (h : nodeOf p = some l) :
    (∃ i, l = .d i ∧ lkOf p = some (.d i)) ∨ (∃ i, l = .c i ∧ lkOf p = some (.c i)) := by
  cases p <;> simp_all [nodeOf, lkOf] <;> grind

theorem access_protected {env : Env S A R} {m : Manager S R} {code : Code S A R X Y} {f : FSt S A R X Y} {w : Nat} {pc : Pc S A R X Y}
    (ok : PcOk env m code f w pc) {l : Loc} {b : Bool} (h : (l, b) ∈ accesses pc) : Protected pc l := by
  have own : ∀ (p : Phase S A R) (l : Loc) (b : Bool) (L : List Lk), (l, b) ∈ ((nodeOf p).toList.map fun l => (l, false)) →
      (∀ x, lkOf p = some x → x ∈ holds pc) → Protected pc l := by
    intro p l b L h hx
    simp only [List.mem_map, Option.mem_toList, Prod.mk.injEq] at h
    obtain ⟨_, h, rfl, -⟩ := h
    rcases nodeOf_lkOf h with ⟨i, rfl, h1⟩ | ⟨i, rfl, h1⟩
    · exact hx _ h1
    · exact hx _ h1
  cases pc with
  | out p => simp [accesses] at h
  | own p =>
    cases p with
    | idle => simp [accesses, nodeOf] at h
    | sel cur path rs new => simp [accesses] at h; rw [h.1]; simp [Protected, holds, lkOf]
    | samp cur a c path rs new => simp [accesses] at h; rw [h.1]; simp [Protected, holds, lkOf]
    | back nodes before after ret tot => exact own _ l b [] h (by intro x hx; simp [holds, hx])
    | backD d nodes before after ret tot => exact own _ l b [] h (by intro x hx; simp [holds, hx])
  | vis p => exact own _ l b [] h (by intro x hx; simp [holds, hx])
  | lockD p snaps held todo =>
    cases todo with
    | nil => exact own _ l b [] h (by intro x hx; simp [holds, hx])
    | cons k todo => simp [accesses] at h
  | readD p snaps held acc todo =>
    cases todo with
    | nil => exact own _ l b [] h (by intro x hx; simp [holds, hx])
    | cons k todo =>
      obtain ⟨a, k⟩ := k
      simp [accesses] at h
      obtain ⟨h1, d, nd, done, h2, h3, h4, h5, h6⟩ := ok
      rw [h.1]
      have := h5 (a, k) (by rw [h4]; simp)
      simp [Protected, holds, this]
  | relD p snaps held =>
    cases held with
    | nil => exact own _ l b [] h (by intro x hx; simp [holds, hx])
    | cons k todo => simp [accesses] at h
  | lockC p snaps held todo =>
    cases todo with
    | nil => exact own _ l b [] h (by intro x hx; simp [holds, hx])
    | cons k todo => simp [accesses] at h
  | readC p snaps held acc todo =>
    cases todo with
    | nil => exact own _ l b [] h (by intro x hx; simp [holds, hx])
    | cons k todo =>
      obtain ⟨o, k⟩ := k
      simp [accesses] at h
      obtain ⟨h1, nodes, d, c, before, r, after, ret, tot, nc, done, h2, h3, h4, h5, h6⟩ := ok
      rw [h.1]
      have := h5 (o, k) (by rw [h4]; simp)
      simp [Protected, holds, this]
  | relC p snaps held =>
    cases held with
    | nil => exact own _ l b [] h (by intro x hx; simp [holds, hx])
    | cons k todo => simp [accesses] at h
  | tab p o j =>
    simp only [accesses, List.mem_cons] at h
    rcases h with h | h
    · simp at h; rw [h.1]; exact ⟨j, by simp [holds]⟩
    · exact own _ l b [] h (by intro x hx; simp [holds, hx])
  | post next acts =>
    cases acts with
    | nil => simp [accesses] at h
    | cons act acts =>
      cases act <;> simp [accesses] at h <;> (rw [h.1]) <;> simp only [Protected, mem_holds_post, PcOk, PostOk] at ok ⊢
      · exact List.mem_cons_of_mem _ ok.1
      · exact List.mem_cons_of_mem _ ok.1
      · exact List.mem_cons_of_mem _ ok.1
      · exact List.mem_cons_of_mem _ ok.1
      · obtain ⟨⟨j, hj⟩, -⟩ := ok
        exact ⟨j, List.mem_cons_of_mem _ hj⟩

theorem no_race {env : Env S A R} {m : Manager S R} {code : Code S A R X Y} {f : FSt S A R X Y} (I : LInv env m code f)
    (hm : m.useTable = true → m.numMutexes ≤ 1) : ¬ Race f := by
  rintro ⟨w1, w2, p1, p2, l, b1, b2, hne, h1, h2, ha1, ha2, -⟩
  have q1 := access_protected (I.ok _ _ h1) ha1
  have q2 := access_protected (I.ok _ _ h2) ha2
  have key : ∀ x, x ∈ holds p1 → x ∈ holds p2 → False := by
    intro x hx1 hx2
    have g1 := I.own _ _ h1 x hx1
    have g2 := I.own _ _ h2 x hx2
    rw [g1] at g2
    exact hne (by simpa using g2)
  cases l with
  | d i => exact key _ q1 q2
  | c i => exact key _ q1 q2
  | table =>
    obtain ⟨j1, q1⟩ := q1
    obtain ⟨j2, q2⟩ := q2
    obtain ⟨u, x1, e1⟩ := I.index j1 w1 (I.own _ _ h1 _ q1)
    obtain ⟨-, x2, e2⟩ := I.index j2 w2 (I.own _ _ h2 _ q2)
    have hm := hm u
    have z : ∀ x, mutexIndex m.numMutexes x = 0 := by intro x; unfold mutexIndex; split <;> omega
    rw [z] at e1 e2
    subst e1; subst e2
    exact key _ q1 q2

end Verif.LockLevel
