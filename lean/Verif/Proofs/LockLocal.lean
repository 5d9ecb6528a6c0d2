import Verif.Proofs.LockRace

/-! # Local invariants at the level of locks: a property of the data of every node, of everything that is read and of everything that is
about to be written -/

namespace Verif.LockLevel

open Verif.Search

set_option linter.unusedSimpArgs false
set_option linter.unusedSectionVars false

variable {S A R X Y : Type} [DecidableEq S] [DecidableEq A] [Add R] [Zero R]

/-- What a worker has read or is about to write satisfies `P` (decision nodes) and `Q` (chance nodes). -/
def PcData (P : X → Prop) (Q : Y → Prop) : Pc S A R X Y → Prop
  | .lockD _ snaps _ _ | .relD _ snaps _ => ∀ l ∈ snaps, ∀ k ∈ l, Q k.2.2
  | .readD _ snaps _ acc _ => (∀ l ∈ snaps, ∀ k ∈ l, Q k.2.2) ∧ ∀ k ∈ acc, Q k.2.2
  | .lockC _ snaps _ _ | .relC _ snaps _ => ∀ l ∈ snaps, ∀ k ∈ l, P k.2
  | .readC _ snaps _ acc _ => (∀ l ∈ snaps, ∀ k ∈ l, P k.2) ∧ ∀ k ∈ acc, P k.2
  | .post _ acts => (∀ d x, Act.setX d x ∈ acts → P x) ∧ ∀ c y, Act.setY c y ∈ acts → Q y
  | _ => True

structure AllData (P : X → Prop) (Q : Y → Prop) (f : FSt S A R X Y) : Prop where
  d : ∀ (i : Nat) nd, f.dn[i]? = some nd → P nd.x
  c : ∀ (i : Nat) nc, f.cn[i]? = some nc → Q nc.y
  w : ∀ (w : Nat) pc, f.ws[w]? = some pc → PcData P Q pc

/-- What must be shown of an algorithm and its code; `J` is an invariant that is known already. -/
structure DataInv (env : Env S A R) (m : Manager S R) (alg : Alg S A R X Y) (code : Code S A R X Y)
    (J : FSt S A R X Y → Prop) (P : X → Prop) (Q : Y → Prop) : Prop where
  initD : ∀ s d t, P (newD env m alg s d t).x
  initC : ∀ nd a, Q (newC alg nd a).y
  visitD : ∀ b x, P x → P (alg.visitD b x)
  visitC : ∀ y, Q y → Q (alg.visitC y)
  resD : ∀ (f : FSt S A R X Y) (w d : Nat) (nd : DNode S A R X) snaps ctx args next rels, J f → f.crashed = none →
    f.ws[w]? = some (.post next (rels ++ [.setX d (code.resD (ownView env m nd []) snaps ctx args), .rel (.d d)])) →
    f.dn[d]? = some nd → P nd.x → (∀ l ∈ snaps, ∀ k ∈ l, Q k.2.2) → (∀ d' x, Act.setX d' x ∉ rels) →
    P (code.resD (ownView env m nd []) snaps ctx args)
  resC : ∀ (f : FSt S A R X Y) (w c : Nat) (nc : CNode S A R Y) snaps args next rels, J f → f.crashed = none →
    f.ws[w]? = some (.post next (rels ++ [.setY c (code.resC nc.state nc.action nc.y snaps args), .rel (.c c)])) →
    f.cn[c]? = some nc → Q nc.y → (∀ l ∈ snaps, ∀ k ∈ l, P k.2) → (∀ c' y, Act.setY c' y ∉ rels) →
    Q (code.resC nc.state nc.action nc.y snaps args)

variable {env : Env S A R} {m : Manager S R} {hash : Int × S → Nat} {alg : Alg S A R X Y} {code : Code S A R X Y}
  {f f' : FSt S A R X Y} {P : X → Prop} {Q : Y → Prop} {w : Nat} {e : Option (Event S A R)}

theorem set_ws {pc : Pc S A R X Y} {ws : List (Pc S A R X Y)} (hw : ∀ (w : Nat) pc, ws[w]? = some pc → PcData P Q pc) (v : Nat) (h : PcData P Q pc) :
    ∀ (w : Nat) pc', (ws.set v pc)[w]? = some pc' → PcData P Q pc' := by
  intro w pc' h'
  rw [List.getElem?_set] at h'
  split at h'
  · split at h'
    · simp at h'; subst h'; exact h
    · simp at h'
  · exact hw w pc' h'

theorem set_nodes {α : Type} {l : List α} {p : α → Prop} (hl : ∀ (i : Nat) x, l[i]? = some x → p x) {y : α} (hy : p y) (j : Nat) :
    ∀ (i : Nat) x, (l.set j y)[i]? = some x → p x := by
  intro i x h
  rw [List.getElem?_set] at h
  split at h
  · split at h
    · simp at h; subst h; exact hy
    · simp at h
  · exact hl i x h

theorem app_nodes {α : Type} {l : List α} {p : α → Prop} (hl : ∀ (i : Nat) x, l[i]? = some x → p x) {y : α} (hy : p y) :
    ∀ (i : Nat) x, (l ++ [y])[i]? = some x → p x := by
  intro i x h
  rw [List.getElem?_append] at h
  split at h
  · exact hl i x h
  · cases hj : i - l.length with
    | zero => simp [hj] at h; subst h; exact hy
    | succ j => simp [hj] at h

theorem mod_nodes {α : Type} {l : List α} {p : α → Prop} (hl : ∀ (i : Nat) x, l[i]? = some x → p x) {g : α → α} (hg : ∀ x, p x → p (g x)) (j : Nat) :
    ∀ (i : Nat) x, (l.modify j g)[i]? = some x → p x := by
  intro i x h
  rw [List.getElem?_modify] at h
  cases hi : l[i]? with
  | none => simp [hi] at h
  | some z =>
    simp only [hi, Option.map_some] at h
    split at h
    · simp at h; subst h; exact hg z (hl i z hi)
    · simp at h; subst h; exact hl i _ hi

theorem rels_clean {acts : List Nat} {g : Nat → Lk} :
    (∀ d x, (Act.setX d x : Act S X Y A) ∉ acts.map (fun k => Act.rel (g k))) ∧ ∀ d y, (Act.setY d y : Act S X Y A) ∉ acts.map (fun k => Act.rel (g k)) := by
  constructor <;> simp

theorem data_eff {J : FSt S A R X Y → Prop} (D : DataInv env m alg code J P Q) (hj : J f') (H : AllData P Q f)
    (hc : f'.crashed = none) (E : FEff env m hash alg code f w e f') : AllData P Q f' := by
  cases E with
  | crash h => simp at hc
  | began hw => exact ⟨H.d, H.c, set_ws H.w w (by exact trivial)⟩
  | completed hw => exact ⟨H.d, H.c, set_ws H.w w (by exact trivial)⟩
  | enter hw hl hv hf => exact ⟨H.d, H.c, set_ws H.w w (by exact trivial)⟩
  | visit hw hd hl hm => exact ⟨set_nodes H.d (p := fun nd : DNode S A R X => P nd.x) (D.visitD _ _ (H.d _ _ hd)) _, H.c, set_ws H.w w (by exact trivial)⟩
  | ended hw hd hs =>
    exact ⟨set_nodes H.d (p := fun nd : DNode S A R X => P nd.x) (D.visitD _ _ (H.d _ _ hd)) _, H.c, set_ws H.w w (by simp [PcData])⟩
  | selOld hw hd hpc hf => exact ⟨H.d, H.c, set_ws H.w w (by simp [PcData])⟩
  | selNew hw hd hpc hf =>
    exact ⟨H.d, app_nodes H.c (p := fun nc : CNode S A R Y => Q nc.y) (D.initC _ _), set_ws H.w w (by simp [PcData])⟩
  | startSel hw hd hk => exact ⟨H.d, H.c, set_ws H.w w (by simp [PcData])⟩
  | @startD pc d nodes before after ret tot nd snaps ks hw hd hpc hk =>
    refine ⟨H.d, H.c, set_ws H.w w ?_⟩
    rcases hpc with ⟨rfl, rfl, -⟩ | rfl
    · simp [PcData]
    · have := H.w _ _ hw; exact this
  | lockD hw hv hf => exact ⟨H.d, H.c, set_ws H.w w (by have := H.w _ _ hw; exact this)⟩
  | readySel hw hd => exact ⟨H.d, H.c, set_ws H.w w (by have := H.w _ _ hw; exact ⟨this, by simp⟩)⟩
  | readyD hw hd => exact ⟨H.d, H.c, set_ws H.w w (by have := H.w _ _ hw; exact ⟨this, by simp⟩)⟩
  | readD hw hcn =>
    refine ⟨H.d, H.c, set_ws H.w w ?_⟩
    refine ⟨(H.w _ _ hw).1, ?_⟩
    intro k hk
    rcases List.mem_append.1 hk with hk | hk
    · exact (H.w _ _ hw).2 k hk
    · simp at hk; subst hk; exact H.c _ _ hcn
  | snapD hw hd hn =>
    refine ⟨H.d, H.c, set_ws H.w w ?_⟩
    intro l hl
    rcases List.mem_append.1 hl with hl | hl
    · exact (H.w _ _ hw).1 l hl
    · simp at hl; subst hl; exact (H.w _ _ hw).2
  | relD hw => exact ⟨H.d, H.c, set_ws H.w w (by have := H.w _ _ hw; exact this)⟩
  | @backedD pc d nodes before after ret tot nd snaps held hw hd hpc =>
    have hsn : ∀ l ∈ snaps, ∀ k ∈ l, Q k.2.2 := by
      rcases hpc with ⟨-, rfl, -⟩ | ⟨sn, acc, rfl, rfl, -⟩
      · simp
      · intro l hl
        rcases List.mem_append.1 hl with hl | hl
        · exact (H.w _ _ hw).1 l hl
        · simp at hl; subst hl; exact (H.w _ _ hw).2
    have hlt : w < f.ws.length := by rw [List.getElem?_eq_some_iff] at hw; exact hw.1
    have := D.resD _ w d nd snaps (f.ctxOf w) ⟨before, after, ret, tot⟩ (.back nodes before after ret tot) (held.map fun k => Act.rel (.c k)) hj hc
      (by simp [hlt]) hd (H.d _ _ hd) hsn rels_clean.1
    refine ⟨H.d, H.c, set_ws H.w w ?_⟩
    refine ⟨?_, ?_⟩
    · intro d' x hx
      simp at hx
      obtain ⟨-, rfl⟩ := hx
      exact this
    · simp
  | visitC hw hcn => exact ⟨H.d, set_nodes H.c (p := fun nc : CNode S A R Y => Q nc.y) (D.visitC _ (H.c _ _ hcn)) _, set_ws H.w w (by exact trivial)⟩
  | stepOld hw hcn hd ho hf => exact ⟨H.d, H.c, set_ws H.w w (by simp [PcData])⟩
  | stepNew hw hcn hd ho hf hu =>
    exact ⟨app_nodes H.d (p := fun nd : DNode S A R X => P nd.x) (D.initD _ _ _), H.c, set_ws H.w w (by simp [PcData])⟩
  | wantTable hw hcn ho hf hu hm hl => exact ⟨H.d, H.c, set_ws H.w w (by exact trivial)⟩
  | tabHit hw hcn hd ht => exact ⟨H.d, H.c, set_ws H.w w (by simp [PcData])⟩
  | tabMiss hw hcn hd ht =>
    exact ⟨app_nodes H.d (p := fun nd : DNode S A R X => P nd.x) (D.initD _ _ _), H.c, set_ws H.w w (by simp [PcData])⟩
  | @startC pc nodes d c before r after ret tot nc snaps ks hw hcn hpc hk =>
    refine ⟨H.d, H.c, set_ws H.w w ?_⟩
    rcases hpc with ⟨rfl, rfl, -⟩ | rfl
    · simp [PcData]
    · have := H.w _ _ hw; exact this
  | lockC hw hv hf => exact ⟨H.d, H.c, set_ws H.w w (by have := H.w _ _ hw; exact this)⟩
  | readyC hw hcn => exact ⟨H.d, H.c, set_ws H.w w (by have := H.w _ _ hw; exact ⟨this, by simp⟩)⟩
  | readC hw hd =>
    refine ⟨H.d, H.c, set_ws H.w w ?_⟩
    refine ⟨(H.w _ _ hw).1, ?_⟩
    intro k hk
    rcases List.mem_append.1 hk with hk | hk
    · exact (H.w _ _ hw).2 k hk
    · simp at hk; subst hk; exact H.d _ _ hd
  | snapC hw hcn hn =>
    refine ⟨H.d, H.c, set_ws H.w w ?_⟩
    intro l hl
    rcases List.mem_append.1 hl with hl | hl
    · exact (H.w _ _ hw).1 l hl
    · simp at hl; subst hl; exact (H.w _ _ hw).2
  | relC hw => exact ⟨H.d, H.c, set_ws H.w w (by have := H.w _ _ hw; exact this)⟩
  | @backedC pc nodes d c before r after ret tot nc snaps held hw hcn hpc =>
    have hsn : ∀ l ∈ snaps, ∀ k ∈ l, P k.2 := by
      rcases hpc with ⟨-, rfl, -⟩ | ⟨sn, acc, rfl, rfl, -⟩
      · simp
      · intro l hl
        rcases List.mem_append.1 hl with hl | hl
        · exact (H.w _ _ hw).1 l hl
        · simp at hl; subst hl; exact (H.w _ _ hw).2
    have hlt : w < f.ws.length := by rw [List.getElem?_eq_some_iff] at hw; exact hw.1
    have := D.resC _ w c nc snaps ⟨before, after ++ [r], ret + r, tot⟩ (.backD d nodes before (after ++ [r]) (ret + r) tot)
      (held.map fun k => Act.rel (.d k)) hj hc (by simp [hlt]) hcn (H.c _ _ hcn) hsn rels_clean.2
    refine ⟨H.d, H.c, set_ws H.w w ?_⟩
    refine ⟨?_, ?_⟩
    · simp
    · intro c' y hy
      simp at hy
      obtain ⟨-, rfl⟩ := hy
      exact this
  | @post next act acts hw =>
    have hp := H.w _ _ hw
    have hp' : PcData P Q (.post next acts : Pc S A R X Y) :=
      ⟨fun d x h => hp.1 d x (List.mem_cons_of_mem _ h), fun c y h => hp.2 c y (List.mem_cons_of_mem _ h)⟩
    cases act with
    | rel l => exact ⟨H.d, H.c, set_ws H.w w hp'⟩
    | kidD d a c => exact ⟨mod_nodes H.d (p := fun nd : DNode S A R X => P nd.x) (g := fun nd => { nd with kids := nd.kids ++ [(a, c)] }) (fun _ h => h) d, H.c, set_ws H.w w hp'⟩
    | kidC c o d => exact ⟨H.d, mod_nodes H.c (p := fun nc : CNode S A R Y => Q nc.y) (g := fun nc => { nc with kids := nc.kids ++ [(o, d)] }) (fun _ h => h) c, set_ws H.w w hp'⟩
    | setX d x => exact ⟨mod_nodes H.d (p := fun nd : DNode S A R X => P nd.x) (fun _ _ => hp.1 d x (by simp)) _, H.c, set_ws H.w w hp'⟩
    | setY c y => exact ⟨H.d, mod_nodes H.c (p := fun nc : CNode S A R Y => Q nc.y) (fun _ _ => hp.2 c y (by simp)) _, set_ws H.w w hp'⟩
    | ins k d => exact ⟨H.d, H.c, set_ws H.w w hp'⟩
  | leave hw => exact ⟨H.d, H.c, set_ws H.w w (by exact trivial)⟩

theorem data_init {J : FSt S A R X Y → Prop} (D : DataInv env m alg code J P Q) (k : Nat) (s0 : S) (dp tm : Int) (tb : List ((Int × S) × Option Nat)) :
    AllData P Q (finit env m alg k s0 dp tm tb) := by
  refine ⟨?_, by simp [finit], ?_⟩
  · intro i nd h
    cases i with
    | zero => simp [finit] at h; subst h; exact D.initD _ _ _
    | succ i => simp [finit] at h
  · intro w pc h
    simp only [finit, List.getElem?_replicate] at h
    split at h
    · simp at h; subst h; trivial
    · simp at h

/-- The invariant holds in every state that can be reached. -/
theorem data_reach {J : FSt S A R X Y → List (Event S A R) → Prop} {k : Nat} {s0 : S} {dp tm : Int} {tb : List ((Int × S) × Option Nat)}
    (D : DataInv env m alg code (fun f => ∃ h, J f h) P Q) (hi : J (finit env m alg k s0 dp tm tb) [])
    (hs : ∀ f h w e f', J f h → f.crashed = none → FEff env m hash alg code f w e f' → J f' (e.toList ++ h))
    {h : List (Event S A R)} (hr : FReachable env m hash alg code k s0 dp tm tb f h) (hc : f.crashed = none) : AllData P Q f := by
  obtain ⟨ls, hx⟩ := hr
  have := fexec_induct (P := fun f h => J f h ∧ (f.crashed = none → AllData P Q f))
    (fun f h w e f' hp hcf E => ⟨hs f h w e f' hp.1 hcf E, fun hc' => data_eff D ⟨_, hs f h w e f' hp.1 hcf E⟩ (hp.2 hcf) hc' E⟩)
    ls _ _ _ _ ⟨hi, fun _ => data_init D k s0 dp tm tb⟩ hx
  exact this.2 hc

end Verif.LockLevel
