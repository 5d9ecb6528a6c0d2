import Verif.Proofs.Ments
import Verif.Proofs.LocalInv
import Verif.Proofs.Uct

/-! # MENTS: draws, valid selections, finite values during a search -/

set_option linter.unusedSectionVars false
set_option linter.unusedSimpArgs false

namespace Verif.Ments

open Verif.Search Verif.Sampling Verif.Spec Verif.Backups

variable {S A X Y : Type} [DecidableEq S] [DecidableEq A] {cfg : Cfg S A} {q : A → Except Bad ℝ} {v : View S A X Y} {Q : A → ℝ}

theorem sampleLoop_mem {K : Type} (sum eps u : ℝ) (n : Nat) (l : List (K × ℝ)) : ∀ (i : Nat) (run : ℝ) (k : K),
    sampleLoop sum eps u n i run l = .key k → k ∈ l.map Prod.fst := by
  induction l with
  | nil => intro i run k h; simp [sampleLoop] at h
  | cons p l ih =>
    obtain ⟨k', w⟩ := p
    intro i run k h
    simp only [sampleLoop] at h
    split at h
    · simp at h
    · split at h
      · simp at h; simp [h]
      · have := ih _ _ _ h
        simp only [List.map_cons, List.mem_cons]
        exact .inr this

theorem qList_keys {l : List A} : ∀ {qs : List (A × ℝ)}, qList q l = .ok qs → qs.map Prod.fst = l := by
  induction l with
  | nil => intro qs h; simp [qList] at h; subst h; rfl
  | cons a l ih =>
    intro qs h
    simp only [qList] at h
    split at h
    · next x l' h1 h2 =>
      simp at h
      subst h
      simp [ih h2]
    · simp at h
    · simp at h

theorem interpolateAll_keys (lam sum : ℝ) (n : Nat) {l : List (A × ℝ)} : ∀ {r : List (A × ℝ)},
    interpolateAll cfg v lam sum n l = .ok r → r.map Prod.fst = l.map Prod.fst := by
  induction l with
  | nil => intro r h; simp [interpolateAll] at h; subst h; rfl
  | cons p l ih =>
    obtain ⟨a, w⟩ := p
    intro r h
    simp only [interpolateAll] at h
    split at h
    · next x l' h1 h2 =>
      simp at h
      subst h
      simp [ih h2]
    · simp at h
    · simp at h

theorem fullDistr_keys {l : List (A × ℝ)} (h : fullDistr cfg q v = .ok l) : l.map Prod.fst = v.actions := by
  unfold fullDistr at h
  split at h
  · next qs lam h1 h2 =>
    have := interpolateAll_keys _ _ _ h
    rw [this]
    simp only [weights, List.map_map, Function.comp_def]
    exact qList_keys h1
  · simp at h
  · next h1 _ =>
    simp only [Except.ok.injEq] at h
    subst h
    simpa using (qList_keys h1).symm
  · simp at h

theorem actionDistr_keys {l : List (A × ℝ)} (h : actionDistr cfg q v = .ok l) : ∀ a ∈ l.map Prod.fst, a ∈ v.actions := by
  unfold actionDistr at h
  split at h
  · next l' h1 =>
    simp at h
    subst h
    intro a ha
    rw [← fullDistr_keys h1]
    obtain ⟨p, hp, rfl⟩ := List.mem_map.1 ha
    exact List.mem_map_of_mem (List.mem_filter.1 hp).1
  · simp at h

/-- Whatever the configuration, an action that is selected is valid. -/
theorem selectAction_valid {eps u : ℝ} {iter : List (A × ℝ) → List (A × ℝ)} (hi : ∀ l, List.Perm (iter l) l) {a : A}
    (h : selectAction eps cfg q v u iter = .ok (.key a)) : a ∈ v.actions := by
  unfold selectAction at h
  split at h
  · next l h1 =>
    simp only [Except.ok.injEq] at h
    have := sampleLoop_mem _ _ _ _ _ _ _ _ h
    exact actionDistr_keys h1 a (((hi l).map Prod.fst).mem_iff.1 this)
  · simp at h

theorem ments_valid (eps : ℝ) (cfg : Cfg S A) (lr : S → A → ℝ) : (ments eps cfg lr).Valid := by
  intro v _ a h
  have h' : selectable eps cfg (mentsQ cfg id v) v a = true := h
  unfold selectable at h'
  rw [@decide_eq_true_eq _ (Classical.propDecidable _)] at h'
  obtain ⟨u, iter, _, _, hi, h⟩ := h'
  exact selectAction_valid hi h

/-- A draw from positive weights with total mass at most one. -/
theorem sampleFrom_positive {K : Type} {eps : ℝ} (heps : 0 ≤ eps) {l : List (K × ℝ)} (hw : ∀ p ∈ l, 0 < p.2) (hm : mass l ≤ 1) (u : ℝ) :
    sampleFrom eps l true u = pickAt 1 u 0 l := by
  unfold sampleFrom
  simp only [if_true]
  refine sampleLoop_eq_pickAt 1 eps u _ heps one_pos l 0 0 (by simp) (fun p hp => (hw p hp).le) (by simpa using hm) ?_
  intro pre suf he hs _
  have := prefix_lt (fun p hp => (hw p hp).le) (fun p hp => hw p (List.mem_of_getLast? hp)) he hs
  simp only [zero_add, div_one]
  linarith

theorem pickAt_none {K : Type} (u : ℝ) : ∀ (l : List (K × ℝ)) (run : ℝ), (∀ p ∈ l, 0 < p.2) → run + mass l ≤ u →
    pickAt 1 u run l = .tooLittle
  | [], _, _, _ => rfl
  | (k, w) :: l, run, hw, h => by
    have h1 : 0 < w := hw (k, w) (by simp)
    have h2 : 0 ≤ mass l := mass_nonneg fun p hp => (hw p (by simp [hp])).le
    simp only [mass_cons] at h
    simp only [pickAt, div_one]
    rw [if_neg (by linarith)]
    exact pickAt_none u l _ (fun p hp => hw p (by simp [hp])) (by linarith)

/-! ## Finite values -/

/-- The prior, if there is one, covers the valid actions of every state. -/
def PriorTotal (cfg : Cfg S A) (env : Env S A ℝ) : Prop :=
  ∀ f, cfg.prior = some f → ∀ s, ∀ a ∈ env.actions s, (find? a (f s)).isSome

theorem find?_mem' {K V : Type} [DecidableEq K] {k : K} {x : V} {l : List (K × V)} (h : find? k l = some x) : (k, x) ∈ l := by
  induction l with
  | nil => simp [find?] at h
  | cons p l ih =>
    obtain ⟨k', x'⟩ := p
    simp only [find?] at h
    split at h
    · next e => simp at h; subst h; subst e; simp
    · exact List.mem_cons_of_mem _ (ih h)

theorem untriedQ_total {env : Env S A ℝ} (hp : PriorTotal cfg env) (hv : v.actions = env.actions v.state) {a : A} (ha : a ∈ v.actions) :
    ∃ x, untriedQ cfg v a = .ok x := by
  unfold untriedQ
  cases h : cfg.prior with
  | none => exact ⟨_, rfl⟩
  | some f =>
    obtain ⟨w, hw⟩ := Option.isSome_iff_exists.1 (hp f h v.state a (hv ▸ ha))
    simp only [hw]
    exact ⟨_, rfl⟩

theorem mentsQ_total {env : Env S A ℝ} (hp : PriorTotal cfg env) (hv : v.actions = env.actions v.state) (py : Y → Soft)
    (hk : ∀ k ∈ v.kids, ∃ r, (py k.2.2).val = some r) : ∃ Q, QIs (mentsQ cfg py v) v Q := by
  have : ∀ a, ∃ x, a ∈ v.actions → mentsQ cfg py v a = .ok x := by
    intro a
    by_cases ha : a ∈ v.actions
    · unfold mentsQ
      cases h : find? a v.kids with
      | none => obtain ⟨x, hx⟩ := untriedQ_total hp hv ha; exact ⟨x, fun _ => hx⟩
      | some p =>
        obtain ⟨n, y⟩ := p
        obtain ⟨r, hr⟩ := hk _ (find?_mem' h)
        simp only [hr]
        exact ⟨_, fun _ => rfl⟩
    · exact ⟨0, fun h => absurd h ha⟩
  choose Q hQ using this
  exact ⟨Q, fun a ha => hQ a ha⟩

theorem finiteSoft_spec (l : List Soft) (hl : ∀ y ∈ l, ∃ r, y.val = some r) : ∃ r, finiteSoft l = some r := by
  induction l with
  | nil => exact ⟨[], rfl⟩
  | cons y l ih =>
    obtain ⟨r, hr⟩ := ih (fun z hz => hl z (by simp [hz]))
    obtain ⟨x, hx⟩ := hl y (by simp)
    exact ⟨(y.n, x) :: r, by simp [finiteSoft, hr, hx]⟩

theorem finiteSoft_mk (l : List (Nat × ℝ)) : finiteSoft (l.map fun p => { n := p.1, val := some p.2 }) = some l := by
  induction l with
  | nil => rfl
  | cons p l ih => simp [finiteSoft, ih]

theorem softValue_total {Q : A → ℝ} (hq : QIs q v Q) : ∃ s, softValue cfg q v = .ok s := by
  unfold softValue
  rw [qList_eq hq]
  exact ⟨_, rfl⟩

theorem ments_local {env : Env S A ℝ} (m : Manager S ℝ) (eps : ℝ) (hp : PriorTotal cfg env) (lr : S → A → ℝ) :
    LocalInv env m (ments eps cfg lr) (fun _ _ _ x => ∃ r, x.val = some r) (fun _ _ _ _ y => ∃ r, y.val = some r) where
  initD s d t := ⟨_, rfl⟩
  initC s a d t _ := ⟨_, rfl⟩
  visitD b s d t x h := by
    obtain ⟨r, h⟩ := h
    refine ⟨r, ?_⟩
    show (softVisit b x).val = _
    unfold softVisit
    split <;> exact h
  visitC s a d t y h := h
  backupD v _ args h1 h2 h3 h4 h5 _ _ _ h6 h7 := by
    obtain ⟨Q, hQ⟩ := mentsQ_total hp h1 id h7
    obtain ⟨s, hs⟩ := softValue_total (cfg := cfg) hQ
    refine ⟨s, ?_⟩
    show (softBackupD cfg (mentsQ cfg id v) v v.x).val = _
    simp [softBackupD, hs]
  backupC s a d t y kids args _ _ h1 h2 := by
    obtain ⟨l, hl⟩ := finiteSoft_spec (kids.map fun k => k.2) (by
      intro y hy
      obtain ⟨k, hk, rfl⟩ := List.mem_map.1 hy
      exact (h2 k hk).2)
    refine ⟨meanLoop l 0 0 + lr s a, ?_⟩
    show (softBackupC (lr s a) (kids.map fun k => k.2) y).val = _
    simp [softBackupC, hl]

end Verif.Ments
