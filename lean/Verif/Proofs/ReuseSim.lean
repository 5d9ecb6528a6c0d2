import Verif.Proofs.ReuseHeap
import Verif.Proofs.SearchIntro

/-! # The part of the tree below a node, and the tree of a search started there: the workers -/

namespace Verif.Search

set_option linter.unusedSimpArgs false
set_option linter.unusedSectionVars false

variable {S A R X Y : Type} [DecidableEq S] [DecidableEq A] [Add R] [Zero R]

theorem filterMap_congr_mem {α β : Type} {f g : α → Option β} {l : List α} (h : ∀ a ∈ l, f a = g a) : l.filterMap f = l.filterMap g := by
  induction l with
  | nil => rfl
  | cons a l ih => rw [List.filterMap_cons, List.filterMap_cons, h a (by simp), ih (fun b hb => h b (by simp [hb]))]

def ren (f g : Nat → Nat) (p : Nat × Nat) : Nat × Nat := (f p.1, g p.2)

/-- No node of the list is below `d`. -/
def OutP (f g : Nat → Nat) (nD nC : Nat) (l : List (Nat × Nat)) : Prop := ∀ p ∈ l, (∀ j < nD, f j ≠ p.1) ∧ ∀ j < nC, g j ≠ p.2

/-- All nodes of the list exist in the search started at `d`. -/
def InP (nD nC : Nat) (l : List (Nat × Nat)) : Prop := ∀ p ∈ l, p.1 < nD ∧ p.2 < nC

/-- What corresponds to a worker that has left the part below `d` in its backup. -/
def Past (out : Prop) (nodes : List (Nat × Nat)) (q : Phase S A R) : Prop :=
  (out ∧ q = .idle) ∨ ((out ∨ nodes = []) ∧ ∃ b a r t, q = .back [] b a r t)

/-- What corresponds to what a worker is doing.  `out`: may workers be outside the part below `d`? -/
inductive PRel (mcts : Bool) (out : Prop) (dp : Int) (f g : Nat → Nat) (nD nC : Nat) (c c' : Ctx A R) :
    Phase S A R → Phase S A R → Prop where
  | idle : PRel mcts out dp f g nD nC c c' .idle .idle
  | selOut {cur path rs new} (o : out) (h : ∀ j < nD, f j ≠ cur) (hp : OutP f g nD nC path) :
      PRel mcts out dp f g nD nC c c' (.sel cur path rs new) .idle
  | sampOut {cur a ch path rs new} (o : out) (h : ∀ j < nD, f j ≠ cur) (h2 : ∀ j < nC, g j ≠ ch) (hp : OutP f g nD nC path)
      (hn : mcts = true → new = false) : PRel mcts out dp f g nD nC c c' (.samp cur a ch path rs new) .idle
  | backOut {nodes b a r t q} (hp : OutP f g nD nC nodes) (hq : Past out nodes q) :
      PRel mcts out dp f g nD nC c c' (.back nodes b a r t) q
  | backDOut {d nodes b a r t q} (o : out) (h : ∀ j < nD, f j ≠ d) (hp : OutP f g nD nC nodes) (hq : Past out nodes q) :
      PRel mcts out dp f g nD nC c c' (.backD d nodes b a r t) q
  | selIn {i pre path' rs0 rs' new new'} (hi : i < nD) (hp : OutP f g nD nC pre) (hpo : out ∨ pre = []) (hB : InP nD nC path')
      (hl : path'.length = rs'.length) (hc : c.AgreeFrom dp c') (hn : mcts = true → new' = new) :
      PRel mcts out dp f g nD nC c c' (.sel (f i) (pre ++ path'.map (ren f g)) (rs0 ++ rs') new) (.sel i path' rs' new')
  | sampIn {i a j pre path' rs0 rs' new new'} (hi : i < nD) (hj : j < nC) (hp : OutP f g nD nC pre) (hpo : out ∨ pre = [])
      (hB : InP nD nC path') (hl : path'.length = rs'.length) (hc : c.AgreeFrom dp c') (hn : mcts = true → new' = new) :
      PRel mcts out dp f g nD nC c c' (.samp (f i) a (g j) (pre ++ path'.map (ren f g)) (rs0 ++ rs') new) (.samp i a j path' rs' new')
  | backIn {pre nodes' b0 b' a r t t'} (hp : OutP f g nD nC pre) (hpo : out ∨ pre = []) (hB : InP nD nC nodes')
      (hl : nodes'.length = b'.length) (hc : c.AgreeFrom dp c') :
      PRel mcts out dp f g nD nC c c' (.back (pre ++ nodes'.map (ren f g)) (b0 ++ b') a r t) (.back nodes' b' a r t')
  | backDIn {i pre nodes' b0 b' a r t t'} (hi : i < nD) (hp : OutP f g nD nC pre) (hpo : out ∨ pre = []) (hB : InP nD nC nodes')
      (hl : nodes'.length = b'.length) (hc : c.AgreeFrom dp c') :
      PRel mcts out dp f g nD nC c c' (.backD (f i) (pre ++ nodes'.map (ren f g)) (b0 ++ b') a r t) (.backD i nodes' b' a r t')

theorem map_ren_congr {f g f' g' : Nat → Nat} {nD nC : Nat} (hf : ∀ j < nD, f' j = f j) (hg : ∀ j < nC, g' j = g j) {l : List (Nat × Nat)}
    (h : InP nD nC l) : l.map (ren f g) = l.map (ren f' g') :=
  List.map_congr_left fun p hp => by simp [ren, hf _ (h p hp).1, hg _ (h p hp).2]

theorem InP.mono {nD nC nD' nC' : Nat} (h1 : nD ≤ nD') (h2 : nC ≤ nC') {l : List (Nat × Nat)} (h : InP nD nC l) : InP nD' nC' l :=
  fun p hp => ⟨Nat.lt_of_lt_of_le (h p hp).1 h1, Nat.lt_of_lt_of_le (h p hp).2 h2⟩

/-- The numbering is extended by new nodes. -/
theorem PRel.ext {mcts : Bool} {out : Prop} {dp : Int} {f g f' g' : Nat → Nat} {nD nC nD' nC' : Nat} {c c' : Ctx A R} {p q : Phase S A R}
    {st : St S A R X Y} (hf : ∀ j < nD, f' j = f j) (hg : ∀ j < nC, g' j = g j) (hD : nD ≤ nD') (hC : nC ≤ nC')
    (bigD : ∀ j, nD ≤ j → j < nD' → st.dn.length ≤ f' j) (bigC : ∀ j, nC ≤ j → j < nC' → st.cn.length ≤ g' j) (hP : PWF st c p)
    (h : PRel mcts out dp f g nD nC c c' p q) : PRel mcts out dp f' g' nD' nC' c c' p q := by
  have oD : ∀ {i}, i < st.dn.length → (∀ j < nD, f j ≠ i) → ∀ j < nD', f' j ≠ i := by
    intro i hi ho j hj
    rcases Nat.lt_or_ge j nD with h1 | h1
    · rw [hf j h1]; exact ho j h1
    · have := bigD j h1 hj; omega
  have oC : ∀ {i}, i < st.cn.length → (∀ j < nC, g j ≠ i) → ∀ j < nC', g' j ≠ i := by
    intro i hi ho j hj
    rcases Nat.lt_or_ge j nC with h1 | h1
    · rw [hg j h1]; exact ho j h1
    · have := bigC j h1 hj; omega
  have oP : ∀ {l}, InB st l → OutP f g nD nC l → OutP f' g' nD' nC' l := fun hb ho p hp =>
    ⟨oD (hb p hp).1 (ho p hp).1, oC (hb p hp).2 (ho p hp).2⟩
  have preB : ∀ {l l' : List (Nat × Nat)}, InB st (l ++ l') → InB st l := fun hb p hp => hb p (List.mem_append_left _ hp)
  cases h with
  | idle => exact .idle
  | selOut o h hp =>
    obtain ⟨⟨nd, h1, _⟩, h2, _⟩ := hP
    exact .selOut o (oD (List.getElem?_eq_some_iff.1 h1).1 h) (oP h2 hp)
  | sampOut o h h2 hp hn =>
    obtain ⟨⟨nd, nc, h1, h1', _⟩, h3, _⟩ := hP
    exact .sampOut o (oD (List.getElem?_eq_some_iff.1 h1).1 h) (oC (List.getElem?_eq_some_iff.1 h1').1 h2) (oP h3 hp) hn
  | backOut hp hq => exact .backOut (oP hP.1 hp) hq
  | backDOut o h hp hq => exact .backDOut o (oD hP.1 h) (oP hP.2.1 hp) hq
  | @selIn i pre path' rs0 rs' new new' hi hp hpo hB hl hc hn =>
    rw [← hf i hi, map_ren_congr hf hg hB]
    exact .selIn (Nat.lt_of_lt_of_le hi hD) (oP (preB hP.2.1) hp) hpo (hB.mono hD hC) hl hc hn
  | @sampIn i a j pre path' rs0 rs' new new' hi hj hp hpo hB hl hc hn =>
    rw [← hf i hi, ← hg j hj, map_ren_congr hf hg hB]
    exact .sampIn (Nat.lt_of_lt_of_le hi hD) (Nat.lt_of_lt_of_le hj hC) (oP (preB hP.2.1) hp) hpo (hB.mono hD hC) hl hc hn
  | backIn hp hpo hB hl hc =>
    rw [map_ren_congr hf hg hB]
    exact .backIn (oP (preB hP.1) hp) hpo (hB.mono hD hC) hl hc
  | @backDIn i pre nodes' b0 b' a r t t' hi hp hpo hB hl hc =>
    rw [← hf i hi, map_ren_congr hf hg hB]
    exact .backDIn (Nat.lt_of_lt_of_le hi hD) (oP (preB hP.2.1) hp) hpo (hB.mono hD hC) hl hc

/-- `σ` is a state of a search started at `d` that corresponds to `st`. -/
structure Rel (m : Manager S R) (out : Prop) (dp : Int) (st : St S A R X Y) (d : Nat) (σ : St S A R X Y) (f g : Nat → Nat) : Prop where
  H : HRel dp st.dn st.cn d σ.dn σ.cn f g
  sroot : σ.root = 0
  root : ∀ j < σ.dn.length, f j = st.root → j = 0
  crashed : σ.crashed = none
  lenW : σ.ws.length = st.ws.length
  lenX : σ.ctxs.length = σ.ws.length
  ph : ∀ (w : Nat) p, st.ws[w]? = some p → ∃ q, σ.ws[w]? = some q ∧
    PRel m.mctsMode out dp f g σ.dn.length σ.cn.length (st.ctxOf w) (σ.ctxOf w) p q

theorem Rel.same {m : Manager S R} {out : Prop} {dp : Int} {st : St S A R X Y} {d : Nat} {σ : St S A R X Y} {f g : Nat → Nat}
    (H : Rel m out dp st d σ f g) : SameBelow st d σ f g where
  root := by rw [H.sroot]; exact H.H.root
  injD := H.H.injD
  injC := H.H.injC
  nodeD := H.H.nodeD
  nodeC := H.H.nodeC

/-- The code of a node below `d` sees the same in both searches. -/
theorem view_eq (env : Env S A R) (m : Manager S R) {st σ : St S A R X Y} {d : Nat} {dp : Int} {f g : Nat → Nat}
    (H : HRel dp st.dn st.cn d σ.dn σ.cn f g) {nd : DNode S A R X} (hb : ∀ p ∈ nd.kids, p.2 < σ.cn.length) :
    viewOf env m st (nd.renum g) = viewOf env m σ nd := by
  unfold viewOf
  congr 1
  unfold kidsY DNode.renum
  rw [List.filterMap_map]
  refine filterMap_congr_mem fun p hp => ?_
  have := H.nodeC p.2 _ (List.getElem?_eq_getElem (hb p hp))
  simp [this, List.getElem?_eq_getElem (hb p hp), CNode.renum]

theorem kidsX_eq {st σ : St S A R X Y} {d : Nat} {dp : Int} {f g : Nat → Nat}
    (H : HRel dp st.dn st.cn d σ.dn σ.cn f g) {nc : CNode S A R Y} (hb : ∀ p ∈ nc.kids, p.2 < σ.dn.length) :
    kidsX st (nc.renum f) = kidsX σ nc := by
  unfold kidsX CNode.renum
  rw [List.filterMap_map]
  refine filterMap_congr_mem fun p hp => ?_
  have := H.nodeD p.2 _ (List.getElem?_eq_getElem (hb p hp))
  simp [this, List.getElem?_eq_getElem (hb p hp), DNode.renum]

theorem Ctx.AgreeFrom.mono {dp dp' : Int} (h : dp ≤ dp') {c c' : Ctx A R} (H : c.AgreeFrom dp c') : c.AgreeFrom dp' c' :=
  fun k hk => H k (by omega)

theorem Ctx.AgreeFrom.refl (dp : Int) (c : Ctx A R) : c.AgreeFrom dp c := fun _ _ => ⟨rfl, rfl⟩

/-- A context all of whose entries are for smaller depths is as good as empty. -/
theorem Ctx.AgreeFrom.empty {dp : Int} {c : Ctx A R} (h : c.Keys (· < dp)) : c.AgreeFrom dp {} := by
  have : ∀ {V : Type} {l : List (Int × V)}, (∀ p ∈ l, p.1 < dp) → ∀ k, dp ≤ k → find? k l = none := by
    intro V l hl k hk
    rw [find?_eq_none]
    intro hm
    obtain ⟨p, hp, rfl⟩ := List.mem_map.1 hm
    have := hl p hp; omega
  intro k hk
  rw [this h.1 k hk, this h.2 k hk]
  exact ⟨rfl, rfl⟩

/-- The choice that leads to an event. -/
def chOf : Event S A R → Choice S A
  | .selected _ _ a _ => .act a
  | .stepped _ _ _ _ o _ _ _ => .obs o
  | _ => .go

theorem chOf_eq {env : Env S A R} {m : Manager S R} {alg : Alg S A R X Y} {st st' : St S A R X Y} {w : Nat} {ch : Choice S A} {e : Event S A R}
    (h : step env m alg st w ch = some (st', e)) (hne : ∀ v x, e ≠ .crash v x) : ch = chOf e := by
  have hc : ∀ {α : Prop} {st1 : St S A R X Y} {v : Nat} {x : Err}, crash st1 v x = some (st', e) → α := by
    intro α st1 v x h
    simp only [crash, Option.some.injEq, Prod.mk.injEq] at h
    exact absurd h.2.symm (hne _ _)
  unfold step at h
  split at h
  · simp at h
  split at h
  · simp at h
  · split at h
    · simp at h; obtain ⟨_, rfl⟩ := h; rfl
    · simp at h
  · split at h
    · exact hc h
    · split at h
      · split at h
        · unfold blockD at h
          dsimp only at h
          split at h
          · split at h
            · exact hc h
            · simp at h; obtain ⟨_, rfl⟩ := h; rfl
          · simp at h
        · simp at h
      · split at h
        · unfold blockEnd at h
          dsimp only at h
          split at h
          · exact hc h
          · simp at h; obtain ⟨_, rfl⟩ := h; rfl
        · simp at h
  · split at h
    · unfold blockC at h
      dsimp only at h
      split at h
      · split at h
        · split at h
          · exact hc h
          · split at h
            · exact hc h
            · split at h
              · exact hc h
              · simp at h; obtain ⟨_, rfl⟩ := h; rfl
        · simp at h
      · exact hc h
    · simp at h
  · split at h
    · unfold blockBackC at h
      dsimp only at h
      split at h
      · simp at h; obtain ⟨_, rfl⟩ := h; rfl
      · split at h
        · exact hc h
        · split at h
          · exact hc h
          · simp at h; obtain ⟨_, rfl⟩ := h; rfl
    · simp at h
  · split at h
    · unfold blockBackD at h
      dsimp only at h
      split at h
      · exact hc h
      · simp at h; obtain ⟨_, rfl⟩ := h; rfl
    · simp at h

/-- Only the phases and contexts of worker `w` change. -/
theorem rel_ph {mcts : Bool} {out : Prop} {dp : Int} {f g f' g' : Nat → Nat} {st st' σ σ' : St S A R X Y} {w : Nat} {p q : Phase S A R}
    (W : WF st)
    (ph : ∀ (w : Nat) p, st.ws[w]? = some p → ∃ q, σ.ws[w]? = some q ∧
      PRel mcts out dp f g σ.dn.length σ.cn.length (st.ctxOf w) (σ.ctxOf w) p q)
    (h1 : ∀ v, v ≠ w → st'.ws[v]? = st.ws[v]? ∧ st'.ctxOf v = st.ctxOf v) (h2 : ∀ v, v ≠ w → σ'.ws[v]? = σ.ws[v]? ∧ σ'.ctxOf v = σ.ctxOf v)
    (hf : ∀ j < σ.dn.length, f' j = f j) (hg : ∀ j < σ.cn.length, g' j = g j) (hD : σ.dn.length ≤ σ'.dn.length) (hC : σ.cn.length ≤ σ'.cn.length)
    (bigD : ∀ j, σ.dn.length ≤ j → j < σ'.dn.length → st.dn.length ≤ f' j)
    (bigC : ∀ j, σ.cn.length ≤ j → j < σ'.cn.length → st.cn.length ≤ g' j)
    (hp : st'.ws[w]? = some p) (hq : σ'.ws[w]? = some q)
    (hPR : PRel mcts out dp f' g' σ'.dn.length σ'.cn.length (st'.ctxOf w) (σ'.ctxOf w) p q) :
    ∀ (w : Nat) p, st'.ws[w]? = some p → ∃ q, σ'.ws[w]? = some q ∧
      PRel mcts out dp f' g' σ'.dn.length σ'.cn.length (st'.ctxOf w) (σ'.ctxOf w) p q := by
  intro v p' hv
  by_cases hvw : v = w
  · subst hvw
    rw [hp] at hv; cases hv
    exact ⟨q, hq, hPR⟩
  · rw [(h1 v hvw).1] at hv
    obtain ⟨q', g1, g2⟩ := ph v p' hv
    refine ⟨q', by rw [(h2 v hvw).1]; exact g1, ?_⟩
    rw [(h1 v hvw).2, (h2 v hvw).2]
    exact g2.ext (st := st) hf hg hD hC bigD bigC (W.ph v p' hv)

theorem setOther {st st' : St S A R X Y} {w : Nat} {p : Phase S A R} (h : st'.ws = st.ws.set w p)
    (hc : st'.ctxs = st.ctxs ∨ ∃ c, st'.ctxs = st.ctxs.set w c) :
    ∀ v, v ≠ w → st'.ws[v]? = st.ws[v]? ∧ st'.ctxOf v = st.ctxOf v := by
  intro v hv
  refine ⟨by rw [h, List.getElem?_set_ne (Ne.symm hv)], ?_⟩
  unfold St.ctxOf
  rcases hc with hc | ⟨c, hc⟩
  · rw [hc]
  · rw [hc, List.getElem?_set_ne (Ne.symm hv)]

theorem setSelf {st st' : St S A R X Y} {w : Nat} {p p0 : Phase S A R} (h0 : st.ws[w]? = some p0) (h : st'.ws = st.ws.set w p) : st'.ws[w]? = some p := by
  rw [h, List.getElem?_set_self (List.getElem?_eq_some_iff.1 h0).1]

theorem ctxSelf {st st' : St S A R X Y} {w : Nat} {c : Ctx A R} {p0 : Phase S A R} (h0 : st.ws[w]? = some p0) (hl : st.ctxs.length = st.ws.length)
    (h : st'.ctxs = st.ctxs.set w c) : st'.ctxOf w = c := by
  unfold St.ctxOf
  rw [h, List.getElem?_set_self (by rw [hl]; exact (List.getElem?_eq_some_iff.1 h0).1)]; rfl

theorem ctxSame {st st' : St S A R X Y} {w : Nat} (h : st'.ctxs = st.ctxs) : st'.ctxOf w = st.ctxOf w := by unfold St.ctxOf; rw [h]

/-- The search started at `d` does not move. -/
theorem rel_stay {m : Manager S R} {out : Prop} {dp : Int} {f g : Nat → Nat} {st st' σ : St S A R X Y} {d w : Nat} {p p0 q : Phase S A R}
    (W : WF st) (Rl : Rel m out dp st d σ f g) (H : HRel dp st'.dn st'.cn d σ.dn σ.cn f g) (hr : st'.root = st.root) (h0 : st.ws[w]? = some p0)
    (h : st'.ws = st.ws.set w p) (hc : st'.ctxs = st.ctxs ∨ ∃ c, st'.ctxs = st.ctxs.set w c) (hq : σ.ws[w]? = some q)
    (hPR : PRel m.mctsMode out dp f g σ.dn.length σ.cn.length (st'.ctxOf w) (σ.ctxOf w) p q) : Rel m out dp st' d σ f g where
  H := H
  sroot := Rl.sroot
  root := by rw [hr]; exact Rl.root
  crashed := Rl.crashed
  lenW := by rw [h, List.length_set]; exact Rl.lenW
  lenX := Rl.lenX
  ph := rel_ph W Rl.ph (setOther h hc) (fun v hv => ⟨rfl, rfl⟩) (fun _ _ => rfl) (fun _ _ => rfl) (Nat.le_refl _) (Nat.le_refl _)
    (fun j h1 h2 => by omega) (fun j h1 h2 => by omega) (setSelf h0 h) hq hPR

/-- Both searches move. -/
theorem rel_go {m : Manager S R} {out : Prop} {dp : Int} {f g f' g' : Nat → Nat} {st st' σ σ' : St S A R X Y} {d w : Nat} {p p0 q q0 : Phase S A R}
    (W : WF st) (Rl : Rel m out dp st d σ f g) (H : HRel dp st'.dn st'.cn d σ'.dn σ'.cn f' g') (hr : st'.root = st.root) (h0 : st.ws[w]? = some p0)
    (h : st'.ws = st.ws.set w p) (hc : st'.ctxs = st.ctxs ∨ ∃ c, st'.ctxs = st.ctxs.set w c) (hr' : σ'.root = σ.root) (h0' : σ.ws[w]? = some q0)
    (h' : σ'.ws = σ.ws.set w q) (hc' : σ'.ctxs = σ.ctxs ∨ ∃ c, σ'.ctxs = σ.ctxs.set w c) (hcr : σ'.crashed = σ.crashed)
    (hf : ∀ j < σ.dn.length, f' j = f j) (hg : ∀ j < σ.cn.length, g' j = g j) (hD : σ.dn.length ≤ σ'.dn.length) (hC : σ.cn.length ≤ σ'.cn.length)
    (bigD : ∀ j, σ.dn.length ≤ j → j < σ'.dn.length → st.dn.length ≤ f' j)
    (bigC : ∀ j, σ.cn.length ≤ j → j < σ'.cn.length → st.cn.length ≤ g' j)
    {cx cx' : Ctx A R} (hx : st'.ctxOf w = cx) (hx' : σ'.ctxOf w = cx')
    (hPR : PRel m.mctsMode out dp f' g' σ'.dn.length σ'.cn.length cx cx' p q) : Rel m out dp st' d σ' f' g' where
  H := H
  sroot := by rw [hr']; exact Rl.sroot
  root := by
    intro j hj hfj
    rw [hr] at hfj
    rcases Nat.lt_or_ge j σ.dn.length with h1 | h1
    · rw [hf j h1] at hfj; exact Rl.root j h1 hfj
    · have h2 := bigD j h1 hj
      obtain ⟨nd, h3⟩ := W.root
      have := (List.getElem?_eq_some_iff.1 h3).1
      omega
  crashed := by rw [hcr]; exact Rl.crashed
  lenW := by rw [h, h', List.length_set, List.length_set]; exact Rl.lenW
  lenX := by
    rcases hc' with h1 | ⟨c, h1⟩
    · rw [h1, h', List.length_set]; exact Rl.lenX
    · rw [h1, h', List.length_set, List.length_set]; exact Rl.lenX
  ph := rel_ph W Rl.ph (setOther h hc) (setOther h' hc') hf hg hD hC bigD bigC (setSelf h0 h) (setSelf h0' h')
    (by rw [hx, hx']; exact hPR)

end Verif.Search
