import Verif.Proofs.SearchCount

/-! # Consequences of the invariants used by the property theorems -/

namespace Verif.Search

set_option linter.unusedSimpArgs false
set_option linter.unusedSectionVars false

variable {S A R X Y : Type} [DecidableEq S] [DecidableEq A]

theorem reach_inv [AddMonoid R] {env : Env S A R} {m : Manager S R} {alg : Alg S A R X Y} (hv : alg.Valid) {k : Nat} {s0 : S}
    {dp tm : Int} {tb : List ((Int × S) × Option Nat)} (htb : Leftover tb) {st : St S A R X Y} {h : List (Event S A R)}
    (hr : Reachable env m alg k s0 dp tm tb st h) : Inv env m s0 dp tm st h := by
  obtain ⟨ls, hx⟩ := hr
  exact inv_exec hv htb hx

theorem reach_both [AddMonoid R] {env : Env S A R} {m : Manager S R} {alg : Alg S A R X Y} (hv : alg.Valid) {k : Nat} {s0 : S}
    {dp tm : Int} {tb : List ((Int × S) × Option Nat)} (htb : Leftover tb) {st : St S A R X Y} {h : List (Event S A R)}
    (hr : Reachable env m alg k s0 dp tm tb st h) : Inv env m s0 dp tm st h ∧ Cnt m alg st h := by
  obtain ⟨ls, hx⟩ := hr
  exact exec_induct (fun s h => Inv env m s0 dp tm s h ∧ Cnt m alg s h)
    (fun _ _ _ _ _ hp _ E => ⟨inv_eff hv hp.1 E, cnt_eff hp.1 hp.2 E⟩)
    ⟨inv_init env m alg k s0 dp tm tb htb, cnt_init env m alg k s0 dp tm tb⟩ hx

theorem eff_len [Add R] [Zero R] {env : Env S A R} {m : Manager S R} {alg : Alg S A R X Y} {st st' : St S A R X Y} {w : Nat}
    {e : Event S A R} (E : Eff env m alg st w e st') : st'.ws.length = st.ws.length := by cases E <;> simp

theorem reach_len [Add R] [Zero R] {env : Env S A R} {m : Manager S R} {alg : Alg S A R X Y} {k : Nat} {s0 : S}
    {dp tm : Int} {tb : List ((Int × S) × Option Nat)} {st : St S A R X Y} {h : List (Event S A R)}
    (hr : Reachable env m alg k s0 dp tm tb st h) : st.ws.length = k := by
  obtain ⟨ls, hx⟩ := hr
  exact exec_induct (fun s _ => s.ws.length = k) (fun _ _ _ _ _ hp _ E => by rw [eff_len E, hp]) (by simp [init]) hx

theorem reach_phase [Add R] [Zero R] {env : Env S A R} {m : Manager S R} {alg : Alg S A R X Y} {k : Nat} {s0 : S}
    {dp tm : Int} {tb : List ((Int × S) × Option Nat)} {st : St S A R X Y} {h : List (Event S A R)}
    (hr : Reachable env m alg k s0 dp tm tb st h) {w : Nat} (hw : w < k) : ∃ p, st.ws[w]? = some p := by
  have := reach_len hr
  exact ⟨_, List.getElem?_eq_getElem (by omega)⟩

/-- The trial of a worker, whatever its phase. -/
theorem winv_base [AddMonoid R] {env : Env S A R} {m : Manager S R} {s0 : S} {dp tm : Int} {st : St S A R X Y}
    {h : List (Event S A R)} (I : Inv env m s0 dp tm st h) {w : Nat} {p : Phase S A R} (hp : st.ws[w]? = some p) :
    ∃ e, Base env m st (stepsOf w h) e ∧
      (∀ d hv, endOf w h = some (d, hv) → d = e ∧ Stopped env m st (stepsOf w h) e hv) := by
  have H := I.ws w p hp
  cases p with
  | idle =>
    rcases H with H | ⟨e, hv, h1, h2, h3, h4⟩
    · obtain ⟨r, hr, _⟩ := I.tree.heap.root
      simp only [List.getElem?_map, Option.map_eq_some_iff] at hr
      obtain ⟨nd, hnd, _⟩ := hr
      refine ⟨st.root, ?_, ?_⟩
      · simp [stepsOf, H]
        exact ⟨rfl, ⟨nd, by rw [I.tree.root]; exact hnd⟩, by simp [Cont]⟩
      · intro d hv hh; simp [endOf, H] at hh
    · refine ⟨e, h2, ?_⟩
      intro d hv' hh; rw [h1] at hh; simp at hh; obtain ⟨rfl, rfl⟩ := hh; exact ⟨rfl, h3⟩
  | sel cur path rs new =>
    obtain ⟨h1, h2, h3, h4, h5, h6⟩ := H
    exact ⟨cur, h1, by simp [h6]⟩
  | samp cur a c path rs new =>
    obtain ⟨h1, h2, h3, h4, h5, h6, _⟩ := H
    exact ⟨cur, h1, by simp [h6]⟩
  | back nodes before after ret tot =>
    obtain ⟨e, hv, j, h1, h2, h3, h4, h5⟩ := H
    refine ⟨e, h3, ?_⟩
    intro d hv' hh; rw [h2] at hh; simp at hh; obtain ⟨rfl, rfl⟩ := hh; exact ⟨rfl, h4⟩
  | backD d nodes before after ret tot =>
    obtain ⟨e, hv, j, s, h1, h2, h3, h4, h5, h6⟩ := H
    refine ⟨e, h4, ?_⟩
    intro d hv' hh; rw [h3] at hh; simp at hh; obtain ⟨rfl, rfl⟩ := hh; exact ⟨rfl, h5⟩

/-! ## Facts about links -/

section
variable [Add R] [Zero R] {env : Env S A R} {m : Manager S R} {s0 : S} {dp tm : Int} {st : St S A R X Y}

theorem childC_facts (T : Tree env m s0 dp tm st) {d c : Nat} {a : A} (h : childC st d a = some c) :
    ∃ nd nc, st.dn[d]? = some nd ∧ st.cn[c]? = some nc ∧ (a, c) ∈ nd.kids ∧ nc.state = nd.state ∧ nc.action = a ∧
      nc.depth = nd.depth ∧ nc.time = nd.time ∧ a ∈ env.actions nd.state := by
  obtain ⟨nc, hc⟩ := tree_childC_exists T h
  have h' := h
  simp only [childC, Option.bind_eq_some_iff] at h'
  obtain ⟨nd, hd, hf⟩ := h'
  obtain ⟨h1, h2, h3, h4, h5⟩ := tree_childC T hd hc h
  exact ⟨nd, nc, hd, hc, find?_mem hf, h1, h2, h3, h4, h5⟩

theorem childD_facts (T : Tree env m s0 dp tm st) {d c : Nat} {o : S} (h : childD st c o = some d) :
    ∃ nc nd, st.cn[c]? = some nc ∧ st.dn[d]? = some nd ∧ (o, d) ∈ nc.kids ∧ nd.state = o ∧ nd.depth = nc.depth + 1 ∧
      nd.time = nc.time + 1 ∧ o ∈ env.succ nc.state nc.action := by
  simp only [childD, Option.bind_eq_some_iff] at h
  obtain ⟨nc, hc, hf⟩ := h
  have h1 : (st.cn.map CNode.skel)[c]? = some nc.skel := by simp [hc]
  obtain ⟨n, g1, g2⟩ := T.heap.cKid c nc.skel o d h1 (find?_mem hf)
  simp at g1
  obtain ⟨nd, g1, rfl⟩ := g1
  exact ⟨nc, nd, hc, g1, find?_mem hf, g2.1, g2.2.1, g2.2.2, T.heap.cObs c nc.skel o d h1 (find?_mem hf)⟩

theorem childC_of_mem (T : Tree env m s0 dp tm st) {d c : Nat} {a : A} {nd : DNode S A R X} (hd : st.dn[d]? = some nd)
    (h : (a, c) ∈ nd.kids) : childC st d a = some c := by
  have h1 : (st.dn.map DNode.skel)[d]? = some nd.skel := by simp [hd]
  simp only [childC, hd, Option.bind_some]
  exact find?_of_mem (T.heap.dNodup d nd.skel h1) h

theorem childD_of_mem (T : Tree env m s0 dp tm st) {d c : Nat} {o : S} {nc : CNode S A R Y} (hc : st.cn[c]? = some nc)
    (h : (o, d) ∈ nc.kids) : childD st c o = some d := by
  have h1 : (st.cn.map CNode.skel)[c]? = some nc.skel := by simp [hc]
  simp only [childD, hc, Option.bind_some]
  exact find?_of_mem (T.heap.cNodup c nc.skel h1) h

theorem isPath_depth (T : Tree env m s0 dp tm st) {ss : List (Step S A R)} : ∀ {d e : Nat} {nd ne : DNode S A R X},
    IsPath env st d ss e → st.dn[d]? = some nd → st.dn[e]? = some ne → ne.depth = nd.depth + ss.length := by
  induction ss with
  | nil => intro d e nd ne hp hd he; simp only [IsPath] at hp; subst hp; rw [hd] at he; simp at he; subst he; simp
  | cons s ss ih =>
    intro d e nd ne hp hd he
    obtain ⟨h1, h2, h3, h4, h5⟩ := hp
    obtain ⟨nd', nc, g1, g2, _, _, _, g3, _⟩ := childC_facts T h2
    obtain ⟨nc', nd2, k1, k2, _, _, k3, _⟩ := childD_facts T h3
    rw [hd] at g1; simp at g1; subst g1
    rw [g2] at k1; simp at k1; subst k1
    have := ih h5 k2 he
    simp only [List.length_cons]
    omega

theorem isPath_mem {ss : List (Step S A R)} : ∀ {d e : Nat}, IsPath env st d ss e → ∀ s ∈ ss,
    childC st s.d s.a = some s.c ∧ childD st s.c s.o = some s.d' := by
  induction ss with
  | nil => simp
  | cons s ss ih =>
    intro d e hp t ht
    obtain ⟨h1, h2, h3, h4, h5⟩ := hp
    rcases List.mem_cons.1 ht with rfl | ht
    · rw [h1]; exact ⟨h2, h3⟩
    · exact ih h5 t ht

theorem desc_depth (T : Tree env m s0 dp tm st) {d e : Nat} (h : Desc st d e) :
    ∃ nd ne, st.dn[d]? = some nd ∧ st.dn[e]? = some ne ∧ nd.depth < ne.depth := by
  induction h with
  | step h1 h2 =>
    obtain ⟨nd', nc, g1, g2, _, _, _, g3, _⟩ := childC_facts T h1
    obtain ⟨nc', nd2, k1, k2, _, _, k3, _⟩ := childD_facts T h2
    rw [g2] at k1; simp at k1; subst k1
    exact ⟨nd', nd2, g1, k2, by omega⟩
  | trans _ _ ih1 ih2 =>
    obtain ⟨a, b, h1, h2, h3⟩ := ih1
    obtain ⟨b', c, h4, h5, h6⟩ := ih2
    rw [h2] at h4; simp at h4; subst h4
    exact ⟨a, c, h1, h5, by omega⟩

theorem root_node (T : Tree env m s0 dp tm st) : ∃ nd, st.dn[st.root]? = some nd ∧ nd.state = s0 ∧ nd.depth = dp ∧ nd.time = tm := by
  obtain ⟨r, hr, h1, h2, h3⟩ := T.heap.root
  simp only [List.getElem?_map, Option.map_eq_some_iff] at hr
  obtain ⟨nd, hnd, rfl⟩ := hr
  exact ⟨nd, by rw [T.root]; exact hnd, h1, h2, h3⟩

end

/-! ## Crashes -/

/-- The only ways a search can die are the two transposition table failures. -/
theorem cause_cases [AddMonoid R] {env : Env S A R} {m : Manager S R} {s0 : S} {dp tm : Int} {st : St S A R X Y}
    {h : List (Event S A R)} (I : Inv env m s0 dp tm st h) {w : Nat} {e : Err} (hc : Cause m st w e) :
    (e = .noMutex ∧ m.useTable = true ∧ m.numMutexes = 0) ∨
    (e = .badWeakPtr ∧ m.useTable = true ∧ ∃ k, find? k st.table = some none) := by
  cases hc with
  | sel hw hn =>
    obtain ⟨⟨_, ⟨nd, h1⟩, _⟩, _⟩ := I.ws w _ hw
    rw [hn] at h1; simp at h1
  | samp hw hn =>
    obtain ⟨_, _, _, _, _, _, h7, ⟨nd, h8, _⟩, _⟩ := I.ws w _ hw
    obtain ⟨nc, h9⟩ := tree_childC_exists I.tree h7
    rcases hn with hn | hn
    · rw [hn] at h9; simp at h9
    · rw [hn] at h8; simp at h8
  | noMutex hw hc hf ht hm => exact .inl ⟨rfl, ht, hm⟩
  | weak hw hc hf ht hx => exact .inr ⟨rfl, ht, _, hx⟩
  | backV hw hne hb =>
    obtain ⟨e, hv, j, h1, h2, h3, h4, h5, h6, h7⟩ := I.ws w _ hw
    exfalso
    apply hne
    have := congrArg List.length (h6.symm.trans hb)
    simp at this
    rw [h5]
    rcases this with rfl | h0
    · simp
    · simp [pairs, h0]
  | @backC nodes before after ret tot d c hw hl hn =>
    obtain ⟨e, hv, j, h1, h2, h3, h4, h5, h6, h7⟩ := I.ws w _ hw
    exfalso
    have hmem : (d, c) ∈ nodes := List.mem_of_getLast? hl
    rw [h5] at hmem
    have := List.mem_of_mem_take hmem
    simp only [pairs, List.mem_map] at this
    obtain ⟨s, hs, he⟩ := this
    simp at he
    obtain ⟨nc, h8⟩ := tree_childC_exists I.tree (isPath_mem h3.1 s hs).1
    rw [he.2, hn] at h8; simp at h8
  | backD hw hn =>
    obtain ⟨e, hv, j, s, h1, h2, h3, h4, h5⟩ := I.ws w _ hw
    exfalso
    have := (isPath_mem h4.1 s (List.mem_of_getElem? h1)).1
    obtain ⟨nd, _, h6, _⟩ := childC_facts I.tree this
    rw [h2, hn] at h6; simp at h6

theorem find?_none_entry {K V : Type} [DecidableEq K] {l : List (K × Option V)} (h : ∀ p ∈ l, p.2 ≠ none) (k : K) :
    find? k l ≠ some none := fun hf => h _ (find?_mem hf) rfl

theorem eff_table [Add R] [Zero R] {env : Env S A R} {m : Manager S R} {alg : Alg S A R X Y} {st st' : St S A R X Y} {w : Nat}
    {e : Event S A R} (E : Eff env m alg st w e st') (h : ∀ p ∈ st.table, p.2 ≠ none) : ∀ p ∈ st'.table, p.2 ≠ none := by
  cases E <;> simp only <;> try assumption
  rename_i ht
  rcases ht with ⟨_, rfl⟩ | ⟨_, _, rfl⟩
  · exact h
  · intro p hp
    rcases List.mem_append.1 hp with hp | hp
    · exact h p hp
    · simp at hp; subst hp; simp

/-! ## Trial length -/

def phaseLen (n : Nat) : Phase S A R → Nat → Nat → Prop
  | .idle, len, sc => (len = 0 ∧ sc = 0) ∨ (len = 4 * n + 2 ∧ sc = n)
  | .sel _ _ _ _, len, sc => len = 2 * n ∧ sc = n
  | .samp _ _ _ _ _ _, len, sc => len = 2 * n + 1 ∧ sc = n + 1
  | .back nodes _ _ _ _, len, sc => nodes.length ≤ n ∧ len + 2 * nodes.length = 4 * n + 1 ∧ sc = n
  | .backD _ nodes _ _ _ _, len, sc => nodes.length < n ∧ len + 2 * nodes.length = 4 * n ∧ sc = n

theorem len_eff [Add R] [Zero R] {env : Env S A R} {m : Manager S R} {alg : Alg S A R X Y} {st st' : St S A R X Y} {w : Nat}
    {e : Event S A R} {h : List (Event S A R)} (E : Eff env m alg st w e st')
    (hpath : ∀ (v : Nat) c p r n, st.ws[v]? = some (.sel c p r n) → p.length = (stepsOf v h).length)
    (H : ∀ (v : Nat) p, st.ws[v]? = some p → phaseLen (stepsOf v h).length p (blocksOf v h) (selectionsOf v h)) :
    ∀ (v : Nat) p, st'.ws[v]? = some p → phaseLen (stepsOf v (e :: h)).length p (blocksOf v (e :: h)) (selectionsOf v (e :: h)) := by
  intro v p hp
  have hew := eff_worker E
  by_cases hvw : v ≠ w
  · rw [eff_ws_other E hvw] at hp
    have hne : e.worker ≠ v := by rw [hew]; exact fun h => hvw h.symm
    have := H v p hp
    simp only [selectionsOf, blocksOf] at this ⊢
    rw [stepsOf_other hne, trialOf_other hne]; exact this
  have hvw : v = w := Classical.not_not.1 hvw
  subst hvw
  have hself : ∀ q, st.ws[v]?.isSome → (st.ws.set v q)[v]? = some q := by
    intro q hq
    cases hx : st.ws[v]? with
    | none => simp [hx] at hq
    | some y => exact List.getElem?_set_self (List.getElem?_eq_some_iff.1 hx).1
  cases E with
  | crash hc =>
    have := H v _ hp
    simp only [selectionsOf, blocksOf] at this ⊢
    rw [st_crash, tr_crash]; simpa using this
  | began hw =>
    rw [hself _ (by simp [hw])] at hp; simp at hp; subst hp
    simp [phaseLen, stepsOf, tr_began, selectionsOf, blocksOf]
  | selOld hw | selNew hw =>
    rw [hself _ (by simp [hw])] at hp; simp at hp; subst hp
    have := H v _ hw
    simp only [phaseLen, selectionsOf, blocksOf] at this ⊢
    rw [st_sel, tr_sel]; simp; omega
  | ended hw =>
    rw [hself _ (by simp [hw])] at hp; simp at hp; subst hp
    have := H v _ hw
    have := hpath v _ _ _ _ hw
    simp only [phaseLen, selectionsOf, blocksOf] at *
    rw [st_end, tr_end]; simp; omega
  | stepOld hw | stepNew hw | stepHit hw =>
    rw [hself _ (by simp [hw])] at hp; simp at hp; subst hp
    have := H v _ hw
    simp only [phaseLen, selectionsOf, blocksOf] at *
    rw [st_stp, tr_stp]; simp; omega
  | completed hw =>
    rw [hself _ (by simp [hw])] at hp; simp at hp; subst hp
    have := H v _ hw
    simp only [phaseLen, selectionsOf, blocksOf] at *
    rw [st_comp, tr_comp]; simp at *; omega
  | backedC hw =>
    rw [hself _ (by simp [hw])] at hp; simp at hp; subst hp
    have := H v _ hw
    simp only [phaseLen, selectionsOf, blocksOf] at *
    rw [st_bc, tr_bc]; simp at *; omega
  | backedD hw =>
    rw [hself _ (by simp [hw])] at hp; simp at hp; subst hp
    have := H v _ hw
    simp only [phaseLen, selectionsOf, blocksOf] at *
    rw [st_bd, tr_bd]; simp at *; omega

theorem reach_phaseLen [AddMonoid R] {env : Env S A R} {m : Manager S R} {alg : Alg S A R X Y} (hv : alg.Valid) {k : Nat} {s0 : S}
    {dp tm : Int} {tb : List ((Int × S) × Option Nat)} (htb : Leftover tb) {st : St S A R X Y} {h : List (Event S A R)}
    (hr : Reachable env m alg k s0 dp tm tb st h) {w : Nat} {p : Phase S A R} (hp : st.ws[w]? = some p) :
    phaseLen (stepsOf w h).length p (blocksOf w h) (selectionsOf w h) := by
  obtain ⟨ls, hx⟩ := hr
  have := exec_induct (fun (s : St S A R X Y) h => Inv env m s0 dp tm s h ∧
      ∀ (v : Nat) p, s.ws[v]? = some p → phaseLen (stepsOf v h).length p (blocksOf v h) (selectionsOf v h))
    (fun st h w e st' hp _ E => ⟨inv_eff hv hp.1 E, len_eff E (fun v c p r n hw => by
      obtain ⟨_, h2, _⟩ := hp.1.ws v _ hw
      rw [h2]; simp [pairs]) hp.2⟩)
    ⟨inv_init env m alg k s0 dp tm tb htb, fun v p hp => by
      simp only [init, List.getElem?_replicate] at hp
      split at hp
      · simp at hp; subst hp; simp [phaseLen, stepsOf, blocksOf, selectionsOf, trialOf]
      · simp at hp⟩ hx
  exact this.2 w p hp

/-- Length of a trial against the depth limit. -/
theorem steps_bound [AddMonoid R] {env : Env S A R} {m : Manager S R} {s0 : S} {dp tm : Int} {st : St S A R X Y}
    {h : List (Event S A R)} (I : Inv env m s0 dp tm st h) (hdp : dp ≤ m.maxDepth) {w : Nat} {p : Phase S A R}
    (hp : st.ws[w]? = some p) :
    dp + (stepsOf w h).length ≤ m.maxDepth ∧
    ((∃ cur a c path rs new, p = .samp cur a c path rs new) → dp + (stepsOf w h).length + 1 ≤ m.maxDepth) := by
  obtain ⟨e, ⟨h1, ⟨ne, h2⟩, h3⟩, h4⟩ := winv_base I hp
  obtain ⟨nd, hr, _, hd, _⟩ := root_node I.tree
  have hdep := isPath_depth I.tree h1 hr h2
  have hmax := I.tree.heap.dMax hdp e ne.skel (by simp [h2])
  simp only [DNode.skel] at hmax
  refine ⟨by omega, ?_⟩
  rintro ⟨cur, a, c, path, rs, new, rfl⟩
  obtain ⟨⟨k1, _⟩, _, _, _, _, _, _, ⟨nd', k2, k3⟩, _⟩ := I.ws w _ hp
  have hdep' := isPath_depth I.tree k1 hr k2
  simp [isLeaf] at k3
  omega

/-! ## Sums over children -/

theorem kids_snd_nodup {K : Type} {l : List (K × Nat)} (hn : (l.map Prod.fst).Nodup)
    (h : ∀ k k' i, (k, i) ∈ l → (k', i) ∈ l → k = k') : (l.map Prod.snd).Nodup := by
  induction l with
  | nil => simp
  | cons a l ih =>
    obtain ⟨k, i⟩ := a
    simp only [List.map_cons, List.nodup_cons] at hn ⊢
    refine ⟨?_, ih hn.2 (fun k k' i h1 h2 => h k k' i (by simp [h1]) (by simp [h2]))⟩
    intro hm
    obtain ⟨⟨k', i'⟩, hk', rfl⟩ := List.mem_map.1 hm
    have := h k k' i' (by simp) (by simp [hk'])
    subst this
    exact hn.1 (List.mem_map.2 ⟨_, hk', rfl⟩)

section
variable [AddMonoid R] {env : Env S A R} {m : Manager S R} {alg : Alg S A R X Y} {s0 : S} {dp tm : Int} {st : St S A R X Y}
  {h : List (Event S A R)}

theorem dkids_nodup (T : Tree env m s0 dp tm st) {d : Nat} {nd : DNode S A R X} (hd : st.dn[d]? = some nd) :
    (nd.kids.map Prod.snd).Nodup := by
  have h1 : (st.dn.map DNode.skel)[d]? = some nd.skel := by simp [hd]
  refine kids_snd_nodup (T.heap.dNodup d nd.skel h1) ?_
  intro a a' c h2 h3
  obtain ⟨n, k1, _, k2, _⟩ := T.heap.dKid d nd.skel a c h1 h2
  obtain ⟨n', k3, _, k4, _⟩ := T.heap.dKid d nd.skel a' c h1 h3
  rw [k1] at k3; simp at k3; subst k3
  rw [← k2, ← k4]

theorem ckids_nodup (T : Tree env m s0 dp tm st) {c : Nat} {nc : CNode S A R Y} (hc : st.cn[c]? = some nc) :
    (nc.kids.map Prod.snd).Nodup := by
  have h1 : (st.cn.map CNode.skel)[c]? = some nc.skel := by simp [hc]
  refine kids_snd_nodup (T.heap.cNodup c nc.skel h1) ?_
  intro a a' i h2 h3
  obtain ⟨n, k1, k2, _⟩ := T.heap.cKid c nc.skel a i h1 h2
  obtain ⟨n', k3, k4, _⟩ := T.heap.cKid c nc.skel a' i h1 h3
  rw [k1] at k3; simp at k3; subst k3
  rw [← k2, ← k4]

def Event.selC : Event S A R → Option Nat | .selected _ _ _ c => some c | _ => none
def Event.stepD : Event S A R → Option Nat | .stepped _ _ _ _ _ d' _ _ => some d' | _ => none
def Event.stepD' (c : Nat) : Event S A R → Option Nat | .stepped _ _ _ c' _ d' _ _ => if c' = c then some d' else none | _ => none

theorem countP_congr' {α : Type} {p q : α → Bool} (l : List α) (h : ∀ a, p a = q a) : l.countP p = l.countP q := by
  have : p = q := funext h
  rw [this]

theorem sel_partition (I : Inv env m s0 dp tm st h) (C : Cnt m alg st h) {d : Nat} {nd : DNode S A R X} (hd : st.dn[d]? = some nd) :
    h.countP (Event.selAt d) = (nd.kids.map (fun p => h.countP (Event.selVia p.2))).sum := by
  rw [countP_partition (Event.selAt d) Event.selC (nd.kids.map Prod.snd) (dkids_nodup I.tree hd) h]
  · rw [List.map_map]
    congr 1
    apply List.map_congr_left
    intro p _
    apply countP_congr'
    intro e
    cases e <;> simp [Event.selC, Event.selVia]
    rfl
  · intro e he
    cases e <;> simp [Event.selAt, Event.selC]
    rename_i w d' a c
    have := C.evSel w d' a c he
    constructor
    · rintro rfl
      obtain ⟨nd', _, k1, _, k2, _⟩ := childC_facts I.tree this
      rw [hd] at k1; simp at k1; subst k1
      exact ⟨a, k2⟩
    · rintro ⟨a', k2⟩
      obtain ⟨nd', _, k1, _, k3, _⟩ := childC_facts I.tree this
      exact I.tree.heap.dUniq d' d nd'.skel nd.skel a a' c (by simp [k1]) (by simp [hd]) k3 k2

theorem went_partition (I : Inv env m s0 dp tm st h) (C : Cnt m alg st h) {c : Nat} {nc : CNode S A R Y} (hc : st.cn[c]? = some nc) :
    h.countP (Event.stepVia c) = (nc.kids.map (fun p => timesWent c p.2 h)).sum := by
  rw [countP_partition (Event.stepVia c) (Event.stepD' c) (nc.kids.map Prod.snd) (ckids_nodup I.tree hc) h]
  · rw [List.map_map]
    congr 1
    apply List.map_congr_left
    intro p _
    apply countP_congr'
    intro e
    cases e <;> simp [Event.stepD']
    rename_i c' _ _ _ _
    by_cases hcc : c' = c <;> simp [hcc]
    rfl
  · intro e he
    cases e <;> simp [Event.stepVia, Event.stepD']
    rename_i w d a c' o d' r g
    rintro rfl
    obtain ⟨nc', _, k1, _, k2, _⟩ := childD_facts I.tree (C.evStep w d a c' o d' r g he).1
    rw [hc] at k1; simp at k1; subst k1
    exact ⟨o, k2⟩

theorem into_of_notable (I : Inv env m s0 dp tm st h) (C : Cnt m alg st h) (ht : m.useTable = false) {c : Nat}
    {nc : CNode S A R Y} (hc : st.cn[c]? = some nc) {o : S} {d : Nat} (hk : (o, d) ∈ nc.kids) :
    timesWent c d h = h.countP (Event.stepInto d) := by
  unfold timesWent
  apply List.countP_congr
  intro e he
  cases e <;> simp [Event.stepInto]
  rename_i w d1 a c' o' d' r g
  rintro rfl
  obtain ⟨nc', _, k1, _, k2, _⟩ := childD_facts I.tree (C.evStep w d1 a c' o' d' r g he).1
  exact I.tree.heap.cUniq ht c' c nc'.skel nc.skel o' o d' (by simp [k1]) (by simp [hc]) k2 hk

theorem no_into_root (I : Inv env m s0 dp tm st h) (C : Cnt m alg st h) : h.countP (Event.stepInto st.root) = 0 := by
  apply countP_zero_of
  intro e he
  cases e <;> simp [Event.stepInto]
  rename_i w d a c o d' r g
  rintro rfl
  obtain ⟨h1, h2⟩ := C.evStep w d a c o _ r g he
  obtain ⟨nc, nd, k1, k2, _, _, k3, _⟩ := childD_facts I.tree h1
  obtain ⟨nd', nc', g1, g2, _, _, _, g3, _⟩ := childC_facts I.tree h2
  rw [k1] at g2; simp at g2; subst g2
  obtain ⟨r, hr, _, hdr, _⟩ := root_node I.tree
  rw [k2] at hr; simp at hr; subst hr
  have := (I.tree.heap.dTime d nd'.skel (by simp [g1])).2
  simp [DNode.skel] at this
  omega

theorem quiescent_counts (hq : Quiescent st) (f : Phase S A R → Bool) (hf : f .idle = false) : st.ws.countP f = 0 := by
  apply countP_zero_of
  intro p hp
  obtain ⟨i, hi⟩ := List.mem_iff_getElem?.1 hp
  rw [hq i p hi, hf]

end

end Verif.Search
