import Verif.Proofs.SearchStep
import Verif.Spec.Reuse

/-! # Searches whose root moves: bounds, depths and contexts -/

namespace Verif.Search

set_option linter.unusedSimpArgs false
set_option linter.unusedSectionVars false

variable {S A R X Y : Type} [DecidableEq S] [DecidableEq A] [Add R] [Zero R]

/-- All nodes of the list exist. -/
def InB (st : St S A R X Y) (l : List (Nat × Nat)) : Prop := ∀ p ∈ l, p.1 < st.dn.length ∧ p.2 < st.cn.length

def PWF (st : St S A R X Y) (ctx : Ctx A R) : Phase S A R → Prop
  | .idle => True
  | .sel cur path rs _ => (∃ nd, st.dn[cur]? = some nd ∧ ctx.Keys (· < nd.depth)) ∧ InB st path ∧ path.length = rs.length
  | .samp cur _ c path rs _ =>
      (∃ nd nc, st.dn[cur]? = some nd ∧ st.cn[c]? = some nc ∧ nc.depth = nd.depth ∧ ctx.Keys (· ≤ nd.depth)) ∧ InB st path ∧
        path.length = rs.length
  | .back nodes before _ _ _ => InB st nodes ∧ nodes.length = before.length
  | .backD d nodes before _ _ _ => d < st.dn.length ∧ InB st nodes ∧ nodes.length = before.length

structure WF (st : St S A R X Y) : Prop where
  root : ∃ nd, st.dn[st.root]? = some nd
  kidD : ∀ (d : Nat) nd a c, st.dn[d]? = some nd → (a, c) ∈ nd.kids → ∃ nc, st.cn[c]? = some nc ∧ nc.depth = nd.depth
  kidC : ∀ (c : Nat) nc o e, st.cn[c]? = some nc → (o, e) ∈ nc.kids → ∃ nd, st.dn[e]? = some nd ∧ nd.depth = nc.depth + 1
  len : st.ctxs.length = st.ws.length
  ph : ∀ (w : Nat) p, st.ws[w]? = some p → PWF st (st.ctxOf w) p

/-- Nodes stay, with their depths. -/
structure Grow (st st' : St S A R X Y) : Prop where
  d : ∀ (i : Nat) nd, st.dn[i]? = some nd → ∃ nd', st'.dn[i]? = some nd' ∧ nd'.depth = nd.depth
  c : ∀ (i : Nat) nc, st.cn[i]? = some nc → ∃ nc', st'.cn[i]? = some nc' ∧ nc'.depth = nc.depth

theorem Grow.lenD {st st' : St S A R X Y} (G : Grow st st') {i : Nat} (h : i < st.dn.length) : i < st'.dn.length := by
  obtain ⟨nd, h1, _⟩ := G.d i _ (List.getElem?_eq_getElem h)
  exact (List.getElem?_eq_some_iff.1 h1).1

theorem Grow.lenC {st st' : St S A R X Y} (G : Grow st st') {i : Nat} (h : i < st.cn.length) : i < st'.cn.length := by
  obtain ⟨nd, h1, _⟩ := G.c i _ (List.getElem?_eq_getElem h)
  exact (List.getElem?_eq_some_iff.1 h1).1

theorem Grow.inB {st st' : St S A R X Y} (G : Grow st st') {l : List (Nat × Nat)} (h : InB st l) : InB st' l :=
  fun p hp => ⟨G.lenD (h p hp).1, G.lenC (h p hp).2⟩

theorem Grow.pwf {st st' : St S A R X Y} (G : Grow st st') {ctx : Ctx A R} {p : Phase S A R} (h : PWF st ctx p) : PWF st' ctx p := by
  cases p with
  | idle => trivial
  | sel cur path rs new =>
    obtain ⟨⟨nd, h1, h2⟩, h3, h4⟩ := h
    obtain ⟨nd', g1, g2⟩ := G.d _ _ h1
    exact ⟨⟨nd', g1, by rw [g2]; exact h2⟩, G.inB h3, h4⟩
  | samp cur a c path rs new =>
    obtain ⟨⟨nd, nc, h1, h2, h3, h3'⟩, h4, h5⟩ := h
    obtain ⟨nd', g1, g2⟩ := G.d _ _ h1
    obtain ⟨nc', g3, g4⟩ := G.c _ _ h2
    exact ⟨⟨nd', nc', g1, g3, by rw [g2, g4, h3], by rw [g2]; exact h3'⟩, G.inB h4, h5⟩
  | back nodes before after ret tot => exact ⟨G.inB h.1, h.2⟩
  | backD d nodes before after ret tot => exact ⟨G.lenD h.1, G.inB h.2.1, h.2.2⟩

theorem set_get {α : Type} {l : List α} {i j : Nat} {a b : α} (h : l[j]? = some b) :
    (l.set i a)[j]? = some (if i = j then a else b) := by
  have hj := (List.getElem?_eq_some_iff.1 h).1
  by_cases hij : i = j
  · subst hij; simp [hj]
  · simp [hij, List.getElem?_set_ne hij, h]

theorem grow_eff {env : Env S A R} {m : Manager S R} {alg : Alg S A R X Y} {st st' : St S A R X Y} {w : Nat} {e : Event S A R}
    (E : Eff env m alg st w e st') : Grow st st' := by
  have hset : ∀ {l : List (DNode S A R X)} {i j : Nat} {a b nd : DNode S A R X}, l[i]? = some a → b.depth = a.depth → l[j]? = some nd →
      ∃ nd', (l.set i b)[j]? = some nd' ∧ nd'.depth = nd.depth := by
    intro l i j a b nd h1 h2 h3
    refine ⟨_, set_get h3, ?_⟩
    split
    · rename_i hij; subst hij; rw [h1] at h3; cases h3; exact h2
    · rfl
  have hsetC : ∀ {l : List (CNode S A R Y)} {i j : Nat} {a b nd : CNode S A R Y}, l[i]? = some a → b.depth = a.depth → l[j]? = some nd →
      ∃ nd', (l.set i b)[j]? = some nd' ∧ nd'.depth = nd.depth := by
    intro l i j a b nd h1 h2 h3
    refine ⟨_, set_get h3, ?_⟩
    split
    · rename_i hij; subst hij; rw [h1] at h3; cases h3; exact h2
    · rfl
  have happ : ∀ {α : Type} {l : List α} {j : Nat} {a b : α}, l[j]? = some a → (l ++ [b])[j]? = some a := by
    intro α l j a b h
    rw [List.getElem?_append_left (List.getElem?_eq_some_iff.1 h).1]; exact h
  cases E with
  | crash h => exact ⟨fun i nd h => ⟨nd, h, rfl⟩, fun i nc h => ⟨nc, h, rfl⟩⟩
  | began hw => exact ⟨fun i nd h => ⟨nd, h, rfl⟩, fun i nc h => ⟨nc, h, rfl⟩⟩
  | selOld hw hd hl hm ha hf => exact ⟨fun i nd h => hset hd rfl h, fun i nc h => ⟨nc, h, rfl⟩⟩
  | selNew hw hd hl hm ha hf => exact ⟨fun i nd h => hset hd rfl h, fun i nc h => ⟨nc, happ h, rfl⟩⟩
  | ended hw hd hs => exact ⟨fun i nd h => hset hd rfl h, fun i nc h => ⟨nc, h, rfl⟩⟩
  | stepOld hw hc hd ho hf => exact ⟨fun i nd h => ⟨nd, h, rfl⟩, fun i nc h => hsetC hc rfl h⟩
  | stepNew hw hc hd ho hf ht => exact ⟨fun i nd h => ⟨nd, happ h, rfl⟩, fun i nc h => hsetC hc rfl h⟩
  | stepHit hw hc hd ho hf hu ht => exact ⟨fun i nd h => ⟨nd, h, rfl⟩, fun i nc h => hsetC hc rfl h⟩
  | completed hw => exact ⟨fun i nd h => ⟨nd, h, rfl⟩, fun i nc h => ⟨nc, h, rfl⟩⟩
  | backedC hw hc => exact ⟨fun i nd h => ⟨nd, h, rfl⟩, fun i nc h => hsetC hc rfl h⟩
  | backedD hw hd => exact ⟨fun i nd h => hset hd rfl h, fun i nc h => ⟨nc, h, rfl⟩⟩

/-- Only the stepping worker's phase and context change. -/
theorem ph_set {st st' : St S A R X Y} (W : WF st) (G : Grow st st') {w : Nat} {p : Phase S A R} {c : Ctx A R}
    (hws : st'.ws = st.ws.set w p) (hcx : st'.ctxs = st.ctxs ∧ c = st.ctxOf w ∨ st'.ctxs = st.ctxs.set w c) (hp : PWF st' c p) :
    ∀ (v : Nat) q, st'.ws[v]? = some q → PWF st' (st'.ctxOf v) q := by
  intro v q hq
  have hlt : v < st.ws.length := by
    have := (List.getElem?_eq_some_iff.1 hq).1
    rw [hws, List.length_set] at this; exact this
  rw [hws] at hq
  by_cases hv : w = v
  · subst hv
    rw [List.getElem?_set_self hlt] at hq
    cases hq
    have : st'.ctxOf w = c := by
      unfold St.ctxOf
      rcases hcx with ⟨h, rfl⟩ | h
      · rw [h]; rfl
      · rw [h, List.getElem?_set_self (by rw [W.len]; exact hlt)]; rfl
    rw [this]; exact hp
  · rw [List.getElem?_set_ne hv] at hq
    have : st'.ctxOf v = st.ctxOf v := by
      unfold St.ctxOf
      rcases hcx with ⟨h, rfl⟩ | h
      · rw [h]
      · rw [h, List.getElem?_set_ne hv]
    rw [this]
    exact G.pwf (W.ph v q hq)

theorem wf_init (env : Env S A R) (m : Manager S R) (alg : Alg S A R X Y) (k : Nat) (s0 : S) (dp tm : Int)
    (tb : List ((Int × S) × Option Nat)) : WF (init env m alg k s0 dp tm tb) where
  root := ⟨_, rfl⟩
  kidD := by
    intro d nd a c h hk
    rcases d with _ | d
    · simp [init] at h; subst h; simp [newD] at hk
    · simp [init] at h
  kidC := by intro c nc o e h; simp [init] at h
  len := by simp [init]
  ph := by
    intro w p h
    simp only [init, List.getElem?_replicate] at h
    split at h
    · cases h; trivial
    · cases h

theorem Ctx.Keys.mono {P Q : Int → Prop} {c : Ctx A R} (h : c.Keys P) (hpq : ∀ k, P k → Q k) : c.Keys Q :=
  ⟨fun p hp => hpq _ (h.1 p hp), fun p hp => hpq _ (h.2 p hp)⟩

theorem InB.append {st : St S A R X Y} {l : List (Nat × Nat)} {p : Nat × Nat} (h : InB st l) (h1 : p.1 < st.dn.length) (h2 : p.2 < st.cn.length) :
    InB st (l ++ [p]) := by
  intro q hq
  rcases List.mem_append.1 hq with hq | hq
  · exact h q hq
  · simp at hq; subst hq; exact ⟨h1, h2⟩

/-- Kids of decision nodes after a change that keeps or adds kids. -/
theorem kidD_set {st st' : St S A R X Y} (W : WF st) (G : Grow st st') {cur : Nat} {nd nd' : DNode S A R X} (hd : st.dn[cur]? = some nd)
    (hdn : st'.dn = st.dn.set cur nd') (hdep : nd'.depth = nd.depth)
    (hk : ∀ a c, (a, c) ∈ nd'.kids → (a, c) ∈ nd.kids ∨ ∃ nc, st'.cn[c]? = some nc ∧ nc.depth = nd.depth) :
    ∀ (d : Nat) nd a c, st'.dn[d]? = some nd → (a, c) ∈ nd.kids → ∃ nc, st'.cn[c]? = some nc ∧ nc.depth = nd.depth := by
  have old : ∀ (d : Nat) nd a c, st.dn[d]? = some nd → (a, c) ∈ nd.kids → ∃ nc, st'.cn[c]? = some nc ∧ nc.depth = nd.depth := by
    intro d x a c h1 h2
    obtain ⟨nc, g1, g2⟩ := W.kidD d x a c h1 h2
    obtain ⟨nc', g3, g4⟩ := G.c _ _ g1
    exact ⟨nc', g3, by rw [g4, g2]⟩
  intro d x a c h1 h2
  rw [hdn] at h1
  by_cases hdc : cur = d
  · subst hdc
    rw [List.getElem?_set_self (List.getElem?_eq_some_iff.1 hd).1] at h1
    cases h1
    rcases hk a c h2 with h | ⟨nc, g1, g2⟩
    · rw [hdep]; exact old _ _ _ _ hd h
    · exact ⟨nc, g1, by rw [g2, hdep]⟩
  · rw [List.getElem?_set_ne hdc] at h1
    exact old _ _ _ _ h1 h2

theorem kidC_set {st st' : St S A R X Y} (W : WF st) (G : Grow st st') {cur : Nat} {nc nc' : CNode S A R Y} (hc : st.cn[cur]? = some nc)
    (hcn : st'.cn = st.cn.set cur nc') (hdep : nc'.depth = nc.depth)
    (hk : ∀ o e, (o, e) ∈ nc'.kids → (o, e) ∈ nc.kids ∨ ∃ nd, st'.dn[e]? = some nd ∧ nd.depth = nc.depth + 1) :
    ∀ (c : Nat) nc o e, st'.cn[c]? = some nc → (o, e) ∈ nc.kids → ∃ nd, st'.dn[e]? = some nd ∧ nd.depth = nc.depth + 1 := by
  have old : ∀ (c : Nat) nc o e, st.cn[c]? = some nc → (o, e) ∈ nc.kids → ∃ nd, st'.dn[e]? = some nd ∧ nd.depth = nc.depth + 1 := by
    intro d x a c h1 h2
    obtain ⟨nc, g1, g2⟩ := W.kidC d x a c h1 h2
    obtain ⟨nc', g3, g4⟩ := G.d _ _ g1
    exact ⟨nc', g3, by rw [g4, g2]⟩
  intro d x a c h1 h2
  rw [hcn] at h1
  by_cases hdc : cur = d
  · subst hdc
    rw [List.getElem?_set_self (List.getElem?_eq_some_iff.1 hc).1] at h1
    cases h1
    rcases hk a c h2 with h | ⟨nc, g1, g2⟩
    · rw [hdep]; exact old _ _ _ _ hc h
    · exact ⟨nc, g1, by rw [g2, hdep]⟩
  · rw [List.getElem?_set_ne hdc] at h1
    exact old _ _ _ _ h1 h2

theorem kidD_same {st st' : St S A R X Y} (W : WF st) (G : Grow st st') {n : List (DNode S A R X)} (hdn : st'.dn = st.dn ++ n)
    (hn : ∀ x ∈ n, x.kids = []) :
    ∀ (d : Nat) nd a c, st'.dn[d]? = some nd → (a, c) ∈ nd.kids → ∃ nc, st'.cn[c]? = some nc ∧ nc.depth = nd.depth := by
  intro d x a c h1 h2
  rw [hdn] at h1
  by_cases hd : d < st.dn.length
  · rw [List.getElem?_append_left hd] at h1
    obtain ⟨nc, g1, g2⟩ := W.kidD d x a c h1 h2
    obtain ⟨nc', g3, g4⟩ := G.c _ _ g1
    exact ⟨nc', g3, by rw [g4, g2]⟩
  · rw [List.getElem?_append_right (by omega)] at h1
    have := hn x (List.mem_of_getElem? h1)
    rw [this] at h2; simp at h2

theorem kidC_same {st st' : St S A R X Y} (W : WF st) (G : Grow st st') {n : List (CNode S A R Y)} (hcn : st'.cn = st.cn ++ n)
    (hn : ∀ x ∈ n, x.kids = []) :
    ∀ (c : Nat) nc o e, st'.cn[c]? = some nc → (o, e) ∈ nc.kids → ∃ nd, st'.dn[e]? = some nd ∧ nd.depth = nc.depth + 1 := by
  intro d x a c h1 h2
  rw [hcn] at h1
  by_cases hd : d < st.cn.length
  · rw [List.getElem?_append_left hd] at h1
    obtain ⟨nc, g1, g2⟩ := W.kidC d x a c h1 h2
    obtain ⟨nc', g3, g4⟩ := G.d _ _ g1
    exact ⟨nc', g3, by rw [g4, g2]⟩
  · rw [List.getElem?_append_right (by omega)] at h1
    have := hn x (List.mem_of_getElem? h1)
    rw [this] at h2; simp at h2

theorem wf_eff {env : Env S A R} {m : Manager S R} {alg : Alg S A R X Y} (L : alg.Local) (hu : m.useTable = false) {st st' : St S A R X Y}
    {w : Nat} {e : Event S A R} (W : WF st) (E : Eff env m alg st w e st') : WF st' := by
  have G := grow_eff E
  have hroot : st'.root = st.root := by cases E <;> rfl
  have hR : ∃ nd, st'.dn[st'.root]? = some nd := by
    obtain ⟨nd, h⟩ := W.root
    obtain ⟨nd', h', _⟩ := G.d _ _ h
    exact ⟨nd', by rw [hroot]; exact h'⟩
  have hlen : st'.ctxs.length = st'.ws.length := by
    have := W.len
    cases E <;> simp [this]
  cases E with
  | crash h => exact ⟨hR, W.kidD, W.kidC, hlen, fun v q hq => G.pwf (W.ph v q hq)⟩
  | began hw =>
    obtain ⟨nd, hr⟩ := W.root
    refine ⟨hR, W.kidD, W.kidC, hlen, ph_set W G rfl (.inr rfl) ?_⟩
    exact ⟨⟨nd, hr, by simp [Ctx.Keys]⟩, fun p hp => by simp at hp, rfl⟩
  | @selOld cur path rs new nd a c hw hd hl hm ha hf =>
    obtain ⟨⟨nd0, h0, hk⟩, hB, hln⟩ := W.ph _ _ hw
    rw [hd] at h0; cases h0
    refine ⟨hR, kidD_set W G hd rfl rfl (fun a c h => .inl h), kidC_same W G (n := []) (by simp) (by simp), hlen, ph_set W G rfl (.inr rfl) ?_⟩
    obtain ⟨nc, g1, g2⟩ := W.kidD _ _ _ _ hd (find?_mem hf)
    obtain ⟨nc', g3, g4⟩ := G.c _ _ g1
    obtain ⟨nd', g5, g6⟩ := G.d _ _ hd
    refine ⟨⟨nd', nc', g5, g3, by rw [g4, g6, g2], ?_⟩, G.inB hB, hln⟩
    exact L.keys _ _ _ _ (hk.mono (by intro k h; rw [g6]; omega)) (by rw [g6]; exact Int.le_refl _)
  | @selNew cur path rs new nd a hw hd hl hm ha hf =>
    obtain ⟨⟨nd0, h0, hk⟩, hB, hln⟩ := W.ph _ _ hw
    rw [hd] at h0; cases h0
    have hnew : (st.cn ++ [newC alg nd a])[st.cn.length]? = some (newC alg nd a) := by simp
    refine ⟨hR, kidD_set W G hd rfl rfl ?_, kidC_same W G (n := [newC alg nd a]) rfl (by simp [newC]), hlen, ph_set W G rfl (.inr rfl) ?_⟩
    · intro a' c' h
      rcases List.mem_append.1 h with h | h
      · exact .inl h
      · simp at h; obtain ⟨rfl, rfl⟩ := h
        exact .inr ⟨_, hnew, rfl⟩
    · obtain ⟨nd', g5, g6⟩ := G.d _ _ hd
      refine ⟨⟨nd', _, g5, hnew, by rw [g6]; rfl, ?_⟩, G.inB hB, hln⟩
      exact L.keys _ _ _ _ (hk.mono (by intro k h; rw [g6]; omega)) (by rw [g6]; exact Int.le_refl _)
  | @ended cur path rs new nd hw hd hs =>
    obtain ⟨⟨nd0, h0, hk⟩, hB, hln⟩ := W.ph _ _ hw
    exact ⟨hR, kidD_set W G hd rfl rfl (fun a c h => .inl h), kidC_same W G (n := []) (by simp) (by simp), hlen,
      ph_set W G rfl (.inl ⟨rfl, rfl⟩) ⟨G.inB hB, hln⟩⟩
  | @stepOld cur a c path rs new nc nd o d' hw hc hd ho hf =>
    obtain ⟨⟨nd0, nc0, h0, h1, hdc, hk⟩, hB, hln⟩ := W.ph _ _ hw
    rw [hd] at h0; cases h0
    rw [hc] at h1; cases h1
    refine ⟨hR, kidD_same W G (n := []) (by simp) (by simp), kidC_set W G hc rfl rfl (fun a c h => .inl h), hlen, ph_set W G rfl (.inl ⟨rfl, rfl⟩) ?_⟩
    obtain ⟨ne, g1, g2⟩ := W.kidC _ _ _ _ hc (find?_mem hf)
    refine ⟨⟨ne, g1, hk.mono (by intro k h; rw [g2]; omega)⟩, (G.inB hB).append (G.lenD (List.getElem?_eq_some_iff.1 hd).1)
      (G.lenC (List.getElem?_eq_some_iff.1 hc).1), by simp [hln]⟩
  | @stepNew cur a c path rs new nc nd o tb hw hc hd ho hf ht =>
    obtain ⟨⟨nd0, nc0, h0, h1, hdc, hk⟩, hB, hln⟩ := W.ph _ _ hw
    rw [hd] at h0; cases h0
    rw [hc] at h1; cases h1
    have hnew : (st.dn ++ [newD env m alg o (nc.depth + 1) (nc.time + 1)])[st.dn.length]? = some (newD env m alg o (nc.depth + 1) (nc.time + 1)) := by
      simp
    refine ⟨hR, kidD_same W G (n := [newD env m alg o (nc.depth + 1) (nc.time + 1)]) rfl (by simp [newD]), kidC_set W G hc rfl rfl ?_, hlen,
      ph_set W G rfl (.inl ⟨rfl, rfl⟩) ?_⟩
    · intro a' c' h
      rcases List.mem_append.1 h with h | h
      · exact .inl h
      · simp at h; obtain ⟨rfl, rfl⟩ := h
        exact .inr ⟨_, hnew, rfl⟩
    · refine ⟨⟨_, hnew, hk.mono (by intro k h; show k < nc.depth + 1; omega)⟩, (G.inB hB).append (G.lenD (List.getElem?_eq_some_iff.1 hd).1)
        (G.lenC (List.getElem?_eq_some_iff.1 hc).1), by simp [hln]⟩
  | stepHit hw hc hd ho hf hu' ht => rw [hu] at hu'; cases hu'
  | completed hw => exact ⟨hR, W.kidD, W.kidC, hlen, ph_set W G rfl (.inl ⟨rfl, rfl⟩) trivial⟩
  | @backedC nodes d c before r after ret tot nc hw hc =>
    obtain ⟨hB, hln⟩ := W.ph _ _ hw
    refine ⟨hR, kidD_same W G (n := []) (by simp) (by simp), kidC_set W G hc rfl rfl (fun a c h => .inl h), hlen, ph_set W G rfl (.inl ⟨rfl, rfl⟩) ?_⟩
    exact ⟨(hB (d, c) (by simp)).1, G.inB (fun p hp => hB p (by simp [hp])), by simpa using hln⟩
  | @backedD d nodes before after ret tot nd hw hd =>
    obtain ⟨_, hB, hln⟩ := W.ph _ _ hw
    exact ⟨hR, kidD_set W G hd rfl rfl (fun a c h => .inl h), kidC_same W G (n := []) (by simp) (by simp), hlen,
      ph_set W G rfl (.inl ⟨rfl, rfl⟩) ⟨G.inB hB, hln⟩⟩

/-- Without table nothing dies. -/
theorem wf_no_cause {m : Manager S R} (hu : m.useTable = false) {st : St S A R X Y} (W : WF st) {w : Nat} {e : Err} : ¬ Cause m st w e := by
  intro h
  cases h with
  | sel hw h =>
    obtain ⟨⟨nd, h0, _⟩, _⟩ := W.ph _ _ hw
    rw [h] at h0; cases h0
  | samp hw h =>
    obtain ⟨⟨nd, nc, h0, h1, _⟩, _⟩ := W.ph _ _ hw
    rcases h with h | h
    · rw [h] at h1; cases h1
    · rw [h] at h0; cases h0
  | noMutex hw hc hf ht hm => rw [hu] at ht; cases ht
  | weak hw hc hf ht hx => rw [hu] at ht; cases ht
  | @backV nodes before after ret tot hw h1 h2 =>
    obtain ⟨_, hln⟩ := W.ph _ _ hw
    subst h2
    exact h1 (List.length_eq_zero_iff.1 (by simpa using hln))
  | @backC nodes before after ret tot d c hw h1 h2 =>
    obtain ⟨hB, _⟩ := W.ph _ _ hw
    have := (hB (d, c) (List.mem_of_getLast? h1)).2
    rw [List.getElem?_eq_none_iff] at h2
    simp at this; omega
  | @backD d nodes before after ret tot hw h2 =>
    obtain ⟨hB, _⟩ := W.ph _ _ hw
    rw [List.getElem?_eq_none_iff] at h2
    omega

theorem no_crash_eff {env : Env S A R} {m : Manager S R} {alg : Alg S A R X Y} (hu : m.useTable = false) {st st' : St S A R X Y}
    {w : Nat} {e : Event S A R} (W : WF st) (hcr : st.crashed = none) (E : Eff env m alg st w e st') : st'.crashed = none := by
  cases E with
  | crash h => exact absurd h (wf_no_cause hu W)
  | _ => exact hcr

end Verif.Search
