import Verif.Props.Search
import Verif.Proofs.CtxInv

/-! # A trial visits a decision node at most once -/

namespace Verif.Search

set_option linter.unusedSimpArgs false
set_option linter.unusedSectionVars false

variable {S A R X Y : Type} [DecidableEq S] [DecidableEq A] [AddMonoid R]
variable {env : Env S A R} {m : Manager S R} {alg : Alg S A R X Y} {k : Nat} {s0 : S} {dp tm : Int}
  {tb : List ((Int × S) × Option Nat)} {st : St S A R X Y} {h : List (Event S A R)}

/-- The worker's trial has yet to make its visit to a node `j` levels below the root. -/
def Phase.early (j : Nat) : Phase S A R → Bool
  | .sel _ path _ _ => decide (path.length ≤ j)
  | .samp _ _ _ path _ _ => decide (path.length < j)
  | _ => false

theorem early_busy (j : Nat) (ws : List (Phase S A R)) : ws.countP (Phase.early j) ≤ ws.countP Phase.busy := by
  apply List.countP_mono_left
  intro p _ hp
  cases p <;> simp_all [Phase.early, Phase.busy]

/-- Visits made at the node plus visits that can still be made. -/
def VInv (dp : Int) (st : St S A R X Y) (h : List (Event S A R)) : Prop :=
  ∀ (d : Nat) nd (j : Nat), st.dn[d]? = some nd → nd.depth = dp + j →
    h.countP (Event.selAt d) + h.countP (Event.endAt d) + st.ws.countP (Phase.early j) ≤ h.countP Event.isBegan

local macro "cnt" : tactic => `(tactic| (
  simp only [List.countP_cons, Event.selAt, Event.endAt, Event.isBegan, Phase.early, Bool.toNat_false, Bool.toNat_true,
    toNat_beq, beq_iff_eq, Bool.false_eq_true, if_false, if_true, Nat.add_zero, List.length_append, List.length_cons, List.length_nil] at *))

theorem vinv_eff {st' : St S A R X Y} {w : Nat} {e : Event S A R} (hv : alg.Valid) (htb : Leftover tb)
    (hr : Reachable env m alg k s0 dp tm tb st h) (V : VInv dp st h) (E : Eff env m alg st w e st') : VInv dp st' (e :: h) := by
  obtain ⟨I, C⟩ := reach_both hv htb hr
  have hws := I.ws
  intro d nd' j hnd hj
  cases E with
  | crash hc =>
    have := V d nd' j hnd hj
    cnt; exact this
  | began hw =>
    have k1 := countP_set' (Phase.early j) st.ws w _ (.sel st.root [] [] false) hw
    have := V d nd' j hnd hj
    cnt
    simp at k1
    omega
  | @selOld cur path rs new nd a c hw hd hl hm ha hf =>
    have k1 := countP_set' (Phase.early j) st.ws w _ (.samp cur a c path rs new) hw
    obtain ⟨B, rfl, _⟩ := hws _ _ hw
    have hdep := (base_depth I.tree B).1 nd hd
    have hp : (pairs (stepsOf w h)).length = (stepsOf w h).length := by simp [pairs]
    rcases set_cases hnd with ⟨rfl, rfl⟩ | ⟨hne, hnd⟩
    · have := V _ _ j hd hj
      simp only at hj
      have : (stepsOf w h).length = j := by omega
      cnt
      simp [hp, this] at k1
      omega
    · have := V _ _ j hnd hj
      cnt
      rw [if_neg (Ne.symm hne)]
      rcases Nat.lt_trichotomy (stepsOf w h).length j with g | g | g
      · simp [hp, g, Nat.le_of_lt g] at k1; omega
      · simp [hp, g] at k1; omega
      · simp [hp, Nat.not_lt.2 (Nat.le_of_lt g), Nat.not_le.2 g] at k1; omega
  | @selNew cur path rs new nd a hw hd hl hm ha hf =>
    have k1 := countP_set' (Phase.early j) st.ws w _ (.samp cur a st.cn.length path rs new) hw
    obtain ⟨B, rfl, _⟩ := hws _ _ hw
    have hdep := (base_depth I.tree B).1 nd hd
    have hp : (pairs (stepsOf w h)).length = (stepsOf w h).length := by simp [pairs]
    rcases set_cases hnd with ⟨rfl, rfl⟩ | ⟨hne, hnd⟩
    · have := V _ _ j hd hj
      simp only at hj
      have : (stepsOf w h).length = j := by omega
      cnt
      simp [hp, this] at k1
      omega
    · have := V _ _ j hnd hj
      cnt
      rw [if_neg (Ne.symm hne)]
      rcases Nat.lt_trichotomy (stepsOf w h).length j with g | g | g
      · simp [hp, g, Nat.le_of_lt g] at k1; omega
      · simp [hp, g] at k1; omega
      · simp [hp, Nat.not_lt.2 (Nat.le_of_lt g), Nat.not_le.2 g] at k1; omega
  | @ended cur path rs new nd hw hd hs =>
    have k1 := countP_set' (Phase.early j) st.ws w _ (.back path rs [nd.heur] nd.heur (total (rs ++ [nd.heur]))) hw
    obtain ⟨B, rfl, _⟩ := hws _ _ hw
    have hdep := (base_depth I.tree B).1 nd hd
    have hp : (pairs (stepsOf w h)).length = (stepsOf w h).length := by simp [pairs]
    rcases set_cases hnd with ⟨rfl, rfl⟩ | ⟨hne, hnd⟩
    · have := V _ _ j hd hj
      simp only at hj
      have : (stepsOf w h).length = j := by omega
      cnt
      simp [hp, this] at k1
      omega
    · have := V _ _ j hnd hj
      cnt
      rw [if_neg (Ne.symm hne)]
      omega
  | @stepOld cur a c path rs new nc nd o d' hw hc hd ho hf =>
    have k1 := countP_set' (Phase.early j) st.ws w _ (.sel d' (path ++ [(cur, c)]) (rs ++ [env.reward nd.state a o]) new) hw
    have := V _ _ j hnd hj
    cnt
    simp only [Nat.succ_le_iff] at k1
    omega
  | @stepNew cur a c path rs new nc nd o tb' hw hc hd ho hf ht =>
    have k1 := countP_set' (Phase.early j) st.ws w _ (.sel st.dn.length (path ++ [(cur, c)]) (rs ++ [env.reward nd.state a o]) true) hw
    have he : (st.ws.set w (.sel st.dn.length (path ++ [(cur, c)]) (rs ++ [env.reward nd.state a o]) true)).countP (Phase.early j) =
        st.ws.countP (Phase.early j) := by
      cnt
      simp only [Nat.succ_le_iff] at k1
      omega
    rcases snoc_cases hnd with ⟨_, hnd⟩ | ⟨rfl, rfl⟩
    · have := V _ _ j hnd hj
      simp only [he]
      cnt; omega
    · obtain ⟨q1, q2⟩ := C.noD
      have := early_busy j st.ws
      have := C.v5
      simp only [he]
      cnt; omega
  | @stepHit cur a c path rs new nc nd o d' hw hc hd ho hf hu ht =>
    have k1 := countP_set' (Phase.early j) st.ws w _ (.sel d' (path ++ [(cur, c)]) (rs ++ [env.reward nd.state a o]) true) hw
    have := V _ _ j hnd hj
    cnt
    simp only [Nat.succ_le_iff] at k1
    omega
  | completed hw =>
    have k1 := countP_set' (Phase.early j) st.ws w _ .idle hw
    have := V _ _ j hnd hj
    cnt; omega
  | @backedC nodes d0 c before r after ret tot nc hw hc =>
    have k1 := countP_set' (Phase.early j) st.ws w _ (.backD d0 nodes before (after ++ [r]) (ret + r) tot) hw
    have := V _ _ j hnd hj
    cnt; omega
  | @backedD d0 nodes before after ret tot nd hw hd =>
    have k1 := countP_set' (Phase.early j) st.ws w _ (.back nodes before after ret tot) hw
    have : ∃ n, st.dn[d]? = some n ∧ n.depth = nd'.depth := by
      rcases set_cases hnd with ⟨rfl, rfl⟩ | ⟨hne, hnd⟩
      · exact ⟨nd, hd, rfl⟩
      · exact ⟨_, hnd, rfl⟩
    obtain ⟨n, g1, g2⟩ := this
    have := V _ _ j g1 (by rw [g2]; exact hj)
    cnt; omega

theorem reach_vinv (hv : alg.Valid) (htb : Leftover tb) (hr : Reachable env m alg k s0 dp tm tb st h) : VInv dp st h := by
  refine reach_induct (fun st h => VInv dp st h) ?_ (fun st h w e st' hr ih _ E => vinv_eff hv htb hr ih E) hr
  intro d nd j _ _
  have : (List.replicate k (Phase.idle : Phase S A R)).countP (Phase.early j) = 0 := by simp [List.countP_replicate, Phase.early]
  simp [init, this]

/-- A node that has been visited lies as deep as some trial got; in any case not above the root. -/
theorem depth_ge (hv : alg.Valid) (htb : Leftover tb) (hr : Reachable env m alg k s0 dp tm tb st h) {d : Nat} {nd : DNode S A R X}
    (hd : st.dn[d]? = some nd) : ∃ j : Nat, nd.depth = dp + j := by
  have T := (reach_inv hv htb hr).tree
  have := (T.heap.dTime d nd.skel (by simp [hd])).2
  simp only [DNode.skel] at this
  exact ⟨(nd.depth - dp).toNat, by omega⟩

/-- While a worker is about to visit a node, the visits made so far are fewer than the trials begun. -/
theorem visits_lt_of_sel (hv : alg.Valid) (htb : Leftover tb) (hr : Reachable env m alg k s0 dp tm tb st h) {w cur : Nat}
    {path : List (Nat × Nat)} {rs : List R} {new : Bool} {nd : DNode S A R X} (hw : st.ws[w]? = some (.sel cur path rs new))
    (hd : st.dn[cur]? = some nd) : nd.visits + 1 ≤ alg.initVisits + trialsBegun h := by
  obtain ⟨I, C⟩ := reach_both hv htb hr
  have e1 : h.countP Event.isBegan = trialsBegun h := countP_congr' h (fun e => by cases e <;> rfl)
  obtain ⟨B, hp, _⟩ := I.ws _ _ hw
  have hdep := (base_depth I.tree B).1 nd hd
  have V := reach_vinv hv htb hr cur nd _ hd hdep
  have : 0 < st.ws.countP (Phase.early (stepsOf w h).length) := by
    rw [List.countP_pos_iff]
    exact ⟨_, List.mem_of_getElem? hw, by simp [Phase.early, hp, pairs]⟩
  have := C.v1 cur nd hd
  omega

end Verif.Search
