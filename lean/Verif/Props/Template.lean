import Verif.Model.Template
import Verif.Spec.Template
import Verif.Props.Sampling

/-! # Property C97: environments made from the template -/

namespace Verif.Template
open Verif.Types (Ptr)
open Verif.Sampling (Draw sampleFrom sampleLoop)
open Verif.Spec

variable {V A C G 𝕜 α : Type}

theorem cast_self {is : α → Bool} {p : Sp α} (h : ∀ q, p = some q → is q.obj = true) : cast is p = .ok p := by
  cases p with
  | none => rfl
  | some q => simp [cast, h q rfl]

/-! ## What is passed on unchanged -/

theorem c97_initial (e : Filled V A C G 𝕜) : initItfc e = .ok e.init := rfl

section
variable (e : Filled V A C G 𝕜) (s : Sp V) (a : Sp A) (hs : ∀ q, s = some q → e.isS q.obj = true) (ha : ∀ q, a = some q → e.isA q.obj = true)
include hs

theorem c97_sink : sinkItfc e s = .ok (e.sink s) := by
  simp [sinkItfc, cast_self hs, bind, Except.bind, pure, Except.pure]

/-- The same actions in the same order. -/
theorem c97_actions (acts : List (Ptr A)) (h : e.actions s = some acts) : actionsItfc e s = .ok acts := by
  have hf : ∀ (l acc : List (Ptr A)), l.foldl (fun valid act => valid ++ [act]) acc = acc ++ l := by
    intro l
    induction l with
    | nil => simp
    | cons x l ih => intro acc; simp [ih]
  simp [actionsItfc, cast_self hs, bind, Except.bind, pure, Except.pure, h, hf]

/-- An action list that was not filled in is dereferenced. -/
theorem c97_actions_unfilled (h : e.actions s = none) : actionsItfc e s = .error .nullDeref := by
  simp [actionsItfc, cast_self hs, bind, Except.bind, h]

include ha

theorem c97_sample_transition (g : G) : sampleTransItfc e s a g = .ok (e.sampleTrans s a g) := by
  simp [sampleTransItfc, cast_self hs, cast_self ha, bind, Except.bind, pure, Except.pure]

theorem c97_reward (o : Sp V) (ho : ∀ q, o = some q → e.isO q.obj = true) : rewardItfc e s a o = .ok (e.reward s a o) := by
  simp [rewardItfc, cast_self hs, cast_self ha, cast_self ho, bind, Except.bind, pure, Except.pure]

end

/-- The user's own contexts are passed on. -/
theorem c97_own_context (e : Filled V A C G 𝕜) (lib : Lib C G 𝕜) (s : Sp V) (hs : ∀ q, s = some q → e.isS q.obj = true)
    (f : Sp V → Sp C) (hf : e.ownContext = some f) : contextItfc e lib s = .ok (f s) := by
  simp [contextItfc, cast_self hs, bind, Except.bind, pure, Except.pure, hf]

/-- The boilerplate context is a plain `ThtsEnvContext`: right if and only if no other context class was chosen. -/
theorem c97_boilerplate_context (e : Filled V A C G 𝕜) (lib : Lib C G 𝕜) (s : Sp V) (hs : ∀ q, s = some q → e.isS q.obj = true)
    (hf : e.ownContext = none) :
    contextItfc e lib s = if e.isC lib.newContext.obj = true then .ok (some lib.newContext) else .error .wrongType := by
  unfold contextItfc
  rw [cast_self hs]
  simp [bind, Except.bind, hf, cast]

/-! ## Transition distributions -/

theorem assign_new [DecidableEq V] (k : Ptr V) (v : 𝕜) (l : List (Ptr V × 𝕜)) (h : k.obj ∉ l.map fun p => p.1.obj) :
    assign k v l = l ++ [(k, v)] := by
  induction l with
  | nil => rfl
  | cons p l ih =>
    simp only [List.map_cons, List.mem_cons, not_or] at h
    simp [assign, Ne.symm h.1, ih h.2]

theorem assign_obj [DecidableEq V] (k : Ptr V) (v : 𝕜) (l : List (Ptr V × 𝕜)) (h : k.obj ∈ l.map fun p => p.1.obj) :
    (assign k v l).map (fun p => p.1.obj) = l.map fun p => p.1.obj := by
  induction l with
  | nil => simp at h
  | cons p l ih =>
    unfold assign
    split
    · simp
    · rename_i hn
      simp only [List.map_cons, List.mem_cons] at h ⊢
      rw [ih (h.resolve_left fun hh => hn hh.symm)]

theorem fold_distinct [DecidableEq V] (l : List (Ptr V × 𝕜)) : ∀ acc : List (Ptr V × 𝕜), DistinctObjects (acc ++ l) →
    l.foldl (fun d p => assign p.1 p.2 d) acc = acc ++ l := by
  induction l with
  | nil => simp
  | cons p l ih =>
    intro acc h
    have hp : p.1.obj ∉ acc.map fun p => p.1.obj := by
      intro hm
      simp only [DistinctObjects, List.map_append, List.map_cons] at h
      exact (List.disjoint_of_nodup_append h) hm (by simp)
    rw [List.foldl_cons, assign_new p.1 p.2 acc hp, ih (acc ++ [p]) (by simpa [DistinctObjects] using h)]
    simp

/-- A transition distribution in which no two pointers lead to equal states is passed on as it is. -/
theorem c97_transition_partial [DecidableEq V] (e : Filled V A C G 𝕜) (s : Sp V) (a : Sp A)
    (hs : ∀ q, s = some q → e.isS q.obj = true) (ha : ∀ q, a = some q → e.isA q.obj = true)
    (distr : List (Ptr V × 𝕜)) (hd : e.trans s a = some distr) (hdist : DistinctObjects distr) : transItfc e s a = .ok distr := by
  have h := fold_distinct distr [] (by simpa using hdist)
  simp [transItfc, cast_self hs, cast_self ha, bind, Except.bind, pure, Except.pure, hd, h]

section mass
variable [Field 𝕜] [LinearOrder 𝕜] [IsStrictOrderedRing 𝕜] [DecidableEq V]

theorem mass_assign_le (k : Ptr V) (v : 𝕜) (l : List (Ptr V × 𝕜)) (hl : ∀ p ∈ l, 0 < p.2) :
    mass (assign k v l) ≤ mass l + v ∧ (k.obj ∈ (l.map fun p => p.1.obj) → mass (assign k v l) < mass l + v) := by
  induction l with
  | nil => simp [assign, mass]
  | cons p l ih =>
    have hp := hl p (by simp)
    have := ih fun q hq => hl q (by simp [hq])
    unfold assign
    split
    · simp only [mass, List.map_cons, List.sum_cons]
      constructor
      · linarith
      · intro _; linarith
    · rename_i hn
      simp only [mass, List.map_cons, List.sum_cons, List.mem_cons] at this ⊢
      refine ⟨by linarith [this.1], fun h => ?_⟩
      have := this.2 (h.resolve_left fun hh => hn hh.symm)
      linarith

theorem assign_pos (k : Ptr V) (v : 𝕜) (hv : 0 < v) (l : List (Ptr V × 𝕜)) (hl : ∀ p ∈ l, 0 < p.2) : ∀ p ∈ assign k v l, 0 < p.2 := by
  induction l with
  | nil => simpa [assign] using hv
  | cons p l ih =>
    unfold assign
    split
    · intro q hq
      rcases List.mem_cons.1 hq with rfl | hq
      · exact hv
      · exact hl q (by simp [hq])
    · intro q hq
      rcases List.mem_cons.1 hq with rfl | hq
      · exact hl _ (by simp)
      · exact ih (fun q hq => hl q (by simp [hq])) q hq

theorem fold_mass (l : List (Ptr V × 𝕜)) : ∀ acc : List (Ptr V × 𝕜), (∀ p ∈ l, 0 < p.2) → (∀ p ∈ acc, 0 < p.2) →
    (∀ p ∈ l.foldl (fun d p => assign p.1 p.2 d) acc, 0 < p.2) ∧
    mass (l.foldl (fun d p => assign p.1 p.2 d) acc) ≤ mass acc + mass l ∧
    (DistinctObjects acc → ¬ DistinctObjects (acc ++ l) → mass (l.foldl (fun d p => assign p.1 p.2 d) acc) < mass acc + mass l) := by
  induction l with
  | nil =>
    intro acc _ hacc
    refine ⟨hacc, by simp [mass], fun h1 h2 => ?_⟩
    simp only [List.append_nil] at h2
    exact absurd h1 h2
  | cons p l ih =>
    intro acc hl hacc
    have hp := hl p (by simp)
    have hm := mass_assign_le p.1 p.2 acc hacc
    obtain ⟨h1, h2, h3⟩ := ih (assign p.1 p.2 acc) (fun q hq => hl q (by simp [hq])) (assign_pos p.1 p.2 hp acc hacc)
    have hc : mass (p :: l) = p.2 + mass l := by simp [mass]
    refine ⟨h1, by rw [List.foldl_cons, hc]; linarith [hm.1], fun hd hnd => ?_⟩
    rw [List.foldl_cons, hc]
    by_cases hin : p.1.obj ∈ acc.map fun p => p.1.obj
    · linarith [hm.2 hin]
    · have hass := assign_new p.1 p.2 acc hin
      have hd' : DistinctObjects (assign p.1 p.2 acc) := by
        rw [hass]
        simp only [DistinctObjects, List.map_append, List.map_cons, List.map_nil]
        rw [List.nodup_append]
        refine ⟨hd, by simp, ?_⟩
        intro x hx y hy
        simp only [List.mem_singleton] at hy
        subst hy
        exact fun hxy => hin (hxy ▸ hx)
      have := h3 hd' (by rw [hass]; simpa using hnd)
      linarith [hm.1]

end mass

theorem sampleLoop_little {K : Type} [Field 𝕜] [LinearOrder 𝕜] [IsStrictOrderedRing 𝕜] (eps u : 𝕜) (heps : 0 ≤ eps) (n : Nat) (l : List (K × 𝕜)) :
    ∀ (i : Nat) (run : 𝕜), (∀ p ∈ l, 0 < p.2) → run + mass l < 1 → run + mass l ≤ u → sampleLoop 1 eps u n i run l = .tooLittle := by
  induction l with
  | nil => intros; rfl
  | cons p l ih =>
    intro i run hl h1 hu
    have hp := hl p (by simp)
    have hc : mass (p :: l) = p.2 + mass l := by simp [mass]
    have hm : 0 ≤ mass l := by
      refine List.sum_nonneg ?_
      simp only [List.mem_map]
      rintro x ⟨q, hq, rfl⟩
      exact (hl q (by simp [hq])).le
    rw [hc] at h1 hu
    unfold sampleLoop
    simp only [div_one]
    rw [if_neg (by push Not; exact ⟨by linarith, fun h => absurd h (not_le.2 (by linarith))⟩), if_neg (not_lt.2 (by linarith))]
    exact ih _ _ (fun q hq => hl q (by simp [hq])) (by linarith) (by linarith)

/-- If two pointers of a transition distribution lead to equal states, some of the probability is lost on the way through the interface,
and a chance node throws for every draw above the rest, whatever the order of the map. -/
theorem c97_equal_states_throw [Field 𝕜] [LinearOrder 𝕜] [IsStrictOrderedRing 𝕜] [DecidableEq V] (e : Filled V A C G 𝕜) (s : Sp V) (a : Sp A)
    (hs : ∀ q, s = some q → e.isS q.obj = true) (ha : ∀ q, a = some q → e.isA q.obj = true)
    (distr : List (Ptr V × 𝕜)) (hd : e.trans s a = some distr) (hpos : ∀ p ∈ distr, 0 < p.2) (hsum : mass distr = 1)
    (hdup : ¬ DistinctObjects distr) :
    ∃ d, transItfc e s a = .ok d ∧ mass d < 1 ∧
      ∀ (eps : 𝕜), 0 ≤ eps → ∀ (iter : List (Ptr V × 𝕜) → List (Ptr V × 𝕜)), (∀ l, (iter l).Perm l) → ∀ u, mass d ≤ u →
        sampleAtChanceNode e eps iter s a u = .ok .tooLittle := by
  obtain ⟨h1, -, h3⟩ := fold_mass distr [] hpos (by simp)
  have h3 := h3 (by simp [DistinctObjects]) (by simpa using hdup)
  have h0 : mass ([] : List (Ptr V × 𝕜)) = 0 := by simp [mass]
  rw [h0, zero_add, hsum] at h3
  have ht : transItfc e s a = .ok (distr.foldl (fun d p => assign p.1 p.2 d) []) := by
    simp [transItfc, cast_self hs, cast_self ha, bind, Except.bind, pure, Except.pure, hd]
  refine ⟨_, ht, h3, fun eps heps iter hiter u hu => ?_⟩
  generalize distr.foldl (fun d p => assign p.1 p.2 d) [] = d at *
  have hperm := hiter d
  have hmass : mass (iter d) = mass d := (hperm.map Prod.snd).sum_eq
  unfold sampleAtChanceNode
  rw [ht]
  simp only [bind, Except.bind, pure, Except.pure, sampleFrom, if_true]
  rw [sampleLoop_little eps u heps]
  · intro p hp
    exact h1 p (hperm.subset hp)
  · rw [hmass, zero_add]; exact h3
  · rw [hmass, zero_add]; exact hu

/-- If no two pointers lead to equal states, a chance node draws every successor with the probability the typed distribution states
(the last weight in the order of the map must be positive, see C23). -/
theorem c97_sampling_partial [DecidableEq V] (e : Filled V A C G ℝ) (s : Sp V) (a : Sp A)
    (hs : ∀ q, s = some q → e.isS q.obj = true) (ha : ∀ q, a = some q → e.isA q.obj = true)
    (distr : List (Ptr V × ℝ)) (hd : e.trans s a = some distr) (hpos : ∀ p ∈ distr, 0 < p.2) (hsum : mass distr = 1)
    (hdist : DistinctObjects distr) (eps : ℝ) (heps : 0 ≤ eps) (iter : List (Ptr V × ℝ) → List (Ptr V × ℝ)) (hiter : ∀ l, (iter l).Perm l)
    (k : Ptr V) (w : ℝ) (hk : (k, w) ∈ distr) :
    prob (sampleAtChanceNode e eps iter s a) (· = .ok (.key k)) = w := by
  classical
  have ht := c97_transition_partial e s a hs ha distr hd hdist
  have hperm := hiter distr
  have hmass : mass (iter distr) = mass distr := (hperm.map Prod.snd).sum_eq
  have hnd : ((iter distr).map Prod.fst).Nodup := by
    refine (hperm.map Prod.fst).nodup_iff.2 ?_
    have : (distr.map fun p => p.1.obj) = (distr.map Prod.fst).map Ptr.obj := by simp
    unfold DistinctObjects at hdist
    rw [this] at hdist
    exact List.Nodup.of_map _ hdist
  have h := Sampling.c23_probability_partial eps heps (iter distr) hnd (fun p hp => (hpos p (hperm.subset hp)).le) (by rw [hmass, hsum])
    (fun p hp => hpos p (hperm.subset (List.mem_of_getLast? hp))) k w (hperm.symm.subset hk)
  rw [← h]
  simp [prob, sampleAtChanceNode, ht, bind, Except.bind, pure, Except.pure]

/-! ## Observations -/

theorem foldlM_null [DecidableEq V] (l : List (Ptr V × 𝕜)) :
    l.foldlM (fun distr p => intoItfc distr p.1 p.2) none = if l = [] then (.ok none : Except Bad (Option (List (Ptr V × 𝕜)))) else .error .nullDeref := by
  cases l with
  | nil => rfl
  | cons p l => simp [List.foldlM_cons, intoItfc, bind, Except.bind]

/-- No environment made from the template ever gives an observation distribution through the interface, whatever is filled in: a call
fails or gives a null pointer. -/
theorem c97_observation_distribution_false [One 𝕜] [DecidableEq V] (e : Filled V A C G 𝕜) (a : Sp A) (s : Ptr V) (d : List (Ptr V × 𝕜)) :
    obsDistrItfc e a s ≠ .ok (some d) := by
  unfold obsDistrItfc
  cases cast e.isA a with
  | error b => simp [bind, Except.bind]
  | ok a' =>
    cases cast e.isS (some s) with
    | error b => simp [bind, Except.bind]
    | ok s' =>
      cases h : typedObsDistr e a' s with
      | error b => simp [bind, Except.bind, h]
      | ok t =>
        cases t with
        | none => simp [bind, Except.bind, h]
        | some t =>
          simp only [bind, Except.bind, h, foldlM_null]
          split <;> simp

/-- With the user's own (not empty) distribution, and with the boilerplate one of a fully observable environment, the call is undefined
behaviour. -/
theorem c97_observation_distribution_undefined [One 𝕜] [DecidableEq V] (e : Filled V A C G 𝕜) (a : Sp A) (s : Ptr V)
    (ha : ∀ q, a = some q → e.isA q.obj = true) (hs : e.isS s.obj = true)
    (h : (∃ f d, e.ownObsDistr = some f ∧ f a (some s) = some d ∧ d ≠ []) ∨
      (e.ownObsDistr = none ∧ e.fullyObservable = true ∧ e.isO s.obj = true)) :
    obsDistrItfc e a s = .error .nullDeref := by
  unfold obsDistrItfc
  rw [cast_self ha, cast_self (p := some s) (by simpa using hs)]
  rcases h with ⟨f, d, hf, hfd, hne⟩ | ⟨hn, hfo, hO⟩
  · simp [bind, Except.bind, typedObsDistr, hf, hfd, foldlM_null, hne]
  · simp [bind, Except.bind, typedObsDistr, hn, boilerObsDistr, baseObsDistr, hfo, cast, hO, List.foldlM_cons, intoTyped]

/-- In a fully observable environment the boilerplate sampling is right: the observation is the next state, and no random number is used. -/
theorem c97_sample_observation [Field 𝕜] [LinearOrder 𝕜] [DecidableEq V] (e : Filled V A C G 𝕜) (lib : Lib C G 𝕜) (eps : 𝕜) (a : Sp A) (s : Ptr V) (g : G)
    (ha : ∀ q, a = some q → e.isA q.obj = true) (hs : e.isS s.obj = true) (hfo : e.fullyObservable = true) (hn : e.ownSampleObs = none)
    (hO : e.isO s.obj = true) : sampleObsItfc e lib eps a s g = .ok (.key (some s), g) := by
  unfold sampleObsItfc
  rw [cast_self ha, cast_self (p := some s) (by simpa using hs)]
  simp [bind, Except.bind, pure, Except.pure, typedSampleObs, hn, baseSampleObs, hfo, cast, hO]

/-- The user's own sampling is passed on. -/
theorem c97_own_sample_observation [Field 𝕜] [LinearOrder 𝕜] [DecidableEq V] (e : Filled V A C G 𝕜) (lib : Lib C G 𝕜) (eps : 𝕜) (a : Sp A) (s : Ptr V)
    (g : G) (ha : ∀ q, a = some q → e.isA q.obj = true) (hs : e.isS s.obj = true) (f : Sp A → Sp V → G → Sp V × G) (hf : e.ownSampleObs = some f) :
    sampleObsItfc e lib eps a s g = .ok (.key (f a (some s) g).1, (f a (some s) g).2) := by
  unfold sampleObsItfc
  rw [cast_self ha, cast_self (p := some s) (by simpa using hs)]
  simp [bind, Except.bind, typedSampleObs, hf]

/-- A partially observable environment that relies on the boilerplate sampling never gets an observation, whatever distribution it states
and whatever is drawn. -/
theorem c97_pomdp_sampling_false [Field 𝕜] [LinearOrder 𝕜] [DecidableEq V] (e : Filled V A C G 𝕜) (lib : Lib C G 𝕜) (eps : 𝕜) (a : Sp A) (s : Ptr V)
    (g : G) (hfo : e.fullyObservable = false) (hn : e.ownSampleObs = none) (r : Obsv V G) : sampleObsItfc e lib eps a s g ≠ .ok r := by
  unfold sampleObsItfc
  cases cast e.isA a with
  | error b => simp [bind, Except.bind]
  | ok a' =>
    cases cast e.isS (some s) with
    | error b => simp [bind, Except.bind]
    | ok s' =>
      simp only [bind, Except.bind, typedSampleObs, hn, baseSampleObs, hfo, Bool.false_eq_true, if_false]
      have hno := c97_observation_distribution_false e a' s
      cases h : obsDistrItfc e a' s with
      | error b => simp
      | ok d =>
        cases d with
        | none => simp
        | some d => exact absurd h (hno d)

/-! ## Children of the chance node template -/

/-- In a fully observable environment (`_O` is `_S`) the child's state is the observation, one level and one timestep further. -/
theorem c97_child (e : Filled V A C G 𝕜) (depth timestep : Int) (o : Sp V) (next : Sp V) (ho : ∀ q, o = some q → e.isO q.obj = true)
    (hn : ∀ q, next = some q → e.isS q.obj = true) (hOS : ∀ v, e.isO v = true → e.isS v = true) :
    childItfc e depth timestep o next = .ok (o, depth + 1, timestep + 1) := by
  unfold childItfc
  rw [cast_self ho, cast_self hn]
  simp [bind, Except.bind, pure, Except.pure, cast_self fun q hq => hOS _ (ho q hq)]

/-- Otherwise the template makes a child whose state is not a state, although it is told the next state. -/
theorem c97_pomdp_child_false (e : Filled V A C G 𝕜) (depth timestep : Int) (o : Ptr V) (next : Sp V) (ho : e.isO o.obj = true)
    (hn : ∀ q, next = some q → e.isS q.obj = true) (hS : e.isS o.obj = false) :
    childItfc e depth timestep (some o) next = .error .wrongType := by
  unfold childItfc
  rw [cast_self (p := some o) (by simpa using ho), cast_self hn]
  simp [bind, Except.bind, cast, hS]

/-! ## Examples -/

/-- A fully observable environment: states 0, 1, 2, ..., actions 0 and 1; action 1 leads to a fair choice between two successors behind
the pointers 10 and 11, which are equal states for action 0. -/
def demo : Filled Nat Nat Unit Nat ℚ where
  isS _ := true
  isO _ := true
  isA v := decide (v < 2)
  isC _ := true
  fullyObservable := true
  init := some ⟨1, 0⟩
  sink s := decide (s.map Ptr.obj = some 9)
  actions _ := some [⟨5, 1⟩, ⟨6, 0⟩]
  trans _ a := some [(⟨10, 3⟩, 1 / 2), (⟨11, if a.map Ptr.obj = some 1 then 4 else 3⟩, 1 / 2)]
  sampleTrans _ _ g := (some ⟨10, 3⟩, g + 1)
  reward _ _ _ := 1
  ownObsDistr := none
  ownSampleObs := none
  ownContext := none

/-- Equal states behind two pointers: the property's statement fails, half the probability is lost. -/
theorem c97_transition_false : ∃ distr d, demo.trans (some ⟨1, 0⟩) (some ⟨6, 0⟩) = some distr ∧ AddressKeyed distr ∧ mass distr = 1 ∧
    transItfc demo (some ⟨1, 0⟩) (some ⟨6, 0⟩) = .ok d ∧ probOf distr 3 = 1 ∧ probOf d 3 = 1 / 2 :=
  ⟨_, _, rfl, by simp [AddressKeyed], by simp [mass]; norm_num, rfl, by simp [probOf]; norm_num, by simp [probOf, assign]⟩

example : sampleAtChanceNode demo (1 / 10 ^ 12) id (some ⟨1, 0⟩) (some ⟨6, 0⟩) (3 / 4) = .ok .tooLittle := by
  obtain ⟨d, h1, h2, h3⟩ := c97_equal_states_throw demo (some ⟨1, 0⟩) (some ⟨6, 0⟩) (by simp [demo]) (by simp [demo]) _ rfl
    (by simp) (by simp [mass]; norm_num) (by simp [DistinctObjects])
  have hd : d = [(⟨10, 3⟩, 1 / 2)] := by
    have : transItfc demo (some ⟨1, 0⟩) (some ⟨6, 0⟩) = .ok [(⟨10, 3⟩, 1 / 2)] := rfl
    rw [this] at h1
    cases h1
    rfl
  refine h3 _ (by norm_num) id (fun l => List.Perm.refl _) _ ?_
  rw [hd]
  norm_num [mass]

example : transItfc demo (some ⟨1, 0⟩) (some ⟨5, 1⟩) = .ok [(⟨10, 3⟩, 1 / 2), (⟨11, 4⟩, 1 / 2)] :=
  c97_transition_partial demo _ _ (by simp [demo]) (by simp [demo]) _ rfl (by simp [DistinctObjects])

example : actionsItfc demo (some ⟨1, 0⟩) = .ok [⟨5, 1⟩, ⟨6, 0⟩] := c97_actions demo _ (by simp [demo]) _ rfl

example : obsDistrItfc demo (some ⟨5, 1⟩) ⟨10, 3⟩ = .error .nullDeref :=
  c97_observation_distribution_undefined demo _ _ (by simp [demo]) rfl (.inr ⟨rfl, rfl, rfl⟩)

example : sampleObsItfc demo ⟨⟨0, ()⟩, fun g => (0, g)⟩ (1 / 10 ^ 12) (some ⟨5, 1⟩) ⟨10, 3⟩ 7 = .ok (.key (some ⟨10, 3⟩), 7) :=
  c97_sample_observation demo _ _ _ _ _ (by simp [demo]) rfl rfl rfl rfl

/-- A partially observable environment with its own, perfectly good, observation distribution. -/
example : ∃ f, ({ demo with fullyObservable := false, ownObsDistr := some f } : Filled Nat Nat Unit Nat ℚ).fullyObservable = false ∧
    (∀ a s, f a s = some [(⟨20, 7⟩, 1)]) ∧ ∀ lib eps s g r,
      sampleObsItfc ({ demo with fullyObservable := false, ownObsDistr := some f } : Filled Nat Nat Unit Nat ℚ) lib eps (some ⟨5, 1⟩) s g ≠ .ok r :=
  ⟨fun _ _ => some [(⟨20, 7⟩, 1)], rfl, fun _ _ => rfl, fun _ _ _ _ _ => c97_pomdp_sampling_false _ _ _ _ _ _ rfl rfl _⟩

end Verif.Template
