import Verif.Model.Types
import Verif.Proofs.HashMap

/-!
# C54: equality and hashing of keys agree
-/

namespace Verif.Types

open Verif.HashMap

/-- Objects of the concrete built-in state types. -/
def Obs.Concrete : Obs → Prop
  | .null _ => False
  | _ => True

/-- Objects of the concrete built-in action types. -/
def Act.Concrete : Act → Prop
  | .null => False
  | _ => True

/-- Name of the dynamic type. -/
def Obs.type : Obs → String
  | .null false => "Observation"
  | .null true => "State"
  | .int _ => "IntState"
  | .pair _ _ => "IntPairState"
  | .triple _ _ _ => "Int3TupleState"

def Act.type : Act → String
  | .null => "Action"
  | .int _ => "IntAction"
  | .string _ => "StringAction"

variable (sh : StdHash)

theorem obs_equals {a : Obs} (b : Obs) (ha : a.Concrete) : a.equals b = .ok (decide (a = b)) := by
  cases a <;> cases b <;> simp_all [Obs.equals, Obs.Concrete] <;> first | rfl | exact Bool.and_assoc _ _ _

theorem act_equals {a : Act} (b : Act) (ha : a.Concrete) : a.equals b = .ok (decide (a = b)) := by
  cases a <;> cases b <;> simp_all [Act.equals, Act.Concrete] <;> rfl

/-- C54.  Comparing a concrete state with any object never throws, and says "equal" exactly if both have the same type and hold the
same numbers. -/
theorem c54_states {a b : Obs} (ha : a.Concrete) (hb : b.Concrete) :
    ∃ r, a.equals b = .ok r ∧ (r = true ↔ a = b) ∧ (r = true → a.type = b.type) ∧ (r = true → a.hash sh = b.hash sh) ∧
      (∃ h, a.hash sh = .ok h) := by
  refine ⟨decide (a = b), obs_equals b ha, by simp, ?_, ?_, ?_⟩
  · intro h; rw [of_decide_eq_true h]
  · intro h; rw [of_decide_eq_true h]
  · cases a <;> simp_all [Obs.hash, Obs.Concrete]

/-- C54.  The same for actions. -/
theorem c54_actions {a b : Act} (ha : a.Concrete) (hb : b.Concrete) :
    ∃ r, a.equals b = .ok r ∧ (r = true ↔ a = b) ∧ (r = true → a.type = b.type) ∧ (r = true → a.hash sh = b.hash sh) ∧
      (∃ h, a.hash sh = .ok h) := by
  refine ⟨decide (a = b), act_equals b ha, by simp, ?_, ?_, ?_⟩
  · intro h; rw [of_decide_eq_true h]
  · intro h; rw [of_decide_eq_true h]
  · cases a <;> simp_all [Act.hash, Act.Concrete]

/-- C54.  The same for transposition keys: equal exactly if timestep and observation are. -/
theorem c54_table_keys {a b : DNodeId} (ha : a.obs.Concrete) (hb : b.obs.Concrete) :
    ∃ r, a.equals b = .ok r ∧ (r = true ↔ a.time = b.time ∧ a.obs = b.obs) ∧ (r = true → a.hash sh = b.hash sh) ∧
      (∃ h, a.hash sh = .ok h) := by
  have e : (a = b) ↔ a.time = b.time ∧ a.obs = b.obs := by cases a; cases b; simp
  refine ⟨decide (a = b), ?_, by simp [e], ?_, ?_⟩
  · unfold DNodeId.equals
    rw [obs_equals _ ha]
    by_cases h : a.time = b.time
    · simp [h, e]
    · simp [h, e]
  · intro h; rw [of_decide_eq_true h]
  · obtain ⟨_, _, _, _, _, h, hh⟩ := c54_states sh ha ha
    exact ⟨_, by simp only [DNodeId.hash, hh]; rfl⟩

/-- Pointers to objects satisfying `P`: what a program stores in its maps. -/
abbrev PtrTo {α : Type} (P : α → Prop) := Ptr { x : α // P x }

/-- Keys restricted to pointers to objects on which the functions do not throw. -/
def restrict {α : Type} {P : α → Prop} (ks : Keys (Ptr α)) : Keys (PtrTo P) where
  hash p := ks.hash ⟨p.addr, p.obj.1⟩
  eq p q := ks.eq ⟨p.addr, p.obj.1⟩ ⟨q.addr, q.obj.1⟩
  grow := ks.grow

theorem restrict_good {α : Type} {P : α → Prop} {ks : Keys (Ptr α)}
    (he : ∀ p q : Ptr α, P p.obj → P q.obj → (ks.eq p q = true ↔ p.obj = q.obj))
    (hh : ∀ p q : Ptr α, p.obj = q.obj → ks.hash p = ks.hash q) : (restrict (P := P) ks).Good where
  refl a := (he _ _ a.obj.2 a.obj.2).2 rfl
  symm a b h := (he _ _ b.obj.2 a.obj.2).2 ((he _ _ a.obj.2 b.obj.2).1 h).symm
  trans a b c h1 h2 := (he _ _ a.obj.2 c.obj.2).2 (((he _ _ a.obj.2 b.obj.2).1 h1).trans ((he _ _ b.obj.2 c.obj.2).1 h2))
  hash a b h := hh _ _ ((he _ _ a.obj.2 b.obj.2).1 h)

theorem lastPut_congr {K V : Type} {s s' : K → K → Prop} [DecidableRel s] [DecidableRel s'] (hs : ∀ a b, s a b ↔ s' a b) (k : K)
    (h : List (Op K V)) : lastPut s k h = lastPut s' k h := by
  induction h with
  | nil => rfl
  | cons o h ih => cases o <;> simp only [lastPut, ih, hs]

/-- C54.  Maps keyed by (pointers to) states and observations behave as maps keyed by value: after any operations, looking up a key
gives what was last stored under a key whose object has the same value, whatever the addresses, the hash functions and the library's
rehash policy. -/
theorem c54_maps_by_state {V : Type} (grow : Nat → Nat) (ops : List (Op (PtrTo Obs.Concrete) V)) (k : PtrTo Obs.Concrete) :
    get (restrict (obsKeys sh grow)) (run (restrict (obsKeys sh grow)) empty ops) k =
      lastPut (fun a b => a.obj.1 = b.obj.1) k ops.reverse := by
  have he : ∀ p q : Ptr Obs, p.obj.Concrete → q.obj.Concrete → ((obsKeys sh grow).eq p q = true ↔ p.obj = q.obj) := by
    intro p q hp _; simp [obsKeys, keysOf, obs_equals _ hp]
  rw [get_run (restrict_good he (by intro p q h; simp [obsKeys, keysOf, h]))]
  exact lastPut_congr (fun a b => he _ _ a.obj.2 b.obj.2) _ _

/-- C54.  The same for maps keyed by actions. -/
theorem c54_maps_by_action {V : Type} (grow : Nat → Nat) (ops : List (Op (PtrTo Act.Concrete) V)) (k : PtrTo Act.Concrete) :
    get (restrict (actKeys sh grow)) (run (restrict (actKeys sh grow)) empty ops) k =
      lastPut (fun a b => a.obj.1 = b.obj.1) k ops.reverse := by
  have he : ∀ p q : Ptr Act, p.obj.Concrete → q.obj.Concrete → ((actKeys sh grow).eq p q = true ↔ p.obj = q.obj) := by
    intro p q hp _; simp [actKeys, keysOf, act_equals _ hp]
  rw [get_run (restrict_good he (by intro p q h; simp [actKeys, keysOf, h]))]
  exact lastPut_congr (fun a b => he _ _ a.obj.2 b.obj.2) _ _

/-- C54.  The same for the transposition table, keyed by timestep and observation. -/
theorem c54_maps_by_id {V : Type} (grow : Nat → Nat) (ops : List (Op (PtrTo (fun k : DNodeId => k.obs.Concrete)) V))
    (k : PtrTo (fun k : DNodeId => k.obs.Concrete)) :
    get (restrict (tableKeys sh grow)) (run (restrict (tableKeys sh grow)) empty ops) k =
      lastPut (fun a b => a.obj.1.time = b.obj.1.time ∧ a.obj.1.obs = b.obj.1.obs) k ops.reverse := by
  have he : ∀ p q : Ptr DNodeId, p.obj.obs.Concrete → q.obj.obs.Concrete → ((tableKeys sh grow).eq p q = true ↔ p.obj = q.obj) := by
    intro p q hp hq
    obtain ⟨r, h1, h2, _⟩ := c54_table_keys sh hp hq
    have e : (p.obj = q.obj) ↔ p.obj.time = q.obj.time ∧ p.obj.obs = q.obj.obs := by
      cases p.obj; cases q.obj; simp
    simp only [tableKeys, keysOf, h1, h2, e]
  rw [get_run (restrict_good he (by intro p q h; simp [tableKeys, keysOf, h]))]
  refine lastPut_congr (fun a b => (he _ _ a.obj.2 b.obj.2).trans ?_) _ _
  constructor
  · intro h; simp only at h; rw [h]; exact ⟨rfl, rfl⟩
  · rintro ⟨h1, h2⟩
    show a.obj.1 = b.obj.1
    revert h1 h2
    cases a.obj.1; cases b.obj.1
    rintro rfl rfl
    rfl

/-- Same, for maps keyed by a pointer to a concrete type: they are keyed by address. -/
theorem typed_good {α : Type} (ptrHash grow : Nat → Nat) : (typedKeys (α := α) ptrHash grow).Good where
  refl a := by simp [typedKeys]
  symm a b h := by simp only [typedKeys, beq_iff_eq] at *; exact h.symm
  trans a b c h1 h2 := by simp only [typedKeys, beq_iff_eq] at *; exact h1.trans h2
  hash a b h := by simp only [typedKeys, beq_iff_eq] at *; rw [h]

/-- C54 is false for the distributions over concrete state types (`IntStateDistr`, `IntPairStateDistr`, `Int3TupleStateDistr`): these
maps are keyed by address, so a value stored under one object is not found under another object with the same value - for every hash
function and rehash policy, every value and every two distinct addresses. -/
theorem c54_typed_distr_false {α V : Type} (ptrHash grow : Nat → Nat) (x : α) (a b : Nat) (hab : a ≠ b) (v : V) :
    get (typedKeys ptrHash grow) (run (typedKeys ptrHash grow) empty [.put ⟨a, x⟩ v]) ⟨b, x⟩ = none ∧
    get (typedKeys ptrHash grow) (run (typedKeys ptrHash grow) empty [.put ⟨a, x⟩ v]) ⟨a, x⟩ = some v := by
  rw [get_run (typed_good _ _), get_run (typed_good _ _)]
  simp [lastPut, typedKeys, hab]

/-- C54.  Objects of the abstract types themselves cannot be keys: hashing one throws, and comparison is not even symmetric (a
concrete state compared with one gives "not equal", the other way round it throws). -/
theorem c54_abstract_throws (s : Bool) (a : Obs) (ha : a.Concrete) :
    (Obs.null s).hash sh = .error .runtimeError ∧ a.equals (.null s) = .ok false ∧ (Obs.null s).equals a = .error .runtimeError ∧
    Act.null.hash sh = .error .runtimeError := by
  refine ⟨rfl, ?_, rfl, rfl⟩
  cases a <;> simp_all [Obs.equals, Obs.Concrete]

/-- Concrete hash functions for the examples (those of libstdc++ for `int`). -/
def toyHash : StdHash := ⟨fun i => i.toInt64.toUInt64, fun s => s.length.toUInt64⟩

example : (Obs.pair 1 2).Concrete ∧ (Obs.pair 1 2).equals (.pair 2 1) = .ok false ∧
    (Obs.pair 1 2).equals (.triple 1 2 0) = .ok false ∧ (Obs.pair 1 2).equals (.pair 1 2) = .ok true := by
  exact ⟨trivial, rfl, rfl, rfl⟩

/-- Two different objects with the same value: the second put overwrites the first. -/
example : get (restrict (obsKeys toyHash (· + 1)))
    (run (restrict (obsKeys toyHash (· + 1))) empty
      [.put (⟨10, ⟨.pair 1 2, trivial⟩⟩ : PtrTo Obs.Concrete) (5 : Nat), .put ⟨20, ⟨.int 7, trivial⟩⟩ 6, .put ⟨30, ⟨.pair 1 2, trivial⟩⟩ 8])
    ⟨40, ⟨.pair 1 2, trivial⟩⟩ = some 8 := by
  rw [c54_maps_by_state]; rfl

end Verif.Types
