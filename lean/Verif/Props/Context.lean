import Verif.Proofs.HashMap
import Verif.Proofs.Decimal

/-!
# C52: the trial context is two independent maps
-/

namespace Verif.Context

open Verif.HashMap

/-- `std::hash<string>` is any function, `std::equal_to<string>` is equality of strings. -/
structure StringKeys (ks : Keys String) : Prop where
  eq : ∀ a b, ks.eq a b = true ↔ a = b

theorem StringKeys.good {ks : Keys String} (h : StringKeys ks) : ks.Good where
  refl a := (h.eq a a).2 rfl
  symm a b hab := (h.eq b a).2 ((h.eq a b).1 hab).symm
  trans a b c h1 h2 := (h.eq a c).2 (((h.eq a b).1 h1).trans ((h.eq b c).1 h2))
  hash a b hab := by rw [(h.eq a b).1 hab]

/-- The calls on the non-const entries. -/
def Call.op? : Call → Option (Op String Ptr)
  | .put k v => some (.put k v)
  | .erase k => some (.erase k)
  | _ => none

/-- The calls on the const entries. -/
def Call.opConst? : Call → Option (Op String Ptr)
  | .putConst k v => some (.put k v)
  | .eraseConst k => some (.erase k)
  | _ => none

theorem foldl_parts (ks : Keys String) (cs : List Call) (c : Context) :
    (cs.foldl (call ks) c).vals = run ks c.vals (cs.filterMap Call.op?) ∧
    (cs.foldl (call ks) c).consts = run ks c.consts (cs.filterMap Call.opConst?) := by
  induction cs generalizing c with
  | nil => exact ⟨rfl, rfl⟩
  | cons x cs ih =>
    obtain ⟨h1, h2⟩ := ih (call ks c x)
    rw [List.foldl_cons, h1, h2]
    cases x <;> exact ⟨rfl, rfl⟩

theorem lastVal_eq {ks : Keys String} (hk : StringKeys ks) (key : String) (h : List Call) :
    lastPut (fun a b => ks.eq a b = true) key (h.filterMap Call.op?) = lastVal key h := by
  induction h with
  | nil => rfl
  | cons x h ih =>
    cases x <;> simp only [List.filterMap_cons, Call.op?, lastPut, lastVal, ih] <;> simp only [hk.eq]

theorem lastConst_eq {ks : Keys String} (hk : StringKeys ks) (key : String) (h : List Call) :
    lastPut (fun a b => ks.eq a b = true) key (h.filterMap Call.opConst?) = lastConst key h := by
  induction h with
  | nil => rfl
  | cons x h ih =>
    cases x <;> simp only [List.filterMap_cons, Call.opConst?, lastPut, lastConst, ih] <;> simp only [hk.eq]

/-- C52.  After any sequence of calls, a get for a key returns the value of the last put for this key, and throws if there was none
or the key was erased since; for const entries the same holds with the const calls, and neither kind sees the other's calls. -/
theorem c52_last_put {ks : Keys String} (hk : StringKeys ks) (cs : List Call) (key : String) :
    getRaw ks (after ks cs) key = (match lastVal key cs.reverse with | some v => .ok v | none => .error .outOfRange) ∧
    getRawConst ks (after ks cs) key = (match lastConst key cs.reverse with | some v => .ok v | none => .error .outOfRange) := by
  obtain ⟨h1, h2⟩ := foldl_parts ks cs new
  unfold getRaw getRawConst at' after
  rw [h1, h2]
  simp only [new]
  rw [get_run hk.good, get_run hk.good, ← List.filterMap_reverse, ← List.filterMap_reverse, lastVal_eq hk, lastConst_eq hk]
  exact ⟨rfl, rfl⟩

/-- C52.  Calls on const entries never change what a non-const get returns, and the other way round. -/
theorem c52_independent {ks : Keys String} (hk : StringKeys ks) (cs : List Call) (key : String) :
    getRaw ks (after ks cs) key = getRaw ks (after ks (cs.filter (fun x => !x.isConst))) key ∧
    getRawConst ks (after ks cs) key = getRawConst ks (after ks (cs.filter Call.isConst)) key := by
  have e1 : ∀ l : List Call, lastVal key (l.filter (fun x => !x.isConst)) = lastVal key l := by
    intro l
    induction l with
    | nil => rfl
    | cons x l ih =>
      cases x with
      | put k v => exact congrArg (fun z => if k = key then some v else z) ih
      | erase k => exact congrArg (fun z => if k = key then none else z) ih
      | putConst k v => exact ih
      | eraseConst k => exact ih
  have e2 : ∀ l : List Call, lastConst key (l.filter Call.isConst) = lastConst key l := by
    intro l
    induction l with
    | nil => rfl
    | cons x l ih => cases x <;> simp [List.filter_cons, Call.isConst, lastConst, ih]
  constructor
  · rw [(c52_last_put hk _ key).1, (c52_last_put hk _ key).1, ← List.filter_reverse, e1]
  · rw [(c52_last_put hk _ key).2, (c52_last_put hk _ key).2, ← List.filter_reverse, e2]

/-- C52.  A typed get returns the stored object if the last put for the key stored an object of this type; in every other case
it fails: it throws if there is no entry, and it is undefined behaviour on a null pointer or on an object of another type. -/
theorem c52_typed_get {ks : Keys String} (hk : StringKeys ks) (cs : List Call) (key : String) (t a : Nat) :
    (getValue ks (after ks cs) t key = .ok a ↔ lastVal key cs.reverse = some (.obj t a)) ∧
    (getValue ks (after ks cs) t key = .error .outOfRange ↔ lastVal key cs.reverse = none) ∧
    (getValueConst ks (after ks cs) t key = .ok a ↔ lastConst key cs.reverse = some (.obj t a)) ∧
    (getValueConst ks (after ks cs) t key = .error .outOfRange ↔ lastConst key cs.reverse = none) := by
  obtain ⟨h1, h2⟩ := c52_last_put hk cs key
  unfold getValue getValueConst
  rw [h1, h2]
  refine ⟨?_, ?_, ?_, ?_⟩
  all_goals
    first
    | cases lastVal key cs.reverse with
      | none => simp [bind, Except.bind]
      | some p =>
        cases p with
        | null => simp [bind, Except.bind, deref]
        | obj t' a' =>
          simp only [bind, Except.bind, deref]
          split <;> simp_all
    | cases lastConst key cs.reverse with
      | none => simp [bind, Except.bind]
      | some p =>
        cases p with
        | null => simp [bind, Except.bind, deref]
        | obj t' a' =>
          simp only [bind, Except.bind, deref]
          split <;> simp_all

/-- C52.  The keys that nodes at different depths use are different, and no key of TENTS is a key of RENTS: entries of nodes at
different depths of a trial never overwrite each other. -/
theorem c52_depth_keys (d d' : Int) :
    (tentsKey d = tentsKey d' ↔ d = d') ∧ (rentsKey d = rentsKey d' ↔ d = d') ∧ tentsKey d ≠ rentsKey d' := by
  refine ⟨⟨fun h => ?_, fun h => by rw [h]⟩, ⟨fun h => ?_, fun h => by rw [h]⟩, fun h => ?_⟩
  · exact decimal_inj (String.ofList_injective h)
  · have := String.ofList_injective h
    simp at this
    exact decimal_inj this
  · have := String.ofList_injective h
    exact decimal_ne_d d _ this

theorem lastVal_depth (key : Int → String) (hinj : ∀ d d', key d = key d' ↔ d = d') (d : Int) (ps : List (Int × Ptr)) :
    lastVal (key d) (ps.map (fun p => .put (key p.1) p.2)) = (ps.find? (fun p => p.1 == d)).map Prod.snd := by
  induction ps with
  | nil => rfl
  | cons p ps ih =>
    rw [List.map_cons, lastVal, ih, List.find?_cons]
    by_cases h : p.1 = d
    · rw [if_pos (by rw [h]), show (p.1 == d) = true by simp [h]]
      rfl
    · rw [if_neg (fun h' => h ((hinj _ _).1 h')), show (p.1 == d) = false by simp [h]]

/-- C52.  If nodes put entries under the keys of their depths only, a get at depth `d` returns what was last put at depth `d`, and
throws if nothing was: as far as nodes are concerned the context is a map from depths (this is what the search model uses). -/
theorem c52_by_depth {ks : Keys String} (hk : StringKeys ks) (ps : List (Int × Ptr)) (d : Int) :
    (getRaw ks (after ks (ps.map (fun p => .put (tentsKey p.1) p.2))) (tentsKey d)
      = match ps.reverse.find? (fun p => p.1 == d) with | some p => .ok p.2 | none => .error .outOfRange) ∧
    (getRaw ks (after ks (ps.map (fun p => .put (rentsKey p.1) p.2))) (rentsKey d)
      = match ps.reverse.find? (fun p => p.1 == d) with | some p => .ok p.2 | none => .error .outOfRange) := by
  rw [(c52_last_put hk _ _).1, (c52_last_put hk _ _).1, ← List.map_reverse, ← List.map_reverse,
    lastVal_depth tentsKey (fun a b => (c52_depth_keys a b).1), lastVal_depth rentsKey (fun a b => (c52_depth_keys a b).2.1)]
  constructor <;> cases ps.reverse.find? (fun p => p.1 == d) <;> rfl

/-- A hash function for the examples: the length of the string. -/
def lenKeys : Keys String := ⟨String.length, fun a b => a == b, fun n => n + 1⟩

example : StringKeys lenKeys := ⟨fun a b => by simp [lenKeys]⟩

example : getRaw lenKeys (after lenKeys [.put "a" (.obj 1 5), .put "b" (.obj 1 6), .putConst "a" .null, .erase "b", .put "a" (.obj 2 7)]) "a"
    = .ok (.obj 2 7) := by rw [(c52_last_put ⟨fun a b => by simp [lenKeys]⟩ _ _).1]; rfl

example : getRaw lenKeys (after lenKeys [.put "a" (.obj 1 5), .put "b" (.obj 1 6), .erase "b"]) "b" = .error .outOfRange := by
  rw [(c52_last_put ⟨fun a b => by simp [lenKeys]⟩ _ _).1]; rfl

end Verif.Context
