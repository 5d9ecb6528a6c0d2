import Verif.Model.Search
import Verif.Model.Context

/-!
# Printing vectors, maps and the transposition table

src/helper_templates.cc:113-151 and the operators of src/thts_types.cpp:445-517.  Keys and values are printed by `<<`, here functions to characters.
-/

namespace Verif.PrintMap

/-- The loops of `vector_pretty_print_string` and `unordered_map_pretty_print_string` (src/helper_templates.cc:120-128, 140-148): `first` is
`first_iter`, the list has what is written for each element. -/
def joinLoop : Bool → List (List Char) → List Char
  | _, [] => []
  | first, x :: xs => (if first then [] else [',']) ++ x ++ joinLoop false xs

/-- `vector_pretty_print_string` (src/helper_templates.cc:117-131), used for vectors of actions (thts_types.cpp:448-456). -/
def vec {T : Type} (f : T → List Char) (l : List T) : List Char := ['['] ++ joinLoop true (l.map f) ++ [']']

/-- `unordered_map_pretty_print_string` (src/helper_templates.cc:137-151), used for distributions (thts_types.cpp:458-476); the list has the
entries in the order of iteration. -/
def map {K V : Type} (f : K → List Char) (g : V → List Char) (delim : List Char) (l : List (K × V)) : List Char :=
  ['{'] ++ joinLoop true (l.map fun p => f p.1 ++ delim ++ g p.2) ++ ['}']

/-- `IntState::get_pretty_print_string` (src/thts_types.cpp:92-96). -/
def intState (i : Int) : List Char := ['('] ++ Context.decimal i ++ [')']

/-- `IntPairState::get_pretty_print_string` (src/thts_types.cpp:130-134). -/
def intPairState (p : Int × Int) : List Char := ['('] ++ Context.decimal p.1 ++ [','] ++ Context.decimal p.2 ++ [')']

/-- `Int3TupleState::get_pretty_print_string` (src/thts_types.cpp:171-175). -/
def int3TupleState (p : Int × Int × Int) : List Char :=
  ['('] ++ Context.decimal p.1 ++ [','] ++ Context.decimal p.2.1 ++ [','] ++ Context.decimal p.2.2 ++ [')']

/-- `IntAction::get_pretty_print_string` (src/thts_types.cpp:207-211). -/
def intAction (i : Int) : List Char := Context.decimal i

inductive Err where
  /-- `std::bad_weak_ptr` -/
  | badWeakPtr
  deriving DecidableEq, Repr

/-- The loop of `operator<<` for `DNodeTable` (src/thts_types.cpp:513-515): `shared_ptr<ThtsDNode>(weak_ptr)` throws if the node is gone.
Simplified: the keys are distinct already, so `insert_or_assign` always inserts. -/
def lockAll {K : Type} : List (K × Option Nat) → Except Err (List (K × Nat))
  | [] => .ok []
  | (k, some i) :: rest => match lockAll rest with
    | .ok l => .ok ((k, i) :: l)
    | .error e => .error e
  | (_, none) :: _ => .error .badWeakPtr

/-- `operator<<` for `DNodeTable` (src/thts_types.cpp:511-518); `iter` is the order of iteration of the second map, `f` prints the key
(lines 503-506), `g` the pointer. -/
def table {K : Type} (f : K → List Char) (g : Nat → List Char) (iter : List (K × Nat) → List (K × Nat)) (tb : List (K × Option Nat)) :
    Except Err (List Char) :=
  match lockAll tb with
  | .ok l => .ok (map f g [':'] (iter l))
  | .error e => .error e

end Verif.PrintMap
