import Verif.Model.Search
import Verif.Model.Types

/-!
# Model of pretty printing a tree (src/thts_decision_node.cpp:183-223, src/thts_chance_node.cpp:178-211)

The output is a list of tokens; `Tok.text` gives the characters written for each.  The recursion of the real code has no
obvious bound (a negative depth never reaches 0), so the model takes fuel; `none` means that the fuel ran out or a child
pointer was invalid.
-/

namespace Verif.Print

open Verif.Search

/-- Pieces of output. -/
inductive Tok (S A : Type) where
  /-- `D(vl=<value>,#v=<visits>)[` or `C(vl=<value>,#v=<visits>)[`, for the node with this identity -/
  | node (isD : Bool) (id : Nat) (value : List Char) (visits : Nat)
  /-- `...`, for the node with this identity -/
  | dots (id : Nat)
  /-- `],` -/
  | close
  | newline
  /-- `|` and a tabulator -/
  | tab
  /-- `"action"->` -/
  | act (a : A)
  /-- `{observation}->` -/
  | obs (o : S)
  deriving DecidableEq, Repr

/-- The virtual functions that print values, actions and observations. -/
structure Fmt (S A R X Y : Type) where
  /-- `get_pretty_print_val` of decision nodes -/
  valD : DNode S A R X → List Char
  /-- `get_pretty_print_val` of chance nodes -/
  valC : CNode S A R Y → List Char
  /-- `<<` for actions -/
  act : A → List Char
  /-- `<<` for observations -/
  obs : S → List Char

section
variable {S A R X Y : Type}

/-- Characters written for a token: thts_decision_node.cpp:200, 204-205, 213-215, 220-222, thts_chance_node.cpp:195, 201-203, 208-210. -/
def Tok.text (f : Fmt S A R X Y) : Tok S A → List Char
  | .node isD _ v n => (if isD then 'D' else 'C') :: "(vl=".toList ++ v ++ ",#v=".toList ++ Context.digits n ++ ")[".toList
  | .dots _ => "...".toList
  | .close => "],".toList
  | .newline => ['\n']
  | .tab => ['|', '\t']
  | .act a => '"' :: f.act a ++ "\"->".toList
  | .obs o => '{' :: f.obs o ++ "}->".toList

/-- All characters. -/
def text (f : Fmt S A R X Y) (ts : List (Tok S A)) : List Char := ts.flatMap (Tok.text f)

/-- The output for each entry of a child map, one after the other; `none` if one of them fails. -/
def concatMap {α β : Type} (g : α → Option (List β)) : List α → Option (List β)
  | [] => some []
  | a :: l => match g a, concatMap g l with
      | some x, some y => some (x ++ y)
      | _, _ => none

variable [DecidableEq S] [DecidableEq A]

mutual

/-- `ThtsDNode::get_pretty_print_string_helper`, thts_decision_node.cpp:198-223. -/
def printD (env : Env S A R) (m : Manager S R) (f : Fmt S A R X Y) (st : St S A R X Y) :
    Nat → Int → Nat → Nat → Option (List (Tok S A))
  | 0, _, _, _ => none
  | fuel + 1, depth, d, tabs =>
    match st.dn[d]? with
    | none => none
    | some nd =>
      let head : List (Tok S A) := [.node true d (f.valD nd) nd.visits]
      if depth = 0 then
        some (head ++ (if !isLeaf env m nd then [.dots d] else []) ++ [.close])
      else
        match concatMap (fun p : A × Nat =>
            (printC env m f st fuel (depth - 1) p.2 (tabs + 1)).map
              (fun r => .newline :: List.replicate (tabs + 1) .tab ++ .act p.1 :: r)) nd.kids with
        | none => none
        | some body => some (head ++ body ++ .newline :: List.replicate tabs .tab ++ [.close])

/-- `ThtsCNode::get_pretty_print_string_helper`, thts_chance_node.cpp:193-211. -/
def printC (env : Env S A R) (m : Manager S R) (f : Fmt S A R X Y) (st : St S A R X Y) :
    Nat → Int → Nat → Nat → Option (List (Tok S A))
  | 0, _, _, _ => none
  | fuel + 1, depth, c, tabs =>
    match st.cn[c]? with
    | none => none
    | some nc =>
      let head : List (Tok S A) := [.node false c (f.valC nc) nc.visits]
      match concatMap (fun p : S × Nat =>
          (printD env m f st fuel (depth - 1) p.2 (tabs + 1)).map
            (fun r => .newline :: List.replicate (tabs + 1) .tab ++ .obs p.1 :: r)) nc.kids with
      | none => none
      | some body => some (head ++ body ++ .newline :: List.replicate tabs .tab ++ [.close])

end

/-- `ThtsDNode::get_pretty_print_string`, thts_decision_node.cpp:183-188. -/
def prettyD (env : Env S A R) (m : Manager S R) (f : Fmt S A R X Y) (st : St S A R X Y) (fuel : Nat) (depth : Int) (d : Nat) :
    Option (List (Tok S A)) :=
  printD env m f st fuel (2 * depth) d 0

/-- `ThtsCNode::get_pretty_print_string`, thts_chance_node.cpp:178-183. -/
def prettyC (env : Env S A R) (m : Manager S R) (f : Fmt S A R X Y) (st : St S A R X Y) (fuel : Nat) (depth : Int) (c : Nat) :
    Option (List (Tok S A)) :=
  printC env m f st fuel (2 * depth + 1) c 0

end

/-- `get_pretty_print_string` of the concrete state types, thts_types.cpp:92-96, 130-134, 171-175 (default: throws). -/
def obsText : Types.Obs → Except Types.Err (List Char)
  | .null _ => .error .runtimeError
  | .int i => .ok ('(' :: Context.decimal i.toInt ++ [')'])
  | .pair a b => .ok ('(' :: Context.decimal a.toInt ++ ',' :: Context.decimal b.toInt ++ [')'])
  | .triple a b c => .ok ('(' :: Context.decimal a.toInt ++ ',' :: Context.decimal b.toInt ++ ',' :: Context.decimal c.toInt ++ [')'])

/-- `get_pretty_print_string` of the concrete action types, thts_types.cpp:207-211, 243-247 (default: throws). -/
def actText : Types.Act → Except Types.Err (List Char)
  | .null => .error .runtimeError
  | .int i => .ok (Context.decimal i.toInt)
  | .string s => .ok s.toList

end Verif.Print
