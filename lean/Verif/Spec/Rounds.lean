import Verif.Spec.Tree
import Verif.Spec.DpToy

/-! # Rounds of trials, and a game in which two moves lead to the same state -/

namespace Verif.Backups

open Verif.Search

section
variable {S A 𝕜 X Y : Type} [DecidableEq S] [DecidableEq A] [Field 𝕜] [LinearOrder 𝕜]

/-- In the piece `r` of a history every action of every node of `st` that is not a leaf was tried. -/
def TriedAll (env : Env S A 𝕜) (m : Manager S 𝕜) (st : St S A 𝕜 X Y) (r : List (Event S A 𝕜)) : Prop :=
  ∀ (d : Nat) nd, st.dn[d]? = some nd → isLeaf env m nd = false → ∀ a ∈ env.actions nd.state, ∃ w c, Event.selected w d a c ∈ r

/-- The search has tried everything and has then run `n` rounds: each starts and ends with no trial running, and tries every action of
every node. -/
inductive Rounds (env : Env S A 𝕜) (m : Manager S 𝕜) (alg : Alg S A 𝕜 X Y) (k : Nat) (s0 : S) (dp tm : Int)
    (tb : List ((Int × S) × Option Nat)) : Nat → St S A 𝕜 X Y → List (Event S A 𝕜) → Prop where
  | zero {st h} : Reachable env m alg k s0 dp tm tb st h → Quiescent st → Exhausted env m st → Rounds env m alg k s0 dp tm tb 0 st h
  | succ {n st h st' r ls} : Rounds env m alg k s0 dp tm tb n st h → execFrom env m alg st h ls = some (st', r ++ h) → Quiescent st' →
      TriedAll env m st r → Rounds env m alg k s0 dp tm tb (n + 1) st' (r ++ h)

/-- The value of action `a` in state `s` at timestep `t` with `n` moves to go after it. -/
def moveValue (env : Env S A 𝕜) (m : Manager S 𝕜) (next : S → A → S) (n : Nat) (t : Int) (s : S) (a : A) : 𝕜 :=
  env.reward s a (next s a) + gameValue env m next n (t + 1) (next s a)

end

end Verif.Backups

namespace Verif.Backups.Dag

open Verif.Search Verif.Backups

/-- Both moves lead to the same state: there is one state per timestep. -/
def next (s _a : Nat) : Nat := s + 1

/-- The first move pays 5 or 0, the second 0 or 10. -/
def env : Env Nat Nat ℚ where
  isSink _ := false
  actions _ := [0, 1]
  succ s a := [next s a]
  reward s a _ := if s = 0 then (if a = 0 then 5 else 0) else if a = 0 then 0 else 10

/-- One player, two moves, with a transposition table. -/
def mgr : Manager Nat ℚ where
  maxDepth := 2
  mctsMode := false
  twoPlayer := false
  useTable := true
  numMutexes := 1
  heuristic := none

def lr : Nat → Nat → ℚ := fun s a => env.reward s a (next s a)

/-- One trial of worker `w` with moves `a` and `b`. -/
def trial (w a b : Nat) : List (Nat × Choice Nat Nat) :=
  [(w, .go), (w, .act a), (w, .obs 1), (w, .act b), (w, .obs 2)] ++ List.replicate 6 (w, .go)

/-- Two trials try everything. -/
def sched : List (Nat × Choice Nat Nat) := trial 0 0 0 ++ trial 1 1 1

/-- A round: the same again, the trials interleaved. -/
def round : List (Nat × Choice Nat Nat) :=
  [(0, .go), (1, .go), (0, .act 0), (1, .act 1), (1, .obs 1), (0, .obs 1), (1, .act 1), (0, .act 0), (0, .obs 2), (1, .obs 2)] ++
  List.replicate 6 (1, .go) ++ List.replicate 6 (0, .go)

def start : St Nat Nat ℚ (Dp ℚ) (Dp ℚ) := init env mgr (Toy.alg lr) 2 0 0 0 []

def first : Option (St Nat Nat ℚ (Dp ℚ) (Dp ℚ) × List (Event Nat Nat ℚ)) := execFrom env mgr (Toy.alg lr) start [] sched

def second : Option (St Nat Nat ℚ (Dp ℚ) (Dp ℚ) × List (Event Nat Nat ℚ)) :=
  first.bind fun p => execFrom env mgr (Toy.alg lr) p.1 p.2 round

end Verif.Backups.Dag
