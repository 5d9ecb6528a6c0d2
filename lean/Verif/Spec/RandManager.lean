import Verif.Model.RandManager
import Mathlib.Data.Fintype.Pi
import Mathlib.Algebra.BigOperators.Group.List.Basic
import Mathlib.Algebra.BigOperators.Group.Finset.Basic

/-! # Vocabulary for the random numbers of a manager (C104) -/

namespace Verif.Rand

/-- A request, and the answers of interest: the integer `v`, a real in `[l, r)`. -/
inductive Ask where
  | int (lo hi v : Int)
  | real (l r : ℚ)

/-- The manager's answers to a list of requests, made in this order, are the ones of interest. -/
def Meets : Manager → List Ask → Prop
  | _, [] => True
  | g, .int lo hi v :: as => (g.randInt lo hi).1 = some v ∧ Meets (g.randInt lo hi).2 as
  | g, .real l r :: as => (l ≤ g.randUniform.1 ∧ g.randUniform.1 < r) ∧ Meets g.randUniform.2 as

/-- The probability of such an answer, for exactly uniform integers and reals. -/
def Ask.ideal : Ask → ℚ
  | .int lo hi _ => 1 / ((hi - lo : Int) : ℚ)
  | .real l r => r - l

def Ask.isInt : Ask → Bool
  | .int _ _ _ => true
  | .real _ _ => false

/-- The request makes sense, there are at most `N` integers in the range, and the interval is not shorter than `β`. -/
def Ask.Fits (N : Nat) (β : ℚ) : Ask → Prop
  | .int lo hi v => lo ≤ v ∧ v < hi ∧ hi - lo ≤ N
  | .real l r => 0 ≤ l ∧ r ≤ 1 ∧ β ≤ r - l

/-- A sequence of words that begins with `K` given pairs. -/
def wordsOf {K : Nat} (ω : Fin K → Nat × Nat) (i : Nat) : Nat :=
  if h : i / 2 < K then (if i % 2 = 0 then (ω ⟨i / 2, h⟩).1 else (ω ⟨i / 2, h⟩).2) else 0

/-- All possible first `K` pairs of 32-bit words. -/
def allWords (K : Nat) : Finset (Fin K → Nat × Nat) := Fintype.piFinset fun _ => Finset.range (2 ^ 32) ×ˢ Finset.range (2 ^ 32)

open Classical in
/-- The share of the first `K` pairs of words for which `P` holds: its probability, if all 32-bit words are equally likely and independent, for a `P` that does not
depend on more words. -/
noncomputable def chance (K : Nat) (P : (Nat → Nat) → Prop) : ℚ := ((allWords K).filter fun ω => P (wordsOf ω)).card / (2 ^ 64) ^ K

/-- The probability that a manager made with `seed` gives the answers of interest, if a `std::mt19937` produces equally likely words and the answers need at most the first `K` pairs of them. -/
noncomputable def chanceOf (K : Nat) (seed : Int) (as : List Ask) : ℚ := chance K fun w => Meets (construct (fun _ => w) (fun _ => 0) seed) as

open Classical in
/-- The same for two sequences of words, one for each of two different seeds. -/
noncomputable def chance2 (K : Nat) (P : (Nat → Nat) → (Nat → Nat) → Prop) : ℚ :=
  ((allWords K ×ˢ allWords K).filter fun ω => P (wordsOf ω.1) (wordsOf ω.2)).card / ((2 ^ 64) ^ K * (2 ^ 64) ^ K)

/-- A program that asks a manager for random numbers, each request depending on the answers so far, and ends with success or failure: an integer from `[lo, lo + n)`, or a real, of which only
matters in which of the intervals `[cut 0, cut 1), ..., [cut (n-1), cut n)` it is. -/
inductive Program where
  | stop (good : Bool)
  | int (lo : Int) (n : Nat) (next : Int → Program)
  | real (n : Nat) (cut : Nat → ℚ) (next : Nat → Program)

/-- The program succeeds with the numbers of this manager. -/
def Program.Wins : Program → Manager → Prop
  | .stop good, _ => good = true
  | .int lo n next, g => ∃ v, (g.randInt lo (lo + n)).1 = some v ∧ (next v).Wins (g.randInt lo (lo + n)).2
  | .real n cut next, g => ∃ j < n, (cut j ≤ g.randUniform.1 ∧ g.randUniform.1 < cut (j + 1)) ∧ (next j).Wins g.randUniform.2

/-- The probability of success with exactly uniform integers and reals, independent of each other. -/
def Program.ideal : Program → ℚ
  | .stop good => if good then 1 else 0
  | .int lo n next => ∑ i ∈ Finset.range n, 1 / (n : ℚ) * (next (lo + i)).ideal
  | .real n cut next => ∑ j ∈ Finset.range n, (cut (j + 1) - cut j) * (next j).ideal

/-- The program asks for at most `i` integers, from ranges of at most `N`, and at most `r` reals, with intervals of length at least `β` that make up `[0, 1)`. -/
def Program.Fits (N : Nat) (β : ℚ) : Nat → Nat → Program → Prop
  | _, _, .stop _ => True
  | i, r, .int lo n next => 0 < n ∧ n ≤ N ∧ ∃ i', i = i' + 1 ∧ ∀ j : Nat, j < n → (next (lo + j)).Fits N β i' r
  | i, r, .real n cut next => cut 0 = 0 ∧ cut n = 1 ∧ (∀ j < n, β ≤ cut (j + 1) - cut j) ∧ ∃ r', r = r' + 1 ∧ ∀ j < n, (next j).Fits N β i r'

/-- The relative error of C104, for integers from ranges of at most `N` and intervals of length at least `β`. -/
def err (N : Nat) (β : ℚ) : ℚ := N / (β * 2 ^ 29)

/-- The first real is in the lower half. -/
def lowReal (g : Manager) : Prop := g.randUniform.1 < 1 / 2

/-- The second integer of the range `[0, 2^31 - 1)` is in the upper half. -/
def highInt (g : Manager) : Prop := ∃ v : Int, 2 ^ 30 ≤ v ∧ ((g.randInt 0 2147483647).2.randInt 0 2147483647).1 = some v

end Verif.Rand
