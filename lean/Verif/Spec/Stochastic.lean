import Verif.Spec.Tree
import Verif.Spec.Random
import Verif.Spec.Ments
import Mathlib.Analysis.SpecialFunctions.Exp

/-! # The value of a stochastic game -/

namespace Verif.Random

open Verif.Search Verif.Backups Verif.Eval

section
variable {S A : Type}

/-- The value of the game from state `s` at timestep `t` with `n` moves to go, if the next state is drawn from `obs s a`: at a sink or when
no move is left, the heuristic value (0 at a sink); otherwise the best, for the player to move, over the actions, of the expected reward plus
the expected value of the next state. -/
noncomputable def expValue (env : Env S A ℝ) (m : Manager S ℝ) (obs : S → A → List (S × ℝ)) : Nat → Int → S → ℝ
  | 0, _, s => heurOf env m s
  | n + 1, t, s =>
    if env.isSink s then 0
    else bestOf (isOpponent m t) ((env.actions s).map fun a =>
      mean1 (obs s a) (fun o => env.reward s a o) + mean1 (obs s a) fun o => expValue env m obs n (t + 1) o)

/-- The value of taking action `a` in state `s` at timestep `t` and playing optimally in the `n` moves after it. -/
noncomputable def actionValue (env : Env S A ℝ) (m : Manager S ℝ) (obs : S → A → List (S × ℝ)) (n : Nat) (t : Int) (s : S) (a : A) : ℝ :=
  mean1 (obs s a) (fun o => env.reward s a o) + mean1 (obs s a) fun o => expValue env m obs n (t + 1) o

end

/-- An upper bound for the probability that a play of `L` steps, each taken with probability at least `p`, is followed at most `M` times by `N`
trials. -/
noncomputable def rareBound (p : ℝ) (L M N : Nat) : ℝ := 2 ^ (L + M) / (1 + p ^ L / 2) ^ (N - (L + M))

/-- An upper bound for the probability that the mean of at least `M` samples of absolute value at most `V` is off by more than `η`. -/
noncomputable def farBound (V η : ℝ) (M : Nat) : ℝ := 2 * Real.exp (-(η ^ 2 * M / (16 * V ^ 2)))

/-- The error that one chance node adds, if its mean of at least `M` samples is within `η` of the expectation, it has at most `K` outcomes and all
values are bounded by `V`: the code's weights differ from the numbers of samples by at most one per outcome. -/
noncomputable def sampleError (V η : ℝ) (K M : Nat) : ℝ := 2 * η + 4 * K * V / M

/-- Action `a` is within `ε` of optimal for the player to move in state `s` at timestep `t`, with `n` moves to go after it. -/
def NearOptimal {S A : Type} (env : Env S A ℝ) (m : Manager S ℝ) (obs : S → A → List (S × ℝ)) (n : Nat) (t : Int) (s : S) (a : A) (ε : ℝ) : Prop :=
  ∀ b ∈ env.actions s, if isOpponent m t then actionValue env m obs n t s a ≤ actionValue env m obs n t s b + ε
    else actionValue env m obs n t s b - ε ≤ actionValue env m obs n t s a

end Verif.Random
