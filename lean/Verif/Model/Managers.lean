import Verif.Model.Dents
import Verif.Model.Uct

/-!
# The managers and their default settings

The argument structs and the constructors of the managers.  The seed goes to the random number generators (`Verif.Model.RandManager`) and
is left out here, as is the environment, which the model passes around separately.
-/

namespace Verif.Managers

open Verif.Search

variable {S A : Type}

/-- The largest `int` (32 bits), `numeric_limits<int>::max()`. -/
def intMax : Int := 2 ^ 31 - 1

/-- `numeric_limits<double>::lowest()`. -/
def lowest : ℝ := -(2 ^ 1024 - 2 ^ 971)

/-- `helper::zero_heuristic_fn` (src/helper.cpp:9-11, include/helper.h). -/
def zeroHeuristic (_ : S) : ℝ := 0

/-- `ThtsManagerArgs` (include/thts_manager.h:29-64). -/
structure ThtsArgs (S A : Type) where
  maxDepth : Int
  heuristic : Option (S → ℝ)
  prior : Option (S → List (A × ℝ))
  mctsMode : Bool
  twoPlayer : Bool
  useTable : Bool
  numMutexes : Int

/-- The constructor of `ThtsManagerArgs` (include/thts_manager.h:30-37, 52-61). -/
def thtsArgs : ThtsArgs S A where
  maxDepth := intMax
  heuristic := some zeroHeuristic
  prior := none
  mctsMode := true
  twoPlayer := false
  useTable := false
  numMutexes := 1

/-- The constructor of `ThtsManager` (include/thts_manager.h:195-207).  A negative number of mutexes, converted to an unsigned integer, is
too large for a vector: `none` is the `length_error`. -/
def thtsManager (args : ThtsArgs S A) : Option (Manager S ℝ) :=
  if args.numMutexes < 0 then none
  else some
    { maxDepth := args.maxDepth
      mctsMode := args.mctsMode
      twoPlayer := args.twoPlayer
      useTable := args.useTable
      numMutexes := args.numMutexes.toNat
      heuristic := args.heuristic }

/-- `UctManagerArgs` (include/algorithms/uct/uct_manager.h:9-31). -/
structure UctArgs (S A : Type) extends ThtsArgs S A where
  bias : ℝ
  pseudo : Int
  mostVisited : Bool
  epsilon : ℝ

/-- The constructor of `UctManagerArgs` (uct_manager.h:10-16, 23-28); `USE_AUTO_BIAS` is -1. -/
def uctArgs : UctArgs S A :=
  { thtsArgs with
    bias := -1
    pseudo := 0
    mostVisited := true
    epsilon := 0 }

/-- The constructor of `UctManager` (uct_manager.h:62-67), for a node with the exploration term `term` (`compute_ucb_term` of the node's class).
Simplified: a number of pseudo trials below zero counts as zero. -/
noncomputable def uctManager (term : Nat → Nat → ℝ) (args : UctArgs S A) : Option (Manager S ℝ × Uct.Cfg S A ℝ) :=
  (thtsManager args.toThtsArgs).map fun m =>
    (m, { bias := args.bias
          pseudo := args.pseudo.toNat
          mostVisited := args.mostVisited
          epsilon := args.epsilon
          prior := args.prior
          term := term
          low := lowest })

/-- `PuctManagerArgs` (include/algorithms/uct/puct_manager.h:9-19). -/
structure PuctArgs (S A : Type) extends UctArgs S A where
  power : ℝ

/-- The constructor of `PuctManagerArgs` (puct_manager.h:10, 14-16). -/
noncomputable def puctArgs : PuctArgs S A := { uctArgs with power := 1 / 2 }

/-- The constructor of `PuctManager` (puct_manager.h:32-34). -/
noncomputable def puctManager (args : PuctArgs S A) : Option (Manager S ℝ × Uct.Cfg S A ℝ) :=
  uctManager (Uct.puctTerm args.power) args.toUctArgs

/-- `MentsManagerArgs` (include/algorithms/ments/ments_manager.h:10-65). -/
structure MentsArgs (S A : Type) extends ThtsArgs S A where
  temp : ℝ
  priorWeight : ℝ
  epsilon : ℝ
  rootEpsilon : ℝ
  maxExplore : ℝ
  decay : Option (ℝ → ℝ)
  minTemp : ℝ
  scale : ℝ
  rootScale : ℝ
  defaultQ : ℝ
  shift : Bool
  offset : ℝ
  threshold : Int
  mostVisited : Bool

/-- The constructor of `MentsManagerArgs` (ments_manager.h:11-27, 47-62). -/
noncomputable def mentsArgs : MentsArgs S A :=
  { thtsArgs with
    temp := 1
    priorWeight := 0
    epsilon := 1 / 2
    rootEpsilon := -1
    maxExplore := 1
    decay := none
    minTemp := 1 / 10 ^ 6
    scale := 1
    rootScale := -1
    defaultQ := 0
    shift := false
    offset := 0
    threshold := 0
    mostVisited := false }

/-- The constructor of `MentsManager` (ments_manager.h:148-163). -/
def mentsManager (args : MentsArgs S A) : Option (Manager S ℝ × Ments.Cfg S A) :=
  (thtsManager args.toThtsArgs).map fun m =>
    (m, { temp := args.temp
          priorWeight := args.priorWeight
          epsilon := args.epsilon
          rootEpsilon := args.rootEpsilon
          maxExplore := args.maxExplore
          decay := args.decay
          minTemp := args.minTemp
          scale := args.scale
          rootScale := args.rootScale
          defaultQ := args.defaultQ
          shift := args.shift
          offset := args.offset
          threshold := args.threshold
          mostVisited := args.mostVisited
          prior := args.prior
          low := lowest })

/-- `DentsManagerArgs` (include/algorithms/ments/dents/dents_manager.h:9-35). -/
structure DentsArgs (S A : Type) extends MentsArgs S A where
  valueDecay : Option (ℝ → ℝ)
  valueInit : ℝ
  valueMin : ℝ
  valueScale : ℝ
  valueRootScale : ℝ
  useDp : Bool

/-- The constructor of `DentsManagerArgs` (dents_manager.h:10-15, 25-32). -/
noncomputable def dentsArgs : DentsArgs S A :=
  { mentsArgs with
    valueDecay := some Decay.invSqrt
    valueInit := 1
    valueMin := 1 / 10 ^ 6
    valueScale := 1
    valueRootScale := -1
    useDp := true }

/-- The constructor of `DentsManager` (dents_manager.h:74-81). -/
noncomputable def dentsManager (args : DentsArgs S A) : Option (Manager S ℝ × Dents.DCfg S A) :=
  (mentsManager args.toMentsArgs).map fun p =>
    (p.1, { p.2 with
            valueDecay := args.valueDecay
            valueInit := args.valueInit
            valueMin := args.valueMin
            valueScale := args.valueScale
            valueRootScale := args.valueRootScale
            useDp := args.useDp })

end Verif.Managers
