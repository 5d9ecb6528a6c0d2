import Verif.Props.Pool
import Verif.Props.Search
import Verif.Props.Sampling
import Verif.Props.Alias
import Verif.Props.Locks
import Verif.Props.Uct
import Verif.Props.Dp
import Verif.Props.Decay
import Verif.Props.Entropy
import Verif.Props.Ments
import Verif.Props.MentsSelect
import Verif.Props.MentsFlight
import Verif.Props.TableMutex
import Verif.Props.Dents
import Verif.Props.Tents
import Verif.Props.Rents
import Verif.Props.Eval
import Verif.Props.System
import Verif.Props.Context
import Verif.Props.Types
import Verif.Props.Print
import Verif.Props.Tree
import Verif.Props.SoftTree
import Verif.Props.DentsSoft
import Verif.Props.DentsEnt
import Verif.Props.DentsBonus
import Verif.Props.Distr
import Verif.Props.Rollouts
import Verif.Props.Live
import Verif.Props.Explore
import Verif.Props.Converge
import Verif.Props.Random
import Verif.Props.RandomSearch
import Verif.Proofs.SearchIntro
import Verif.Props.LockLevel
import Verif.Props.LockRefine
import Verif.Props.LockFree
import Verif.Props.Program
import Verif.Props.Memory
import Verif.Props.FpSampling
import Verif.Props.FpAverage
import Verif.Props.FpMents
import Verif.Props.FpChance
import Verif.Props.FpSoft
import Verif.Proofs.FpSparse
import Verif.Props.FpTents
import Verif.Props.FpAlias
import Verif.Props.Stochastic
import Verif.Props.FpSearch
import Verif.Props.FpUct
import Verif.Props.FpSoftTree
import Verif.Props.FpSoftCount
import Verif.Props.Ints
import Verif.Spec.TentsTree
import Verif.Proofs.TentsTree
import Verif.Proofs.TentsRandom
import Verif.Props.TentsTree
import Verif.Props.FpTentsTree
import Verif.Spec.Template
import Verif.Props.Template
import Verif.Spec.FpRandom
import Verif.Model.FpDbMents
import Verif.Props.FpRandom
import Verif.Spec.RentsTree
import Verif.Proofs.RentsTree
import Verif.Props.RentsTree
import Verif.Spec.UctStoch
import Verif.Proofs.Ville
import Verif.Proofs.FlowAll
import Verif.Proofs.UctStoch
import Verif.Proofs.UctStochEnd
import Verif.Props.UctStoch
import Verif.Props.Reader
import Verif.Props.RandManager
import Verif.Props.Repro
import Verif.Props.Reuse
import Verif.Props.Counters
import Verif.Props.Rounds
import Verif.Props.Calls
import Verif.Model.Managers
import Verif.Props.Defaults
import Verif.Props.Measure
import Verif.Props.MeasureChance
import Verif.Props.IntsRest
import Verif.Props.Whole
import Verif.Spec.Average
import Verif.Proofs.Tilt
import Verif.Proofs.Average
import Verif.Proofs.AverageProb
import Verif.Props.Average
import Verif.Spec.Prior
import Verif.Props.Prior
import Verif.Props.PriorMore
import Verif.Props.PoolEdge
import Verif.Model.PrintMap
import Verif.Props.PrintMap
import Verif.Model.PoolClock
import Verif.Props.PoolClock
import Verif.Model.FpEval
import Verif.Spec.FpEval
import Verif.Props.FpEval
import Verif.Model.PoolEnv
import Verif.Spec.PoolEnv
import Verif.Props.PoolEnv
import Verif.Props.FpTentsGap
