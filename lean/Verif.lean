import Verif.Base
import Verif.Model.Avl
import Verif.Model.Rb
import Verif.Model.SkipList
import Verif.Model.Quantile
import Verif.Model.Heap
import Verif.Model.HeapMedian
import Verif.Model.MinMax
import Verif.Model.MathUtil
import Verif.Model.Moment
import Verif.Model.XF
import Verif.Model.MomentMetric
import Verif.Spec.Bag
import Verif.Spec.Window
import Verif.Spec.Quantile
import Verif.Spec.Moment
import Verif.Proofs.ListLemmas
import Verif.Proofs.Avl
import Verif.Proofs.Rb
import Verif.Proofs.AvlNaN
import Verif.Proofs.RbWeak
import Verif.Proofs.RbNaN
import Verif.Proofs.SkipList
import Verif.Proofs.SkipAdd
import Verif.Proofs.SkipRemove
import Verif.Proofs.SkipRun
import Verif.Proofs.Window
import Verif.Proofs.QuantileSpec
import Verif.Proofs.Quantile
import Verif.Proofs.QuantileCfg
import Verif.Proofs.QuantileWeak
import Verif.Proofs.Heap
import Verif.Proofs.HeapOps
import Verif.Proofs.HeapMedian
import Verif.Proofs.MinMax
import Verif.Proofs.MathUtil
import Verif.Proofs.Moment
import Verif.Proofs.MomentConfig
import Verif.Proofs.MomentMetric
import Verif.Model.Tuple
import Verif.Model.Joint
import Verif.Spec.Joint
import Verif.Proofs.MultiIndex
import Verif.Proofs.Tuple
import Verif.Proofs.Joint
import Verif.Proofs.JointCore
import Verif.Proofs.JointConfig
import Verif.Model.JointMetric
import Verif.Model.JointAlias
import Verif.Proofs.JointMetric
import Verif.Proofs.JointAlias
import Verif.Proofs.Decide
import Verif.Props.Avl
import Verif.Props.Rb
import Verif.Props.SkipList
import Verif.Props.Quantile
import Verif.Props.HeapMedian
import Verif.Props.MinMax
import Verif.Props.Moment
import Verif.Props.JointCore
import Verif.Props.JointConfig
import Verif.Props.JointMetric
import Verif.Props.Clear
import Verif.Model.Sample
import Verif.Spec.Sample
import Verif.Proofs.Sample
import Verif.Proofs.Uniform
import Verif.Props.Sample
import Verif.Model.Aggregate
import Verif.Model.Names
import Verif.Spec.Aggregate
import Verif.Proofs.Aggregate
import Verif.Proofs.Names
import Verif.Props.Aggregate
import Verif.Props.Names
import Verif.Model.Locks
import Verif.Model.LockedMetrics
import Verif.Model.LockedStatements
import Verif.Spec.Linear
import Verif.Proofs.Locks
import Verif.Proofs.Deadlock
import Verif.Proofs.LockedMetrics
import Verif.Proofs.NoHang
import Verif.Proofs.Quiet
import Verif.Proofs.LockedStatements
import Verif.Proofs.Objects
import Verif.Proofs.Sched
import Verif.Props.Locks
import Verif.Proofs.AutoLocks
import Verif.Props.AutoLocks
import Verif.Proofs.MinMaxNaN
import Verif.Model.Factorials
import Verif.Spec.Independent
import Verif.Proofs.Factorials
import Verif.Props.Factorials
import Verif.Props.JointFactorials
import Verif.Props.Strings
import Verif.Conform
import Verif.Props.Rounded
import Verif.Props.QuantileFP
import Verif.Model.JointFP
import Verif.Proofs.JointFP
import Verif.Proofs.JointFPVal
import Verif.Proofs.JointFPState
import Verif.Proofs.MomentFPState
import Verif.Proofs.JointColumn
import Verif.Props.JointFP
import Verif.Proofs.Sqrt
import Verif.Props.Share
import Verif.Props.JointRounded
import Verif.Spec.Drift
import Verif.Proofs.JointLow
import Verif.Props.Overlap
import Verif.Proofs.JointConst
import Verif.Proofs.JointPoison
import Verif.Props.JointNumeric
import Verif.Model.ConfigAlias
import Verif.Proofs.ConfigAlias
import Verif.Props.ConfigAlias
import Verif.Model.OptionAlias
import Verif.Props.OptionAlias
import Verif.Spec.Units
import Verif.Proofs.Graded
import Verif.Proofs.GradedInst
import Verif.Props.Symmetry
import Verif.Proofs.Variance
import Verif.Props.Variance
import Verif.Proofs.Covariance
import Verif.Props.Covariance
import Verif.Props.HeapPackage
import Verif.Proofs.CorrRange
import Verif.Props.CorrRange
import Verif.Props.Order
import Verif.Model.Cost
import Verif.Proofs.Cost
import Verif.Proofs.Space
import Verif.Props.Cost
import Verif.Props.Space
import Verif.Model.CoreCost
import Verif.Proofs.CoreCost
import Verif.Props.CoreCost
import Verif.Model.SkipCost
import Verif.Model.GoRand
import Verif.Spec.Average
import Verif.Proofs.SkipCost
import Verif.Proofs.Average
import Verif.Proofs.SkipExpect
import Verif.Props.SkipExpect
import Verif.Spec.Fits
import Verif.Proofs.Fits
import Verif.Props.Fits
import Verif.Spec.Failed
import Verif.Proofs.Failed
import Verif.Props.Failed
import Verif.Proofs.Inequalities
import Verif.Props.Inequalities
import Verif.Proofs.QuantileNaN
import Verif.Props.QuantileNaN
import Verif.Proofs.HighMoments
import Verif.Proofs.HighSteps
import Verif.Props.HighMoments
import Verif.Proofs.NoOverflow
import Verif.Props.NoOverflow
import Verif.Proofs.Drift
import Verif.Props.Drift
import Verif.Proofs.ZeroVar
import Verif.Props.ZeroVar
import Verif.Proofs.Ratios
import Verif.Props.Ratios
import Verif.Props.CorrAccuracy
import Verif.Model.Examples
import Verif.Proofs.HeapIncreasing
import Verif.Proofs.Examples
import Verif.Props.Examples
import Verif.Proofs.HeapStale
import Verif.Props.HeapStale
import Verif.Proofs.Ordinal
import Verif.Proofs.OrdinalMetrics
import Verif.Proofs.OrdinalHeap
import Verif.Props.Ordinal
import Verif.Proofs.QuantOverflow
import Verif.Props.QuantOverflow
import Verif.Model.EwValue
import Verif.Proofs.EwPair
import Verif.Props.EwAccuracy
import Verif.Proofs.Forget
import Verif.Props.Forget
import Verif.Proofs.JointOverflow
import Verif.Props.JointOverflow
import Verif.Model.AutoFP
import Verif.Proofs.AutoFP
import Verif.Props.AutoFP
import Verif.Props.AutoFits
import Verif.Props.RatiosIEEE
import Verif.Props.CorrIEEE
import Verif.Props.Pointwise
import Verif.Props.WindowRatios
import Verif.Props.WindowCov
import Verif.Props.WindowIEEE
import Verif.Proofs.JointWindowFin
import Verif.Props.JointWindowIEEE
import Verif.Props.Approx
import Verif.Audit
