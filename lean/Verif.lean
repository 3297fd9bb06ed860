import Verif.Spec.Basic
import Verif.Spec.Convex
import Verif.Spec.Csr
import Verif.Spec.EpochRun
import Verif.Spec.FiniteSum
import Verif.Spec.Loss
import Verif.Spec.Nearest
import Verif.Spec.Nuclear
import Verif.Spec.Penalty
import Verif.Spec.Rounding
import Verif.Spec.Smooth
import Verif.Spec.TV
import Verif.Model.BlockPenalty
import Verif.Model.Constraint
import Verif.Model.DatasetMatrix
import Verif.Model.Datasets
import Verif.Model.FloatAccel
import Verif.Model.FloatConstrained
import Verif.Model.FloatFW
import Verif.Model.FloatFWDR
import Verif.Model.FloatFWPairwise
import Verif.Model.FloatFWSearch
import Verif.Model.FloatLineSearch
import Verif.Model.FloatPdSearch
import Verif.Model.FloatPrimalDual
import Verif.Model.FloatProj
import Verif.Model.FloatProxGrad
import Verif.Model.FloatRandomized
import Verif.Model.FloatSplit
import Verif.Model.FloatTsSearch
import Verif.Model.FloatValue
import Verif.Model.FrankWolfe
import Verif.Model.IeeeSolvers
import Verif.Model.IntStart
import Verif.Model.LmoObjects
import Verif.Model.Loss
import Verif.Model.Mem
import Verif.Model.Objects
import Verif.Model.Penalty
import Verif.Model.ProxGrad
import Verif.Model.Py
import Verif.Model.Randomized
import Verif.Model.SFW
import Verif.Model.SfwRaise
import Verif.Model.SplitObjects
import Verif.Model.Splitting
import Verif.Model.TV1D
import Verif.Model.TVProx
import Verif.Model.Torch
import Verif.Model.Trace
import Verif.Model.Utils
import Verif.Model.VRObjects
import Verif.Proof.ActiveSet
import Verif.Proof.AnyOrder
import Verif.Proof.Appr
import Verif.Proof.Basic
import Verif.Proof.BlockPass
import Verif.Proof.BlockProx
import Verif.Proof.Blocks
import Verif.Proof.Constraint
import Verif.Proof.Convex
import Verif.Proof.DenseCsr
import Verif.Proof.Duality
import Verif.Proof.FiniteSum
import Verif.Proof.FloatFW
import Verif.Proof.FloatFWPairwise
import Verif.Proof.FloatFWSearch
import Verif.Proof.FloatLineSearch
import Verif.Proof.FloatLineSearchInit
import Verif.Proof.FloatOracles
import Verif.Proof.FloatPdSearch
import Verif.Proof.FloatPrimalDual
import Verif.Proof.FloatRandomized
import Verif.Proof.FloatSaga
import Verif.Proof.FloatSimplex
import Verif.Proof.FloatSplit
import Verif.Proof.FloatTsSearch
import Verif.Proof.FloatVR
import Verif.Proof.FloatVRObjects
import Verif.Proof.FloatValue
import Verif.Proof.FrankWolfe
import Verif.Proof.FusedPairs
import Verif.Proof.GroupBlocks
import Verif.Proof.GroupKernel
import Verif.Proof.GroupProx
import Verif.Proof.Groups
import Verif.Proof.InexactAccel
import Verif.Proof.InexactFW
import Verif.Proof.InexactLineSearch
import Verif.Proof.InexactPrimalDual
import Verif.Proof.InexactProxGrad
import Verif.Proof.InexactSplit
import Verif.Proof.Loss
import Verif.Proof.Nearest
import Verif.Proof.Objects
import Verif.Proof.PenaltyL1
import Verif.Proof.ProxGrad
import Verif.Proof.RoundedSteps
import Verif.Proof.Rounding
import Verif.Proof.RoundingBits
import Verif.Proof.Saga
import Verif.Proof.SubgradSum
import Verif.Proof.Support
import Verif.Proof.Svd
import Verif.Proof.TV1D
import Verif.Proof.TV1DLoop
import Verif.Proof.TV1DOut
import Verif.Proof.TV2DExtra
import Verif.Proof.TVProx
import Verif.Proof.TVSafe
import Verif.Proof.TableSplitting
import Verif.Proof.TautKnots
import Verif.Proof.TautString
import Verif.Proof.ThreeSplit
import Verif.Proof.Trace
import Verif.Proof.Utils
import Verif.Proof.Vrtos
import Verif.Props.Accelerated
import Verif.Props.AcceleratedGrowth
import Verif.Props.AcceleratedSearch
import Verif.Props.AnyArithmetic
import Verif.Props.AnyOrder
import Verif.Props.Callback
import Verif.Props.Constraint
import Verif.Props.DatasetMatrix
import Verif.Props.Datasets
import Verif.Props.FloatAccel
import Verif.Props.FloatConstrained
import Verif.Props.FloatConvex
import Verif.Props.FloatFW
import Verif.Props.FloatFWDR
import Verif.Props.FloatFWPairwise
import Verif.Props.FloatFWSearch
import Verif.Props.FloatLineSearch
import Verif.Props.FloatLineSearchWitness
import Verif.Props.FloatPdSearch
import Verif.Props.FloatPrimalDual
import Verif.Props.FloatProj
import Verif.Props.FloatRandomized
import Verif.Props.FloatSolver
import Verif.Props.FloatSplit
import Verif.Props.FloatTsSearch
import Verif.Props.FloatTsWitness
import Verif.Props.FloatVRObjects
import Verif.Props.FloatValue
import Verif.Props.FrankWolfe
import Verif.Props.FrankWolfePairwise
import Verif.Props.FrankWolfeTermination
import Verif.Props.IeeeSolvers
import Verif.Props.Indicators
import Verif.Props.IntStart
import Verif.Props.IntStartVrtos
import Verif.Props.LmoObjects
import Verif.Props.LocalPenalties
import Verif.Props.Loss
import Verif.Props.Minimisers
import Verif.Props.Nonexpansive
import Verif.Props.PenalisedOrder
import Verif.Props.Penalty
import Verif.Props.PrimalDual
import Verif.Props.PrimalDualBoundary
import Verif.Props.PrimalDualObjects
import Verif.Props.PrimalDualRate
import Verif.Props.PrimalDualSearch
import Verif.Props.ProxGrad
import Verif.Props.ProxGradTermination
import Verif.Props.ProxGradWitness
import Verif.Props.Regression
import Verif.Props.Saga
import Verif.Props.SagaContraction
import Verif.Props.SagaFixed
import Verif.Props.SagaPenalties
import Verif.Props.Sfw
import Verif.Props.SfwLf
import Verif.Props.SfwObjects
import Verif.Props.SfwRaise
import Verif.Props.SfwRate
import Verif.Props.SfwRuns
import Verif.Props.SfwStops
import Verif.Props.SfwTrace
import Verif.Props.SplittingObjects
import Verif.Props.StochasticAccounting
import Verif.Props.Svrg
import Verif.Props.TV
import Verif.Props.ThreeSplit
import Verif.Props.ThreeSplitAdaptive
import Verif.Props.ThreeSplitGrow
import Verif.Props.ThreeSplitLibrary
import Verif.Props.Torch
import Verif.Props.Trace
import Verif.Props.Utils
import Verif.Props.VRObjects
import Verif.Props.Vrtos
import Verif.Props.VrtosBias
import Verif.Props.VrtosBounds
import Verif.Props.VrtosMean
import Verif.Props.VrtosOrder
import Verif.Examples.Saga
import Verif.Examples.Sfw
import Verif.Examples.Vrtos
