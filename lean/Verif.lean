import Verif.Model.ComputeKernel
import Verif.Model.CheckVolterra
import Verif.Spec.Volterra
import Verif.Lemmas.ComputeKernel
import Verif.Lemmas.Transform
import Verif.Props.Volterra
import Verif.Props.VolterraMore
import Verif.Props.KernelApi
import Verif.Props.KernelApi2
import Verif.Props.Noise
import Verif.Props.Ide
import Verif.Props.Correlation
import Verif.Props.Estimator
import Verif.Props.Corrs
import Verif.Props.RangeProjection
import Verif.Props.EstimatorExamples
import Verif.Props.Trajectory
import Verif.Props.Features
import Verif.Props.Combiner
import Verif.Props.Indicator
import Verif.Props.Describe
import Verif.Props.Tensorial
import Verif.Props.Pmf
import Verif.Props.BasisVector
import Verif.Props.SaveLoad
import Verif.Props.PosMass
import Verif.Props.Integrate
import Verif.Props.NoiseGen
import Verif.Props.ColouredNoise
import Verif.Props.IntegrateMore
import Verif.Props.Prony
import Verif.Props.PronyExact
import Verif.Props.FitMemory
import Verif.Props.Mesh
import Verif.Props.Fem
import Verif.Props.BSpline
import Verif.Props.EstimatorMore
import Verif.Model.EvalMore
import Verif.Spec.Eval
import Verif.Props.EvalMore
import Verif.Props.EvalMore2
import Verif.Props.SecondOrder
import Verif.Props.Orders
import Verif.Props.PmfNum
import Verif.Model.Bgle
import Verif.Model.Ft
import Verif.Model.PronyKernel
import Verif.Props.Bgle
import Verif.Props.Ft
import Verif.Props.PronyKernel
import Verif.Spec.Continuous
import Verif.Lemmas.Converge
import Verif.Lemmas.ConvergeTrapz
import Verif.Lemmas.ConvergeTrapz2
import Verif.Lemmas.ConvergeMidpoint
import Verif.Props.Converge
import Verif.Props.ConvergeFirst
import Verif.Props.ConvergeTrapz
import Verif.Props.ConvergeMidpoint
import Verif.Lemmas.ConvergeIde
import Verif.Props.ConvergeIde
import Verif.Props.Simpson
import Verif.Spec.Gle
import Verif.Lemmas.ConvergeGle
import Verif.Lemmas.GleRegular
import Verif.Lemmas.GleStep
import Verif.Props.ConvergeGle
import Verif.Lemmas.PronyDup
import Verif.Props.PronyDup
import Verif.Lemmas.PronyReal
import Verif.Props.PronyRemove
import Verif.Lemmas.Units
import Verif.Props.Units
import Verif.Model.Asymptotic
import Verif.Props.Asymptotic
import Verif.Lemmas.Agree
import Verif.Props.BasisChange
import Verif.Props.ProjectedBasis
import Verif.Props.NoiseOrtho
import Verif.Props.PronyRecover
import Verif.Props.Consistent
import Verif.Props.Sampled
import Verif.Lemmas.RightMul
import Verif.Props.Covariant
import Verif.Props.Symmetric
import Verif.Props.TrueNoise
import Verif.Props.ConvergeNoisy
import Verif.Model.CopyModel
import Verif.Props.Simulate
import Verif.Props.EstNoise
import Verif.Props.SimulateMoved
import Verif.Props.SampledSim
import Verif.Props.NoiseMoved
import Verif.Props.Fluctuation
import Verif.Props.ObservableShift
import Verif.Props.Resume
import Verif.Lemmas.SimBounds
import Verif.Props.NoiseBack
import Verif.Model.FreeEnergy
import Verif.Props.FreeEnergy
import Verif.Model.EvolveModel
import Verif.Lemmas.ConvDeriv
import Verif.Props.Generator
import Verif.Props.Generator2
import Verif.Props.PooledNoise
import Verif.Props.PooledAe
import Verif.Props.FiniteDiff
import Verif.Props.Robust
import Verif.Props.PmfNear
import Verif.Props.FeLimit
import Verif.Props.PmfFe
import Verif.Props.BgleConv
import Verif.Props.BgleResume
import Verif.Props.SimulateBgle
import Verif.Props.InvMass
import Verif.Props.Superpose
import Verif.Props.PronyUnits
import Verif.Props.Friction
import Verif.Props.FitIdent
import Verif.Props.Periodic
import Verif.Props.SuperposeBgle
import Verif.Props.KlBgle
import Verif.Props.Bounds
import Verif.Props.Rounding
import Verif.Props.RoundingTrapz
import Verif.Props.RoundingFirst
import Verif.Props.RoundingCorr
