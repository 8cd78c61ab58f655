import Verif.Model.BsearchFloat
import Verif.Model.Bspline
import Verif.Model.Chol
import Verif.Model.CholFloat
import Verif.Model.Corr
import Verif.Model.CorrBsplineTest
import Verif.Model.CorrFloat
import Verif.Model.CorrTest
import Verif.Model.Csd
import Verif.Model.CsdFloat
import Verif.Model.CsdLowpass
import Verif.Model.CsdLowpassCase
import Verif.Model.CsdNumbers
import Verif.Model.Csdigit
import Verif.Model.CsdigitFloat
import Verif.Model.CuttingPlane
import Verif.Model.CycleCase
import Verif.Model.Ell
import Verif.Model.Ell1d
import Verif.Model.Ell1dFloat
import Verif.Model.EllFloat
import Verif.Model.EllHeap
import Verif.Model.EllHeapFloat
import Verif.Model.EllMem
import Verif.Model.Fib
import Verif.Model.Fir
import Verif.Model.FirFloat
import Verif.Model.FirOracle2
import Verif.Model.FirTest
import Verif.Model.FloatRuns
import Verif.Model.HaltonGen
import Verif.Model.Imi
import Verif.Model.KernFloat
import Verif.Model.LowDiscr
import Verif.Model.LowDiscrFloat
import Verif.Model.Lowpass
import Verif.Model.LowpassCase
import Verif.Model.LowpassFloat
import Verif.Model.MatOracle
import Verif.Model.MatOracle2
import Verif.Model.MatOracleFloat
import Verif.Model.Mle
import Verif.Model.MonoFloat
import Verif.Model.NegCycle
import Verif.Model.NegCycleFloat
import Verif.Model.Network
import Verif.Model.NetworkFloat
import Verif.Model.Problem
import Verif.Model.Profit
import Verif.Model.ProfitFloat
import Verif.Model.ProfitQFloat
import Verif.Model.Py
import Verif.Model.QmiFloat
import Verif.Model.Quasi
import Verif.Model.QuasiFloat
import Verif.Model.ScalingFloat
import Verif.Model.Sdp
import Verif.Model.SdpFloat
import Verif.Model.Sites
import Verif.Model.Spectral
import Verif.Model.SpectralFact
import Verif.Model.SphereFloat
import Verif.Proofs.AnySpace
import Verif.Proofs.Bernstein
import Verif.Proofs.Bsearch
import Verif.Proofs.BsearchFloat
import Verif.Proofs.Chol
import Verif.Proofs.CholFloat
import Verif.Proofs.CholLoop
import Verif.Proofs.CholSim
import Verif.Proofs.Csd
import Verif.Proofs.Csdigit
import Verif.Proofs.Dc
import Verif.Proofs.Dft
import Verif.Proofs.Ell1dFloat
import Verif.Proofs.EllFloat
import Verif.Proofs.EllFloatCore
import Verif.Proofs.EllFloatPar
import Verif.Proofs.EllFloatParRun
import Verif.Proofs.EllFloatRun
import Verif.Proofs.EllFloatShallow
import Verif.Proofs.EllGeom
import Verif.Proofs.EllOptimal
import Verif.Proofs.EllParallel
import Verif.Proofs.EllRep
import Verif.Proofs.EllScalar
import Verif.Proofs.EllUpdate
import Verif.Proofs.EllVolume
import Verif.Proofs.EllWide
import Verif.Proofs.Feas
import Verif.Proofs.FejerRiesz
import Verif.Proofs.Float
import Verif.Proofs.ForLoop
import Verif.Proofs.GaussKernel
import Verif.Proofs.John
import Verif.Proofs.Lowpass
import Verif.Proofs.LsqFloat
import Verif.Proofs.MatOracle
import Verif.Proofs.MleConvex
import Verif.Proofs.NegCycle
import Verif.Proofs.NegCycleFloat
import Verif.Proofs.NetworkFloat
import Verif.Proofs.ProfitFloat
import Verif.Proofs.Psd
import Verif.Proofs.Q
import Verif.Proofs.ScalingFloat
import Verif.Proofs.Sim
import Verif.Proofs.SimCut
import Verif.Proofs.SpectralFact
import Verif.Props.AdaptorFloat
import Verif.Props.AdaptorSolve
import Verif.Props.Alias
import Verif.Props.Bsearch
import Verif.Props.BsearchFloat
import Verif.Props.Bspline
import Verif.Props.Chol
import Verif.Props.CholFloat
import Verif.Props.CholSqrt
import Verif.Props.Convex
import Verif.Props.Corr
import Verif.Props.CorrBsplineTest
import Verif.Props.CorrFloat
import Verif.Props.CorrTest
import Verif.Props.Csd
import Verif.Props.CsdFixed
import Verif.Props.CsdFloat
import Verif.Props.CsdLowpass
import Verif.Props.CsdLowpassQ
import Verif.Props.CsdMin
import Verif.Props.CsdNumbers
import Verif.Props.Csdigit
import Verif.Props.CsdigitFloat
import Verif.Props.CycleRatio
import Verif.Props.Dc
import Verif.Props.DriverExamples
import Verif.Props.Ell
import Verif.Props.Ell1d
import Verif.Props.Ell1dFloat
import Verif.Props.EllAffine
import Verif.Props.EllComplexity
import Verif.Props.EllDefer
import Verif.Props.EllExamples
import Verif.Props.EllFloat
import Verif.Props.EllFloatAnyCut
import Verif.Props.EllFloatDc
import Verif.Props.EllFloatMore
import Verif.Props.EllFloatNear
import Verif.Props.EllFloatParallel
import Verif.Props.EllFloatRun
import Verif.Props.EllFloatSure
import Verif.Props.EllFloatThin
import Verif.Props.EllHistory
import Verif.Props.EllMem
import Verif.Props.EllMinimal
import Verif.Props.EllMinimalEx
import Verif.Props.EllRaise
import Verif.Props.EllSolve
import Verif.Props.EllTotal
import Verif.Props.EllVolume
import Verif.Props.Example
import Verif.Props.Example2Float
import Verif.Props.Feas
import Verif.Props.Fib
import Verif.Props.Fir
import Verif.Props.FirFloat
import Verif.Props.FirOracle2
import Verif.Props.FirTest
import Verif.Props.FloatRuns
import Verif.Props.HaltonGen
import Verif.Props.Imi
import Verif.Props.KernFloat
import Verif.Props.LevelFloat
import Verif.Props.LmiFloatRun
import Verif.Props.LowDiscr
import Verif.Props.LowDiscrFloat
import Verif.Props.LowDiscrMore
import Verif.Props.Lowpass
import Verif.Props.LowpassFloat
import Verif.Props.LowpassFloatRun
import Verif.Props.LowpassGrid
import Verif.Props.LowpassSolve
import Verif.Props.LpFloat
import Verif.Props.LsqDataFloat
import Verif.Props.LsqFloatRun
import Verif.Props.MatOracle
import Verif.Props.MatOracle2
import Verif.Props.MatOracleFloat
import Verif.Props.Mle
import Verif.Props.MleSolve
import Verif.Props.MonoFloat
import Verif.Props.NegCycle
import Verif.Props.NegCycleFloat
import Verif.Props.Network
import Verif.Props.NetworkFloat
import Verif.Props.NetworkSolve
import Verif.Props.Problem
import Verif.Props.Profit
import Verif.Props.ProfitFloat
import Verif.Props.ProfitFloatRun
import Verif.Props.ProfitQFloat
import Verif.Props.ProfitQTest
import Verif.Props.ProfitTest
import Verif.Props.Q
import Verif.Props.QmiFloat
import Verif.Props.Quasi
import Verif.Props.QuasiFloat
import Verif.Props.RoomFloat
import Verif.Props.ScalingFloatRun
import Verif.Props.ScalingTest
import Verif.Props.Sdp
import Verif.Props.SdpFloat
import Verif.Props.Sites
import Verif.Props.Solve
import Verif.Props.Spectral
import Verif.Props.SpectralFact
import Verif.Props.SpectralFact2
import Verif.Props.SphereFloat
import Verif.Spec.AffineSpec
import Verif.Spec.ConvexSpec
import Verif.Spec.CorrSpec
import Verif.Spec.CsdSpec
import Verif.Spec.DcSpec
import Verif.Spec.Ell1dSpec
import Verif.Spec.EllFloatSpec
import Verif.Spec.EllRunSpec
import Verif.Spec.EllSpec
import Verif.Spec.FeasSpec
import Verif.Spec.FitSpec
import Verif.Spec.FloatSpec
import Verif.Spec.Log
import Verif.Spec.LowpassFloatSpec
import Verif.Spec.LowpassSpec
import Verif.Spec.LsqFloatSpec
import Verif.Spec.MleSpec
import Verif.Spec.NetFloatSpec
import Verif.Spec.NetSpec
import Verif.Spec.PdSpec
import Verif.Spec.ProfitFloatSpec
import Verif.Spec.ProfitRoom
import Verif.Spec.ProfitSpec
import Verif.Spec.QSpec
import Verif.Spec.QuasiSpec
import Verif.Spec.RelErr
import Verif.Spec.ScalingFloatSpec
import Verif.Spec.Sound
