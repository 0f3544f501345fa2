import Verif.NumPy.Basic
import Verif.Model.Optim
import Verif.Props.Variables
import Verif.Props.Layout
import Verif.Props.Renaming
import Verif.Props.GenOptim
import Verif.Props.Derivatives
import Verif.Props.DerivExample
import Verif.Props.IntC
import Verif.Props.FiniteDiff
import Verif.Props.Utils
import Verif.Props.ArrayCmp
import Verif.Props.Stats
import Verif.Props.SymQuat
import Verif.Props.SymStats
import Verif.Props.SymSDE
import Verif.Props.RK
import Verif.Props.LGL
import Verif.Props.SymCol
import Verif.Props.Problems
import Verif.Props.SymOptim
import Verif.Props.UT
import Verif.Props.UTDiff
import Verif.Props.KalmanLoops
import Verif.Props.KalmanSteps
import Verif.Props.KalmanAfter
import Verif.Props.KalmanBayes
import Verif.Props.KalmanMask
import Verif.Props.KalmanAffine
import Verif.Props.KalmanMerit
import Verif.Props.KalmanGrad
import Verif.Props.KalmanInit
import Verif.Props.Aliasing
import Verif.Spec.SymContract
import Verif.Spec.SymExpr
import Verif.Model.SymCalls
import Verif.Lemmas.SymBuild
import Verif.Lemmas.SymGen
import Verif.Lemmas.SymExpr
import Verif.Props.SymContract
import Verif.Props.SymExpr
import Verif.Spec.Classes
import Verif.Lemmas.Classes
import Verif.Props.Classes
import Verif.Model.SymClasses
import Verif.Spec.Transcription
import Verif.Lemmas.SymClasses
import Verif.Lemmas.Transcription
import Verif.Lemmas.SymInit
import Verif.Lemmas.SymOC
import Verif.Props.TranscriptionOC
import Verif.Spec.SymArith
import Verif.Lemmas.SymArith
import Verif.Props.TranscriptionOCExpr
import Verif.Lemmas.SymJME
import Verif.Lemmas.SymOEM
import Verif.Props.TranscriptionOEM
import Verif.Props.TranscriptionJME
import Verif.Props.TranscriptionOEMExpr
import Verif.Props.TranscriptionJMEExpr
import Verif.Props.SymClosed
import Verif.Props.SymInit
import Verif.Props.SymbolNames
import Verif.Props.Collocation
import Verif.Props.BrysonDenham
import Verif.Props.Examples
import Verif.Props.ExamplesEstimation
import Verif.Lemmas.Noise
import Verif.Props.Noise
import Verif.Lemmas.Gaussian
import Verif.Spec.KalmanPosterior
import Verif.Lemmas.KalmanPosterior
import Verif.Props.KalmanPosterior
import Verif.Spec.Convergence
import Verif.Lemmas.Convergence
import Verif.Props.Convergence
import Verif.Props.ConvergenceOEM
import Verif.Spec.GenSDE
import Verif.Model.GenSDE
import Verif.Lemmas.NormalLaw
import Verif.Props.GenSDE
import Verif.Lemmas.OneStep
import Verif.Props.Moments
import Verif.Model.KalmanBatch
import Verif.Spec.KalmanBatch
import Verif.Lemmas.Stack
import Verif.Lemmas.KalmanBatch
import Verif.Props.KalmanBatch
import Verif.Model.KalmanBatchDiff
import Verif.Lemmas.KalmanBatchDiff
import Verif.Props.KalmanBatchDiff
import Verif.Model.GenCall
import Verif.Props.GenCall
import Verif.Lemmas.UTMoments
import Verif.Props.UTMoments
import Verif.Model.ExamplePhysics
import Verif.Props.ExamplePhysics
import Verif.Props.ExampleFlight
import Verif.Props.HangGlider
import Verif.Model.KalmanHeap
import Verif.Spec.KalmanHeap
import Verif.Lemmas.KalmanHeap
import Verif.Lemmas.KalmanHeapDemo
import Verif.Props.KalmanHeap
import Verif.Spec.Superconvergence
import Verif.Lemmas.Superconvergence
import Verif.Props.Superconvergence
import Verif.Spec.Pade
import Verif.Lemmas.Pade
import Verif.Props.Pade
import Verif.Spec.Dissipative
import Verif.Lemmas.Dissipative
import Verif.Props.Dissipative
import Verif.Lemmas.KalmanSmooth
import Verif.Props.KalmanSmooth
import Verif.Spec.Units
import Verif.Lemmas.KalmanUnits
import Verif.Props.KalmanUnits
import Verif.Spec.TimeReversal
import Verif.Lemmas.TimeReversal
import Verif.Props.TimeReversal
import Verif.Spec.MaximumPrinciple
import Verif.Lemmas.MaximumPrinciple
import Verif.Props.MaximumPrinciple
import Verif.Spec.FiniteDiff
import Verif.Lemmas.FiniteDiff
import Verif.Model.TestOptim
import Verif.Spec.TestOptim
import Verif.Lemmas.TestOptim
import Verif.Props.TestOptim
import Verif.Spec.Coordinates
import Verif.Props.Coordinates
import Verif.Props.Report
import Verif.Model.SymSDEInit
import Verif.Props.SymSDEInit
import Verif.Model.TestKalman
import Verif.Spec.TestKalman
import Verif.Props.TestKalman
import Verif.Props.KalmanSeeded
import Verif.Model.ExampleScripts
import Verif.Spec.ExampleScripts
import Verif.Lemmas.ExampleScripts
import Verif.Lemmas.ExampleScripts2
import Verif.Props.ExampleScripts
import Verif.Spec.Smoothing
import Verif.Lemmas.Smoothing
import Verif.Lemmas.Smoothing2
import Verif.Props.Smoothing
import Verif.Spec.ZeroNoise
import Verif.Lemmas.ZeroNoise
import Verif.Props.ZeroNoise
import Verif.Model.TestKalmanDiff
import Verif.Spec.TestKalmanDiff
import Verif.Lemmas.TestKalmanDiff
import Verif.Lemmas.TestKalmanDiff2
import Verif.Lemmas.TestKalmanFixture
import Verif.Props.TestKalmanDiff
import Verif.Props.TestKalmanFixture
import Verif.Spec.Certainty
import Verif.Lemmas.Certainty
import Verif.Props.Certainty
import Verif.Model.ExampleSim
import Verif.Spec.ExampleSim
import Verif.Lemmas.ExampleSim
import Verif.Props.ExampleSim
import Verif.Spec.Sequential
import Verif.Lemmas.Sequential
import Verif.Props.Sequential
import Verif.Lemmas.Tail
import Verif.Props.Tail
import Verif.Spec.NoisePath
import Verif.Lemmas.NoisePath
import Verif.Props.NoisePath
import Verif.Model.TestModels
import Verif.Spec.TestModels
import Verif.Props.TestModels
import Verif.Model.ExampleModels
import Verif.Spec.ExampleModels
import Verif.Lemmas.ExampleModels
import Verif.Props.ExampleModels
import Verif.Props.ExampleModelsFeasible
import Verif.Model.ExampleHFB
import Verif.Spec.ExampleHFB
import Verif.Props.ExampleHFB
import Verif.Model.ExampleFilter
import Verif.Spec.ExampleFilter
import Verif.Props.ExampleFilter
import Verif.Model.ExamplePem
import Verif.Spec.ExamplePem
import Verif.Lemmas.ExamplePem
import Verif.Props.ExamplePem
import Verif.Model.ExampleAttitude
import Verif.Props.ExampleAttitude
import Verif.Lemmas.SmoothList
import Verif.Lemmas.Jet
import Verif.Props.LGLNorm
import Verif.Props.TestModelsPass
import Verif.Model.ExampleOld
import Verif.Spec.ExampleOld
import Verif.Props.ExampleOld
import Verif.Spec.KalmanLocal
import Verif.Lemmas.KalmanLocal
import Verif.Spec.ExampleLocal
import Verif.Props.ExampleLocal
import Verif.Model.ExampleAttitudeSim
import Verif.Spec.ExampleAttitudeSim
import Verif.Props.ExampleAttitudeSim
import Verif.Model.KalmanShapes
import Verif.Props.KalmanShapes
import Verif.Model.KalmanBatchShapes
import Verif.Props.KalmanBatchShapes
import Verif.Model.ClassOrder
import Verif.Props.ClassOrder
import Verif.Model.GenMeta
import Verif.Props.GenMeta
import Verif.Model.ShapeKinds
import Verif.Props.ShapeKinds
