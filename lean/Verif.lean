import Verif.Linalg.Cholesky
import Verif.Linalg.Gain
import Verif.Linalg.LogDet
import Verif.Linalg.Pinv
import Verif.Linalg.Smooth
import Verif.Linalg.Svd
import Verif.Model.Basic
import Verif.Model.Bierman
import Verif.Model.BiermanDtype
import Verif.Model.Bunch
import Verif.Model.ByteOrder
import Verif.Model.Cholesky
import Verif.Model.CutOff
import Verif.Model.Frontend
import Verif.Model.LinearMethods
import Verif.Model.Machine
import Verif.Model.MachineNaN
import Verif.Model.MachineSqrt
import Verif.Model.MachineUnscented
import Verif.Model.Memory
import Verif.Model.MemoryBierman
import Verif.Model.MemoryCholesky
import Verif.Model.MemorySample
import Verif.Model.MemorySqrtUnscented
import Verif.Model.MemoryUnscented
import Verif.Model.MemoryUnscentedSample
import Verif.Model.Mixture
import Verif.Model.NaN
import Verif.Model.NaNLoglik
import Verif.Model.PyFun
import Verif.Model.Raising
import Verif.Model.RaisingSample
import Verif.Model.Rounded
import Verif.Model.RoundedBierman
import Verif.Model.RoundedCholesky
import Verif.Model.RoundedCholeskyEm
import Verif.Model.RoundedEm
import Verif.Model.RoundedLoglik
import Verif.Model.RoundedSqrtUnscented
import Verif.Model.RoundedUnscented
import Verif.Model.RoundedUpdate
import Verif.Model.Sample
import Verif.Model.SampleCalls
import Verif.Model.Session
import Verif.Model.SqrtUnscented
import Verif.Model.Standard
import Verif.Model.Threads
import Verif.Model.Unscented
import Verif.Model.UnscentedFrontend
import Verif.Model.UpdateShape
import Verif.Proofs.Backwards
import Verif.Proofs.BackwardsCov
import Verif.Proofs.Beside
import Verif.Proofs.Bierman
import Verif.Proofs.BiermanDtype
import Verif.Proofs.BiermanStep
import Verif.Proofs.Bunch
import Verif.Proofs.Causal
import Verif.Proofs.Cholesky
import Verif.Proofs.Cholupdate
import Verif.Proofs.CondGauss
import Verif.Proofs.Consistency
import Verif.Proofs.CutOff
import Verif.Proofs.CutOffMoments
import Verif.Proofs.Density
import Verif.Proofs.Ellipsoid
import Verif.Proofs.EmAscent
import Verif.Proofs.EmCritical
import Verif.Proofs.EmForms
import Verif.Proofs.EmJoint
import Verif.Proofs.EmLimit
import Verif.Proofs.EmLimitPoints
import Verif.Proofs.EmLoop
import Verif.Proofs.EmMax
import Verif.Proofs.EmMonotone
import Verif.Proofs.EmPure
import Verif.Proofs.EmStrict
import Verif.Proofs.EmSymmetry
import Verif.Proofs.Errors
import Verif.Proofs.Expect
import Verif.Proofs.FixedLag
import Verif.Proofs.Forgetting
import Verif.Proofs.Frontend
import Verif.Proofs.Gaps
import Verif.Proofs.Gauss
import Verif.Proofs.Image
import Verif.Proofs.Information
import Verif.Proofs.LeastSquares
import Verif.Proofs.LeaveOneOut
import Verif.Proofs.LeaveOneOutLoglik
import Verif.Proofs.Likelihood
import Verif.Proofs.LinearErrors
import Verif.Proofs.LinearMethods
import Verif.Proofs.Loglik
import Verif.Proofs.Loops
import Verif.Proofs.Machine
import Verif.Proofs.MachineExact
import Verif.Proofs.MachineNaN
import Verif.Proofs.MachineNaNLoglik
import Verif.Proofs.MachineNaNUnscented
import Verif.Proofs.MachineRounded
import Verif.Proofs.MachineSqrt
import Verif.Proofs.MachineSqrtExact
import Verif.Proofs.MachineSqrtOnline
import Verif.Proofs.MachineUnscented
import Verif.Proofs.MachineUnscentedExact
import Verif.Proofs.MemoryBasic
import Verif.Proofs.MemoryBierman
import Verif.Proofs.MemoryBiermanLoop
import Verif.Proofs.MemoryBiermanMethods
import Verif.Proofs.MemoryCholesky
import Verif.Proofs.MemoryCholeskyMethods
import Verif.Proofs.MemoryEm
import Verif.Proofs.MemoryFilter
import Verif.Proofs.MemoryFrames
import Verif.Proofs.MemoryLoglik
import Verif.Proofs.MemoryMethods
import Verif.Proofs.MemoryRefine
import Verif.Proofs.MemoryResults
import Verif.Proofs.MemorySample
import Verif.Proofs.MemorySmooth
import Verif.Proofs.MemorySqrtUnscented
import Verif.Proofs.MemoryUnscented
import Verif.Proofs.MemoryUnscentedFrames
import Verif.Proofs.MemoryUnscentedLoops
import Verif.Proofs.MemoryUnscentedMethods
import Verif.Proofs.MemoryUnscentedSample
import Verif.Proofs.Moments
import Verif.Proofs.NaN
import Verif.Proofs.NaNLoglik
import Verif.Proofs.Near
import Verif.Proofs.NoData
import Verif.Proofs.NoisyRow
import Verif.Proofs.NotFinite
import Verif.Proofs.ParamNaN
import Verif.Proofs.Posterior
import Verif.Proofs.Process
import Verif.Proofs.Pure
import Verif.Proofs.PyFun
import Verif.Proofs.PyFunRest
import Verif.Proofs.Raising
import Verif.Proofs.RaisingSample
import Verif.Proofs.Riccati
import Verif.Proofs.RiccatiReach
import Verif.Proofs.Rounded
import Verif.Proofs.RoundedBierman
import Verif.Proofs.RoundedCholesky
import Verif.Proofs.RoundedCholeskyEm
import Verif.Proofs.RoundedEm
import Verif.Proofs.RoundedLoglik
import Verif.Proofs.RoundedSqrtSmooth
import Verif.Proofs.RoundedSqrtUnscented
import Verif.Proofs.RoundedSteps
import Verif.Proofs.RoundedUdu
import Verif.Proofs.RoundedUniform
import Verif.Proofs.RoundedUniformLoglik
import Verif.Proofs.RoundedUniformSmooth
import Verif.Proofs.RoundedUnscented
import Verif.Proofs.RoundedUpdate
import Verif.Proofs.Rows
import Verif.Proofs.Runs
import Verif.Proofs.SampleCalls
import Verif.Proofs.SecondOrder
import Verif.Proofs.Sensors
import Verif.Proofs.Session
import Verif.Proofs.Sigma
import Verif.Proofs.Smooth
import Verif.Proofs.SmoothMonotone
import Verif.Proofs.Smoothing
import Verif.Proofs.SqrtSmooth
import Verif.Proofs.SqrtSmoothTwo
import Verif.Proofs.SqrtUnscented
import Verif.Proofs.Symmetry
import Verif.Proofs.Threads
import Verif.Proofs.Udu
import Verif.Proofs.Unscented
import Verif.Proofs.UnscentedAccuracy
import Verif.Proofs.UnscentedAccuracyGeneral
import Verif.Proofs.UnscentedExact
import Verif.Proofs.UnscentedFrontend
import Verif.Proofs.UnscentedGeneral
import Verif.Proofs.UnscentedPos
import Verif.Proofs.UnscentedSymmetry
import Verif.Proofs.UnscentedTransform
import Verif.Proofs.Weighted
import Verif.Props.Backwards
import Verif.Props.BackwardsSqrt
import Verif.Props.Beside
import Verif.Props.Bierman
import Verif.Props.BiermanDtype
import Verif.Props.Bunch
import Verif.Props.ByteOrder
import Verif.Props.Cholesky
import Verif.Props.Consistency
import Verif.Props.Corners
import Verif.Props.CutOff
import Verif.Props.Ellipsoid
import Verif.Props.Em
import Verif.Props.EmCritical
import Verif.Props.EmMonotone
import Verif.Props.EmOptimal
import Verif.Props.EmProgress
import Verif.Props.EmSymmetry
import Verif.Props.Errors
import Verif.Props.FixedLag
import Verif.Props.Forgetting
import Verif.Props.Frontend
import Verif.Props.Gaps
import Verif.Props.Image
import Verif.Props.ImageBierman
import Verif.Props.Information
import Verif.Props.Invariance
import Verif.Props.LeastSquares
import Verif.Props.LeaveOneOut
import Verif.Props.LeaveOneOutSqrt
import Verif.Props.Likelihood
import Verif.Props.LinearMethods
import Verif.Props.LoglikVarying
import Verif.Props.Machine
import Verif.Props.MachineNaN
import Verif.Props.MachineNaNLoglik
import Verif.Props.MachineSqrt
import Verif.Props.MachineUnscented
import Verif.Props.Memory
import Verif.Props.MemoryBierman
import Verif.Props.MemoryCholesky
import Verif.Props.MemoryUnscented
import Verif.Props.Mixture
import Verif.Props.NaN
import Verif.Props.NaNLoglik
import Verif.Props.NoData
import Verif.Props.NoisyRow
import Verif.Props.NotFinite
import Verif.Props.OffsetState
import Verif.Props.Optimal
import Verif.Props.ParamNaN
import Verif.Props.Posterior
import Verif.Props.PyFun
import Verif.Props.PyFunRest
import Verif.Props.Raising
import Verif.Props.RaisingSample
import Verif.Props.Reach
import Verif.Props.Regression
import Verif.Props.RobotFilter
import Verif.Props.Rounded
import Verif.Props.RoundedBierman
import Verif.Props.RoundedCholesky
import Verif.Props.RoundedCholeskyEm
import Verif.Props.RoundedEm
import Verif.Props.RoundedLoglik
import Verif.Props.RoundedMeasured
import Verif.Props.RoundedSqrtUnscented
import Verif.Props.RoundedUniform
import Verif.Props.RoundedUnscented
import Verif.Props.RoundedUpdate
import Verif.Props.Runs
import Verif.Props.Sample
import Verif.Props.SampleCalls
import Verif.Props.SampleFilter
import Verif.Props.SecondOrder
import Verif.Props.Sensors
import Verif.Props.SensorsSqrt
import Verif.Props.Session
import Verif.Props.Smooth
import Verif.Props.SmoothMonotone
import Verif.Props.SmoothResume
import Verif.Props.SqrtSmoothTwo
import Verif.Props.SqrtUnscented
import Verif.Props.Stationary
import Verif.Props.Structure
import Verif.Props.Superposition
import Verif.Props.Symmetry
import Verif.Props.Threads
import Verif.Props.UduSymmetry
import Verif.Props.Unscented
import Verif.Props.UnscentedAccuracy
import Verif.Props.UnscentedAccuracyGeneral
import Verif.Props.UnscentedExact
import Verif.Props.UnscentedFrontend
import Verif.Props.UnscentedGeneral
import Verif.Props.UnscentedSymmetry
import Verif.Props.UnscentedTransform
import Verif.Props.UnscentedTyped
import Verif.Props.UpdateShape
import Verif.Spec.Backwards
import Verif.Spec.Beside
import Verif.Spec.Bunch
import Verif.Spec.Consistency
import Verif.Spec.CutOff
import Verif.Spec.Em
import Verif.Spec.EmBounded
import Verif.Spec.EmCurve
import Verif.Spec.EmSymmetry
import Verif.Spec.Errors
import Verif.Spec.FixedLag
import Verif.Spec.Forgetting
import Verif.Spec.Frontend
import Verif.Spec.Gaps
import Verif.Spec.Gauss
import Verif.Spec.Image
import Verif.Spec.Information
import Verif.Spec.Invariance
import Verif.Spec.LeastSquares
import Verif.Spec.LeaveOneOut
import Verif.Spec.LinearMethods
import Verif.Spec.Machine
import Verif.Spec.MachineNaN
import Verif.Spec.MachineSqrt
import Verif.Spec.MachineUnscented
import Verif.Spec.Memory
import Verif.Spec.MemoryUnscented
import Verif.Spec.NaN
import Verif.Spec.NaNLoglik
import Verif.Spec.NoisyRow
import Verif.Spec.NotFinite
import Verif.Spec.OffsetState
import Verif.Spec.ParamNaN
import Verif.Spec.Process
import Verif.Spec.PyFun
import Verif.Spec.Raising
import Verif.Spec.Regression
import Verif.Spec.Rounded
import Verif.Spec.RoundedSqrtUnscented
import Verif.Spec.RoundedUnscented
import Verif.Spec.RoundedUpdate
import Verif.Spec.Runs
import Verif.Spec.Sample
import Verif.Spec.SampleCalls
import Verif.Spec.SecondOrder
import Verif.Spec.Sensors
import Verif.Spec.Session
import Verif.Spec.Smooth
import Verif.Spec.Stationary
import Verif.Spec.Superposition
import Verif.Spec.Symmetry
import Verif.Spec.Threads
import Verif.Spec.Unscented
import Verif.Spec.UnscentedAccuracy
import Verif.Spec.UnscentedAccuracyGeneral
import Verif.Spec.UnscentedExact
import Verif.Spec.UnscentedFrontend
import Verif.Spec.UnscentedGeneral
import Verif.Spec.UnscentedSymmetry
import Verif.Spec.UnscentedTransform
