import Verif.Props.PID
import Verif.Props.Time
import Verif.Props.EKF
import Verif.Props.EKFStepper
import Verif.Props.OCPTest
import Verif.Props.QP
import Verif.Props.QPVerdicts
import Verif.Props.QPReuse
import Verif.Props.Mesh
import Verif.Props.MeshNodes
import Verif.Props.MeshPoly
import Verif.Props.Sparse
import Verif.Props.MeshFn
import Verif.Props.MeshDyn
import Verif.Props.MeshFnExamples
import Verif.Props.OCPNLP
import Verif.Props.OCPNLPExamples
import Verif.Props.OCPNLPSol
import Verif.Props.OCPQP
import Verif.Props.OCPQPCost
import Verif.Props.OCPQPExamples
import Verif.Props.MPC
import Verif.Props.MPCWeights
import Verif.Props.MPCRun
import Verif.Props.MPCRel
import Verif.Props.MPCCopy
import Verif.Props.MPCVec
import Verif.Props.MPCExamples
import Verif.Props.MPCLieExamples
import Verif.Model.MPCSolver
import Verif.Spec.MPCSolver
import Verif.Proofs.MPCPattern
import Verif.Proofs.MPCSolver
import Verif.Props.MPCSolver
import Verif.Props.MPCOnDesired
import Verif.Props.MPCSolverExamples
import Verif.Props.QPZero
import Verif.Props.ASIF
import Verif.Props.ASIFSens
import Verif.Spec.ASIFLie
import Verif.Props.ASIFLie
import Verif.Props.ASIFSO3
import Verif.Props.ASIFPass
import Verif.Props.ASIFExamples
import Verif.Props.OSQP
import Verif.Props.Ipopt
import Verif.Props.IpoptOCP
import Verif.Model.Lie
import Verif.Spec.Lie
import Verif.Proofs.Lie
import Verif.Model.Flatten
import Verif.Spec.Flatten
import Verif.Proofs.FlattenMat
import Verif.Proofs.FlattenChain
import Verif.Proofs.FlattenLie
import Verif.Props.Flatten
import Verif.Props.LieExamples
import Verif.Props.LieGroups
import Verif.Props.LieLinear
import Verif.Props.LieClassical
import Verif.Props.FlattenSeries
import Verif.Spec.FlattenDeriv
import Verif.Proofs.FlattenInner
import Verif.Proofs.FlattenObj
import Verif.Props.FlattenDeriv
import Verif.Proofs.FlattenDyn
import Verif.Proofs.FlattenDynD
import Verif.Props.FlattenDyn
import Verif.Proofs.LieSeries
import Verif.Props.FlattenExact
import Verif.Props.FlattenExamples
import Verif.Proofs.PowSeries
import Verif.Proofs.FlattenTail
import Verif.Props.FlattenTail
import Verif.Props.FlattenSO3
import Verif.Proofs.QPConv
import Verif.Props.QPConv
import Verif.Props.QPConvReal
import Verif.Proofs.Displacement
import Verif.Proofs.QPAlways
import Verif.Props.QPAlways
import Verif.Proofs.LieZero
import Verif.Model.OCPQPLie
import Verif.Proofs.OCPQPRaw
import Verif.Proofs.OCPQPLie
import Verif.Spec.OCPQPLie
import Verif.Props.OCPQPLie
import Verif.Proofs.LieSecond
import Verif.Props.OCPQPLieCost
import Verif.Props.OCPQPLieExamples
import Verif.Proofs.PatternQP
import Verif.Spec.Collocated
import Verif.Props.Collocated
import Verif.Props.CollocatedExamples
import Verif.Proofs.LGR
import Verif.Props.MeshReal
import Verif.Model.QPRound
import Verif.Spec.QPRound
import Verif.Proofs.QPRound
import Verif.Props.QPRound
import Verif.Proofs.QPFloat
import Verif.Props.QPRoundExamples
import Verif.Model.QPAlias
import Verif.Props.QPAlias
import Verif.Model.EKFRound
import Verif.Spec.EKFRound
import Verif.Proofs.EKFRound
import Verif.Props.EKFRound
import Verif.Props.QPEquilibrate
import Verif.Spec.LQ
import Verif.Props.LQ
import Verif.Props.LQSolve
import Verif.Props.QPUpper
import Verif.Props.LQNever
import Verif.Model.DoubleInt
import Verif.Props.DoubleInt
import Verif.Props.DoubleIntFeas
import Verif.Props.QPPolish
import Verif.Proofs.Farkas
import Verif.Proofs.FrankWolfe
import Verif.Props.QPDuality
import Verif.Model.ASIFRound
import Verif.Spec.ASIFRound
import Verif.Proofs.ASIFRound
import Verif.Props.ASIFRound
import Verif.Model.MeshRefine
import Verif.Spec.MeshRefine
import Verif.Spec.MeshLoop
import Verif.Proofs.MeshTransfer
import Verif.Proofs.MeshWarm
import Verif.Proofs.MeshRefine
import Verif.Props.MeshTransfer
import Verif.Props.MeshRefine
import Verif.Props.MeshLoop
import Verif.Props.ASIFRelax
import Verif.Model.ASIFDouble
import Verif.Props.ASIFDouble
import Verif.Spec.Costate
import Verif.Proofs.Costate
import Verif.Proofs.CostateGrad
import Verif.Props.Costate
import Verif.Props.CostateExamples
import Verif.Spec.MPCAlways
import Verif.Proofs.MPCFuel
import Verif.Props.MPCAlways
import Verif.Props.MPCAlwaysExamples
import Verif.Proofs.Hoffman
import Verif.Proofs.KKTBound
import Verif.Proofs.QPFlat
import Verif.Props.QPErrorBound
import Verif.Props.QPThreshold
import Verif.Props.QPThresholdExamples
import Verif.Proofs.QPRelabel
import Verif.Props.QPRelabel
import Verif.Model.MeshRound
import Verif.Spec.MeshRound
import Verif.Proofs.MeshRound
import Verif.Props.MeshRound
import Verif.Props.MPCErrorExamples
import Verif.Model.OCPQPRecord
import Verif.Proofs.OCPNLPSample
import Verif.Props.OCPQPRecord
import Verif.Spec.Frame
import Verif.Proofs.Frame
import Verif.Props.Frame
import Verif.Spec.MPCFrame
import Verif.Proofs.MPCFrame
import Verif.Props.MPCFrame
import Verif.Spec.EKFStat
import Verif.Proofs.EKFStat
import Verif.Props.EKFStat
import Verif.Model.MPCDouble
import Verif.Proofs.MeshSlopeBound
import Verif.Proofs.MPCRows
import Verif.Props.QPSquare
import Verif.Props.MPCDouble
import Verif.Props.MPCDoubleExamples
import Verif.Model.SE2Ocp
import Verif.Spec.SE2Ocp
import Verif.Props.SE2Ocp
import Verif.Props.SE2OcpExamples
import Verif.Model.PIDSe2
import Verif.Props.PIDSe2
import Verif.Proofs.PIDSe2Lyap
import Verif.Proofs.PIDSe2Step
import Verif.Props.PIDSe2Stable
import Verif.Props.PIDSe2Examples
import Verif.Proofs.Collocation
import Verif.Spec.MPCSolvable
import Verif.Props.MPCSolvable
import Verif.Props.MPCSolvableExamples
import Verif.Proofs.LieGlobal
import Verif.Model.Vehicle
import Verif.Spec.Vehicle
import Verif.Props.ASIFNear
import Verif.Props.Vehicle
import Verif.Props.VehicleMPC
import Verif.Props.QPSoft
import Verif.Props.ASIFAlways
import Verif.Props.VehicleFilter
import Verif.Props.VehicleExamples
import Verif.Spec.ASIFDoubleRun
import Verif.Proofs.ASIFDoubleSim
import Verif.Props.ASIFDoubleRun
import Verif.Props.ASIFDoubleRunExamples
import Verif.Proofs.ASIFDoubleTol
import Verif.Proofs.ASIFDoubleLow
import Verif.Props.ASIFDoubleDefault
import Verif.Props.ASIFDoubleDefaultExamples
import Verif.Model.SE2QP
import Verif.Model.SE2NLP
import Verif.Spec.SE2NLP
import Verif.Proofs.SE2NLP
import Verif.Props.SE2NLP
import Verif.Props.SE2NLPExamples
import Verif.Spec.SE2QP
import Verif.Proofs.SE2QP
import Verif.Props.QPZeroRow
import Verif.Props.SE2QP
import Verif.Props.SE2QPMain
import Verif.Props.SE2QPExamples
import Verif.Model.DoubleNLP
import Verif.Spec.DoubleNLP
import Verif.Proofs.DoubleNLP
import Verif.Props.DoubleNLP
import Verif.Props.DoubleNLPExamples
import Verif.Model.Snippets
import Verif.Spec.Snippets
import Verif.Props.Snippets
import Verif.Props.SnippetsExamples
import Verif.Props.QPIndefinite
import Verif.Props.SnippetsQP
import Verif.Props.QPFactor
import Verif.Model.Bench
import Verif.Spec.Bench
import Verif.Props.Bench
import Verif.Props.BenchExamples
import Verif.Spec.QPRoundInf
import Verif.Props.QPRoundInf
import Verif.Props.QPRoundInfExamples
import Verif.Model.PIDRound
import Verif.Spec.PIDRound
import Verif.Props.PIDRound
import Verif.Props.PIDRoundExamples
import Verif.Model.TimeRound
import Verif.Spec.TimeRound
import Verif.Props.TimeRound
import Verif.Spec.NLPTol
import Verif.Props.NLPTol
import Verif.Spec.OCPQPTol
import Verif.Props.OCPQPTol
import Verif.Props.OCPQPTolExamples
import Verif.Spec.OCPQPLieTol
import Verif.Props.OCPQPLieTol
import Verif.Props.OCPQPLieTolExamples
import Verif.Spec.MPCTol
import Verif.Props.MPCTol
import Verif.Props.MPCTolExamples
import Verif.Spec.ASIFTol
import Verif.Props.ASIFTol
import Verif.Props.ASIFTolExamples
import Verif.Spec.EKFRepeat
import Verif.Props.EKFRepeat
import Verif.Props.EKFRepeatExamples
import Verif.Spec.EKFInfo
import Verif.Props.EKFInfo
import Verif.Props.EKFMeanSquare
import Verif.Spec.PIDSteady
import Verif.Props.PIDSteady
import Verif.Spec.EKFFlow
import Verif.Props.EKFFlow
import Verif.Spec.ASIFFlow
import Verif.Props.ASIFFlow
import Verif.Spec.PIDTrack
import Verif.Props.PIDTrack
import Verif.Props.ASIFInvariant
import Verif.Spec.PIDSampled
import Verif.Props.PIDSampled
import Verif.Props.ASIFSampled
import Verif.Spec.EKFBalance
import Verif.Props.EKFBalance
import Verif.Spec.PIDOffset
import Verif.Props.PIDOffset
import Verif.Spec.EKFForget
import Verif.Props.EKFForget
import Verif.Props.PIDReject
