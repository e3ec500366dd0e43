import Verif.Props.Index
import Verif.Props.StateAlgebra
import Verif.Props.StateObj
import Verif.Props.Poly
import Verif.Props.Lcm
import Verif.Props.MatrixSlice
import Verif.Props.Feedback
import Verif.Props.Discrete
import Verif.Props.Hold
import Verif.Props.Sim
import Verif.Props.Convert
import Verif.Props.Transfer
import Verif.Props.TransferObj
import Verif.Props.ToTransfer
import Verif.Props.Mixed
import Verif.Props.DiscAttr
import Verif.Props.Ker
import Verif.Props.Kalman
import Verif.Props.KalmanDecomp
import Verif.Model.Lyap
import Verif.Spec.Lyap
import Verif.Lemmas.LyapBlock
import Verif.Lemmas.LyapMini
import Verif.Lemmas.LyapChain
import Verif.Lemmas.LyapKernel
import Verif.Lemmas.LyapLoop
import Verif.Lemmas.LyapFinal
import Verif.Lemmas.LyapUniq
import Verif.Props.Lyap
import Verif.Model.Hess
import Verif.Spec.Hess
import Verif.Lemmas.Hess
import Verif.Props.Hess
import Verif.Model.Freq
import Verif.Spec.Freq
import Verif.Lemmas.Freq
import Verif.Props.Freq
import Verif.Props.Plot
import Verif.Props.Ackermann
import Verif.Props.Dcgain
import Verif.Model.Stair
import Verif.Spec.Stair
import Verif.Lemmas.Stair
import Verif.Lemmas.StairLoop
import Verif.Props.Stair
import Verif.Model.MinrealTransfer
import Verif.Spec.Minreal
import Verif.Lemmas.MinrealTransfer
import Verif.Props.Minreal
import Verif.Lemmas.StairReach
import Verif.Model.MinrealState
import Verif.Lemmas.Truncate
import Verif.Lemmas.MinrealState
import Verif.Props.MinrealState
import Verif.Model.CtrbIdx
import Verif.Spec.CtrbIdx
import Verif.Lemmas.CtrbIdx
import Verif.Props.CtrbIdx
import Verif.Model.Lqr
import Verif.Spec.Lqr
import Verif.Props.Lqr
import Verif.Lemmas.Decay
import Verif.Model.SysNorm
import Verif.Spec.SysNorm
import Verif.Props.SysNorm
import Verif.Model.RandomState
import Verif.Spec.RandomState
import Verif.Props.RandomState
import Verif.Model.AutoGrid
import Verif.Spec.AutoGrid
import Verif.Props.AutoGrid
import Verif.Model.PairComplex
import Verif.Spec.PairComplex
import Verif.Props.PairComplex
import Verif.Model.Gcd
import Verif.Spec.Gcd
import Verif.Lemmas.Gcd
import Verif.Lemmas.GcdRows
import Verif.Lemmas.GcdTail
import Verif.Lemmas.LuExists
import Verif.Props.Gcd
import Verif.Model.Hinf
import Verif.Spec.Hinf
import Verif.Lemmas.Hinf
import Verif.Props.Hinf
import Verif.Model.CancDist
import Verif.Spec.CancDist
import Verif.Lemmas.VNorm
import Verif.Props.CancDist
import Verif.Props.CancWitness
import Verif.Model.StateDcgain
import Verif.Lemmas.StateDcgain
import Verif.Props.StateDcgain
import Verif.Model.TransZeros
import Verif.Spec.TransZeros
import Verif.Lemmas.TransZeros
import Verif.Lemmas.TransZerosDet
import Verif.Lemmas.TransZerosStep
import Verif.Lemmas.TransZerosLoop
import Verif.Lemmas.TransZerosEnd
import Verif.Lemmas.QzExists
import Verif.Props.TransZeros
import Verif.Props.TransZerosViolated
import Verif.Model.FreqAuto
import Verif.Spec.FreqAuto
import Verif.Lemmas.FreqAuto
import Verif.Props.FreqAuto
import Verif.Props.PoleProps
import Verif.Props.TransferInv
import Verif.Props.KalmanArg
import Verif.Props.TimePlot
import Verif.Props.FreqPlot
import Verif.Model.FeedbackTransfer
import Verif.Spec.FeedbackTransfer
import Verif.Lemmas.FeedbackTransfer
import Verif.Props.FeedbackTransfer
import Verif.Model.DiscTransfer
import Verif.Spec.DiscTransfer
import Verif.Lemmas.DiscTransfer
import Verif.Props.DiscTransfer
import Verif.Spec.Logm
import Verif.Lemmas.LogUniq
import Verif.Lemmas.HoldInverse
import Verif.Props.HoldInverse
import Verif.Model.SimTransfer
import Verif.Spec.SimTransfer
import Verif.Lemmas.Weights
import Verif.Props.SimTransfer
import Verif.Lemmas.StripKrylov
import Verif.Lemmas.HoldMarkov
import Verif.Lemmas.LogExists
import Verif.Lemmas.HoldTransfer
import Verif.Props.HoldTransfer
import Verif.Spec.LqrLoop
import Verif.Lemmas.LqrLoop
import Verif.Props.LqrLoop
import Verif.Model.FreqMin
import Verif.Spec.FreqMin
import Verif.Lemmas.FreqMin
import Verif.Props.FreqMin
import Verif.Lemmas.HessExists
import Verif.Model.TimePlotAny
import Verif.Spec.TimePlotAny
import Verif.Props.TimePlotAny
import Verif.Model.Getters
import Verif.Props.Getters
import Verif.Props.StateInverse
import Verif.Model.Expr
import Verif.Spec.Expr
import Verif.Props.Expr
import Verif.Spec.Coarse
import Verif.Lemmas.Coarse
import Verif.Lemmas.CoarseInt
import Verif.Props.Coarse
import Verif.Model.TExpr
import Verif.Spec.TExpr
import Verif.Lemmas.TExpr
import Verif.Props.TExpr
import Verif.Props.Shapes
import Verif.Spec.Poles
import Verif.Lemmas.Poles
import Verif.Props.Poles
import Verif.Spec.Motion
import Verif.Lemmas.Motion
import Verif.Props.Motion
import Verif.Spec.Blocks
import Verif.Lemmas.Expand
import Verif.Props.Blocks
import Verif.Spec.TBlocks
import Verif.Props.TBlocks
import Verif.Spec.Sine
import Verif.Props.Sine
import Verif.Props.GridRange
import Verif.Lemmas.SchurExists
import Verif.Model.NormTransfer
import Verif.Props.NormTransfer
import Verif.Lemmas.PoleMap
import Verif.Props.PoleMap
import Verif.Spec.LoopPoles
import Verif.Lemmas.LoopDet
import Verif.Props.LoopPoles
import Verif.Props.PoleOps
import Verif.Lemmas.MaxMod
import Verif.Spec.SmallGain
import Verif.Props.SmallGain
import Verif.Spec.Margins
import Verif.Props.Margins
import Verif.Spec.Alias
import Verif.Lemmas.Hautus
import Verif.Props.DiscReach
import Verif.Props.SimConv
import Verif.Props.Energy
import Verif.Props.GainOps
import Verif.Spec.Minimality
import Verif.Lemmas.Minimality
import Verif.Props.Minimality
import Verif.Spec.Bibo
import Verif.Lemmas.Bibo
import Verif.Props.Bibo
import Verif.Lemmas.SisoOrder
import Verif.Props.SisoOrder
import Verif.Props.PoleReps
import Verif.Props.DiscExpr
import Verif.Props.LoopKalman
import Verif.Props.LqrChange
import Verif.Props.NormAxioms
import Verif.Spec.TimeUnits
import Verif.Props.TimeUnits
import Verif.Spec.Duality
import Verif.Lemmas.Duality
import Verif.Props.Duality
import Verif.Props.RespTransfer
import Verif.Spec.LyapTest
import Verif.Props.LyapTest
import Verif.Spec.Separation
import Verif.Props.Separation
import Verif.Props.Placement
import Verif.Spec.Integral
import Verif.Props.Integral
import Verif.Props.Refine
import Verif.Props.ZeroInv
import Verif.Props.ZeroBlock
import Verif.Props.PolyLaws
import Verif.Props.InternalModel
import Verif.Props.Steer
import Verif.Props.UndiscDefined
import Verif.Props.NyquistPoints
import Verif.Spec.BlockLaws
import Verif.Props.BlockLaws
import Verif.Props.MimoAssign
import Verif.Props.Youla
import Verif.Props.Identify
import Verif.Spec.Passive
import Verif.Lemmas.Passive
import Verif.Props.Passive
import Verif.Lemmas.Cayley
import Verif.Props.TustinLqr
import Verif.Lemmas.DiscLimit
import Verif.Props.DiscLimit
import Verif.Lemmas.ZSum
import Verif.Props.ZTransform
import Verif.Props.Spellings
import Verif.Model.Repr
import Verif.Props.Repr
import Verif.Props.SineCont
import Verif.Spec.Near
import Verif.Lemmas.Near
import Verif.Props.Near
import Verif.Props.NearLoop
import Verif.Spec.Positive
import Verif.Lemmas.Positive
import Verif.Props.Positive
import Verif.Props.MulForms
import Verif.Props.LqrOutput
import Verif.Props.SineTransfer
import Verif.Props.Delay
import Verif.Props.Start
import Verif.Spec.Ramp
import Verif.Props.Ramp
import Verif.Props.RampCont
import Verif.Props.RampGain
import Verif.Props.Limits
import Verif.Props.BodeIntegral
import Verif.Props.PoleZero
import Verif.Props.Crossing
import Verif.Props.Poisson
import Verif.Spec.Hidden
import Verif.Props.Hidden
