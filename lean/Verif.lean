import Verif.Lemmas.Affine
import Verif.Lemmas.Assign
import Verif.Lemmas.Compound
import Verif.Lemmas.Convert
import Verif.Lemmas.CppType
import Verif.Lemmas.Diff
import Verif.Lemmas.DiffBin
import Verif.Lemmas.DiffBox
import Verif.Lemmas.DiffExp
import Verif.Lemmas.DiffExpr
import Verif.Lemmas.DiffLog
import Verif.Lemmas.DiffMain
import Verif.Lemmas.DiffOps
import Verif.Lemmas.DiffRot
import Verif.Lemmas.DiffUn
import Verif.Lemmas.DynCache
import Verif.Lemmas.DynCompile
import Verif.Lemmas.ElabRegular
import Verif.Lemmas.ExpLog
import Verif.Lemmas.Expression
import Verif.Lemmas.Factor
import Verif.Lemmas.Fill
import Verif.Lemmas.FrameExact
import Verif.Lemmas.FrameJac
import Verif.Lemmas.FrameMeans
import Verif.Lemmas.FrameNames
import Verif.Lemmas.Frames
import Verif.Lemmas.Function
import Verif.Lemmas.Jac
import Verif.Lemmas.Lazy
import Verif.Lemmas.LazyCompound
import Verif.Lemmas.Linear
import Verif.Lemmas.LogEval
import Verif.Lemmas.MapLeaf
import Verif.Lemmas.MatExp
import Verif.Lemmas.Meaning
import Verif.Lemmas.Meta
import Verif.Lemmas.Neutral
import Verif.Lemmas.NeutralBlocked
import Verif.Lemmas.NeutralDiff
import Verif.Lemmas.NeutralExpr
import Verif.Lemmas.NeutralGen
import Verif.Lemmas.NeutralMeans
import Verif.Lemmas.NeutralPair
import Verif.Lemmas.NeutralPlain
import Verif.Lemmas.NeutralSame
import Verif.Lemmas.NumericalRounding
import Verif.Lemmas.PlainNumber
import Verif.Lemmas.Represent
import Verif.Lemmas.Rigid
import Verif.Lemmas.Rotation
import Verif.Lemmas.Rounding
import Verif.Lemmas.RoundingConv
import Verif.Lemmas.RoundingDiv
import Verif.Lemmas.RoundingExp
import Verif.Lemmas.RoundingExpr
import Verif.Lemmas.RoundingJac
import Verif.Lemmas.RoundingJacLoc
import Verif.Lemmas.RoundingJacNorm
import Verif.Lemmas.RoundingJacOutcome
import Verif.Lemmas.RoundingLog
import Verif.Lemmas.RoundingLogRigid
import Verif.Lemmas.RoundingNorm
import Verif.Lemmas.RoundingOps
import Verif.Lemmas.RoundingOutcome
import Verif.Lemmas.RoundingQuat
import Verif.Lemmas.RoundingTwist
import Verif.Lemmas.Singular
import Verif.Lemmas.Sound
import Verif.Lemmas.Storage
import Verif.Lemmas.StorageSafe
import Verif.Lemmas.StorageWf
import Verif.Lemmas.Threads
import Verif.Lemmas.ThreadsJac
import Verif.Lemmas.TwistExp
import Verif.Lemmas.Unique
import Verif.Model.Approx
import Verif.Model.Assign
import Verif.Model.Compound
import Verif.Model.CompoundNumerical
import Verif.Model.Construct
import Verif.Model.CppType
import Verif.Model.CrossMat
import Verif.Model.DynCache
import Verif.Model.DynCompile
import Verif.Model.ExpLog
import Verif.Model.Expr
import Verif.Model.Factor
import Verif.Model.FactorGraph
import Verif.Model.FactorVariable
import Verif.Model.Fill
import Verif.Model.Frames
import Verif.Model.Function
import Verif.Model.Fuzzy
import Verif.Model.Geo
import Verif.Model.Lazy
import Verif.Model.Linear
import Verif.Model.MapLeaf
import Verif.Model.MatrixMap
import Verif.Model.Meta
import Verif.Model.Neutral
import Verif.Model.Noise
import Verif.Model.Num
import Verif.Model.NumericalRounding
import Verif.Model.Ops
import Verif.Model.PlainNumber
import Verif.Model.PrintName
import Verif.Model.Quat
import Verif.Model.Random
import Verif.Model.Rigid
import Verif.Model.Rounding
import Verif.Model.RoundingDiv
import Verif.Model.RoundingJac
import Verif.Model.RoundingLog
import Verif.Model.RoundingLogRigid
import Verif.Model.RoundingTwist
import Verif.Model.Storage
import Verif.Model.Surface
import Verif.Model.Syntax
import Verif.Model.Threads
import Verif.Model.ThreadsJac
import Verif.Model.Vector
import Verif.Props.Approx
import Verif.Props.Assign
import Verif.Props.Chain
import Verif.Props.Compound
import Verif.Props.CompoundNumerical
import Verif.Props.Construct
import Verif.Props.Conversions
import Verif.Props.Derivative
import Verif.Props.DerivativeUser
import Verif.Props.Differentiation
import Verif.Props.DynCache
import Verif.Props.DynCompile
import Verif.Props.Evaluation
import Verif.Props.ExpLog
import Verif.Props.Factor
import Verif.Props.FactorGraph
import Verif.Props.FactorVariable
import Verif.Props.Fill
import Verif.Props.Finite
import Verif.Props.Frames
import Verif.Props.Function
import Verif.Props.Fuzzy
import Verif.Props.Imu
import Verif.Props.JacMap
import Verif.Props.Lazy
import Verif.Props.LazyOps
import Verif.Props.LazyReads
import Verif.Props.Manifold
import Verif.Props.MapLeaf
import Verif.Props.Members
import Verif.Props.Meta
import Verif.Props.Neutral
import Verif.Props.NeutralExists
import Verif.Props.NeutralExp
import Verif.Props.NeutralSame
import Verif.Props.Noise
import Verif.Props.Numerical
import Verif.Props.NumericalRounding
import Verif.Props.PlainNumber
import Verif.Props.PrintName
import Verif.Props.RangeBearing
import Verif.Props.Representation
import Verif.Props.Rigid
import Verif.Props.RigidChain
import Verif.Props.Rotation
import Verif.Props.Rounding
import Verif.Props.RoundingDiv
import Verif.Props.RoundingJac
import Verif.Props.RoundingLog
import Verif.Props.RoundingLogRigid
import Verif.Props.RoundingTwist
import Verif.Props.Special
import Verif.Props.Storage
import Verif.Props.SubExpression
import Verif.Props.Threads
import Verif.Props.ThreadsJac
import Verif.Props.TwistParts
import Verif.Props.Vector
import Verif.Spec.Affine
import Verif.Spec.Assign
import Verif.Spec.Chain
import Verif.Spec.Compound
import Verif.Spec.Construct
import Verif.Spec.CppType
import Verif.Spec.Derivative
import Verif.Spec.DynCache
import Verif.Spec.Expression
import Verif.Spec.Factor
import Verif.Spec.FactorVariable
import Verif.Spec.Fill
import Verif.Spec.Frames
import Verif.Spec.Function
import Verif.Spec.Fuzzy
import Verif.Spec.Geometry
import Verif.Spec.Imu
import Verif.Spec.Kind
import Verif.Spec.Lazy
import Verif.Spec.LazyOps
import Verif.Spec.MapLeaf
import Verif.Spec.Meaning
import Verif.Spec.Meta
import Verif.Spec.Neutral
import Verif.Spec.NumericalRounding
import Verif.Spec.Occurrence
import Verif.Spec.PlainNumber
import Verif.Spec.Regular
import Verif.Spec.Response
import Verif.Spec.RigidChain
import Verif.Spec.Rounding
import Verif.Spec.RoundingDiv
import Verif.Spec.RoundingJac
import Verif.Spec.Singular
import Verif.Spec.Storage
import Verif.Spec.Threads
import Verif.Spec.ThreadsJac
import Verif.Spec.Wrap
import Verif.Spec.Written
