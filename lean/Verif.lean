import Verif.Model.Base
import Verif.Model.Slice
import Verif.Model.Element
import Verif.Model.Bitwise
import Verif.Lemmas.DivHalf
import Verif.Lemmas.Val
import Verif.Lemmas.AddSub
import Verif.Lemmas.Shift
import Verif.Lemmas.Mul
import Verif.Lemmas.CmpBits
import Verif.Lemmas.MulFlag
import Verif.Lemmas.Widening
import Verif.Props.Element
import Verif.Lemmas.BitAccess
import Verif.Lemmas.Bitwise
import Verif.Lemmas.Div
import Verif.Lemmas.ElementDiv
import Verif.Lemmas.Conv
import Verif.Props.Bitwise
import Verif.Model.UInt
import Verif.Model.IInt
import Verif.Lemmas.UInt
import Verif.Lemmas.Digits
import Verif.Spec.Signed
import Verif.Lemmas.IInt
import Verif.Props.UInt
import Verif.Props.IInt
import Verif.Model.Intern
import Verif.Lemmas.Intern
import Verif.Props.Intern
import Verif.Model.Linked
import Verif.Lemmas.Linked
import Verif.Props.Linked
import Verif.Model.InternConc
import Verif.Lemmas.InternConc
import Verif.Props.InternConc
import Verif.Model.BigInt
import Verif.Spec.BigInt
import Verif.Spec.Text
import Verif.Lemmas.BigInt
import Verif.Lemmas.BigIntOps
import Verif.Lemmas.BigIntSigned
import Verif.Lemmas.BigIntText
import Verif.Props.BigInt
import Verif.Model.BigIntHandle
import Verif.Lemmas.BigIntHandle
import Verif.Lemmas.BigIntWorld
import Verif.Props.BigIntHandle
import Verif.Model.Prim
import Verif.Lemmas.Prim
import Verif.Props.Prim
import Verif.Model.Fixed
import Verif.Model.Rat
import Verif.Spec.Real
import Verif.Lemmas.Fixed
import Verif.Lemmas.Rat
import Verif.Props.Fixed
import Verif.Props.Rat
import Verif.Model.StaticIter
import Verif.Spec.StaticIter
import Verif.Lemmas.StaticIter
import Verif.Props.StaticIter
import Verif.Model.Complex
import Verif.Props.Complex
import Verif.Model.Vector
import Verif.Props.Vector
import Verif.Model.Matrix
import Verif.Spec.Matrix
import Verif.Lemmas.Gauss
import Verif.Lemmas.Matrix
import Verif.Props.Matrix
import Verif.Props.DynMatrix
import Verif.Model.BiVec
import Verif.Props.BiVec
import Verif.Lemmas.BigIntTrunc
import Verif.Props.IBits
import Verif.Props.BigIntMore
import Verif.Props.Signs
import Verif.Props.Posit
import Verif.Props.FixedText
import Verif.Props.FixedTextExact
import Verif.Props.FixedInts
import Verif.Props.FixedIntsExact
import Verif.Props.FixedBig
import Verif.Model.Approx
import Verif.Lemmas.Approx
import Verif.Props.Approx
import Verif.Model.LinkedIter
import Verif.Props.LinkedIter
import Verif.Props.LinkedElems
import Verif.Props.LinkedSend
import Verif.Props.LinkedWeak
import Verif.Props.InternWeak
import Verif.Model.BigIntMixed
import Verif.Props.BigIntLaws
import Verif.Props.DivExact
import Verif.Props.DivBits
import Verif.Props.MulExact
import Verif.Spec.Order
import Verif.Lemmas.Order
import Verif.Props.Order
import Verif.Props.IntExact
import Verif.Spec.Euclid
import Verif.Props.RatExact
import Verif.Props.RatRelease
import Verif.Props.BigIntExact
import Verif.Props.ShiftExact
import Verif.Props.MoreExact
import Verif.Props.FixedExact
import Verif.Props.StaticIterExact
import Verif.Props.MatrixExact
import Verif.Props.DynMatrixExact
import Verif.Props.AccessExact
import Verif.Props.PrimExact
import Verif.Props.PositExact
import Verif.Props.Access
import Verif.Props.Profile
import Verif.Model.PrimBytes
import Verif.Props.PrimBytes
import Verif.Props.PrimIdentity
import Verif.Spec.Programs
import Verif.Lemmas.Programs
import Verif.Props.Programs
import Verif.UnitTests.Bits
import Verif.UnitTests.Ints
import Verif.UnitTests.Others
import Verif.Model.Checked
import Verif.Spec.Checked
import Verif.Lemmas.Checked
import Verif.Props.CompoundInts
import Verif.Lemmas.InternMemory
import Verif.Props.InternMemory
import Verif.Props.InternShared
import Verif.Props.InternMeet
import Verif.Props.InternIds
import Verif.Props.InternIdsTurns
import Verif.Props.InternIdsGrow
import Verif.Model.InternCapacity
import Verif.Props.InternCapacity
import Verif.Model.InternCount
import Verif.Props.InternCount
import Verif.Spec.RealPrograms
import Verif.Props.RealPrograms
import Verif.Model.Float
import Verif.Spec.Float
import Verif.Lemmas.Float
import Verif.Lemmas.FloatSum
import Verif.Props.Float
import Verif.Props.FloatDiv
import Verif.Props.FloatDivUnder
import Verif.Props.FloatDet
import Verif.Props.FloatTraits
import Verif.Props.FloatSpecial
import Verif.Props.FloatSqrt
import Verif.Model.CheckedNum
import Verif.Lemmas.Compound
import Verif.Spec.CompoundNums
import Verif.Props.CompoundNums
import Verif.Props.CompoundBytes
import Verif.Props.CompoundBig
import Verif.Props.Unfinished
import Verif.Props.CompoundFixed
import Verif.Props.FloatElim
import Verif.Props.FloatNan
import Verif.Props.FloatRoots
import Verif.Model.Rand
import Verif.Props.Rand
import Verif.Model.BigIntConc
import Verif.Lemmas.BigIntConc
import Verif.Props.BigIntConc
import Verif.Props.StaticMatrix
import Verif.Model.Nested
import Verif.Props.Nested
import Verif.Spec.Elimination
import Verif.Lemmas.GaussExact
import Verif.Props.FloatExact
import Verif.Spec.FloatFactors
import Verif.Lemmas.GaussError
import Verif.Props.FloatBackward
import Verif.Props.ElementDivGeneral
import Verif.Props.StaticDrop
import Verif.Props.IntLaws
import Verif.Props.IntLawsMore
import Verif.Lemmas.FloatNested
import Verif.Props.FloatNested
import Verif.Model.InternRef
import Verif.Props.InternRef
import Verif.Props.InternRefExact
import Verif.Props.InternOverflow
import Verif.Props.ElementLonger
import Verif.Props.IntSigns
import Verif.Props.RatText
import Verif.Props.StaticCodegen
import Verif.Props.ListProgress
import Verif.Props.InternProgress
import Verif.Props.Container
import Verif.Props.BigIntOwn
import Verif.Props.NegZero
import Verif.Props.Fmt
import Verif.Props.FmtDebug
import Verif.Props.FmtDebugHex
import Verif.Props.FmtDebugBlock
import Verif.Props.Equality
import Verif.Props.Default
import Verif.Props.FloatAbs
import Verif.Props.InternAny
import Verif.Props.LinkedDrop
import Verif.Props.LinkedSteps
import Verif.Props.InternSteps
import Verif.Props.InternClock
import Verif.Props.InternTurns
import Verif.Props.LinkedClock
import Verif.Props.InternProg
import Verif.Props.BigIntThreads
import Verif.Props.MatrixRank
import Verif.Props.FloatDistance
import Verif.Props.FloatLaws
import Verif.Props.DropIn
import Verif.Props.DropInExact
import Verif.Props.FloatMono
import Verif.Props.FloatDetError
import Verif.Props.FloatRem
import Verif.Props.FloatSign
import Verif.Props.BigIntWord64
import Verif.Props.BigIntWordExact
import Verif.Model.UIntPtr
import Verif.Lemmas.UIntPtr
import Verif.Props.UIntPtr
import Verif.Props.InternPush
import Verif.Props.ApproxWord
import Verif.Props.LinkedPush
