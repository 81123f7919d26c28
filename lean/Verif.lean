import Verif.Props.SurdNew
import Verif.Props.SurdArith
import Verif.Props.SurdEq
import Verif.Props.SurdRound
import Verif.Props.SurdSqrt
import Verif.Props.SurdClass
import Verif.Props.QIntNew
import Verif.Props.QIntArith
import Verif.Props.QIntEq
import Verif.Spec.QIntRing
import Verif.Props.QIntLaws
import Verif.Model.Float32
import Verif.Spec.Float32
import Verif.Lemmas.Float32
import Verif.Props.Float32
import Verif.Props.SurdRoundAll
import Verif.Props.CFNew
import Verif.Props.CFRat
import Verif.Props.CFIter
import Verif.Props.CFShift
import Verif.Props.CFDisplay
import Verif.Props.SurdDisplay
import Verif.Props.CFSurd
import Verif.Props.SurdCF
import Verif.Props.CFArith
import Verif.Props.SurdApprox
import Verif.Props.Homo
import Verif.Props.Simplify
import Verif.Props.Decimals
import Verif.Props.GConvergents
import Verif.Model.Infinite
import Verif.Model.General
import Verif.Model.Symbols
import Verif.Props.GApprox
import Verif.Props.ExpFrac
import Verif.Props.ExpNeg
import Verif.Props.ExpOne
import Verif.Props.Bihomo
import Verif.Props.EFrac
import Verif.Props.PiFrac
import Verif.Props.GammaFrac
import Verif.Props.FixedSurd
import Verif.Props.FixedQInt
import Verif.Props.FixedCF
import Verif.Props.GFixed
import Verif.Props.FixedSurdCF
import Verif.Props.FixedCFSurd
import Verif.Props.FixedSqrt
import Verif.Props.Float
import Verif.Props.FixedHomo
import Verif.Props.FixedSimplify
import Verif.Props.FixedCoeffs
import Verif.Props.FixedGamma
import Verif.Props.FixedConst
import Verif.Props.QIntEuclid
import Verif.Props.DecimalsAll
import Verif.Props.SurdShort
import Verif.Props.CFEq
import Verif.Props.RoundTrip
import Verif.Props.SurdLaws
import Verif.Props.CFLaws
import Verif.Props.GammaValue
import Verif.Props.BlockOps
import Verif.Props.FixedPrim
import Verif.Props.CFRebuild
import Verif.Props.ZeroOne
import Verif.Props.FixedApprox
import Verif.Props.CFBest
import Verif.Props.SqrtPeriod
import Verif.Props.Pell
import Verif.Props.CFLength
import Verif.Props.CFReach
import Verif.Props.Galois
import Verif.Props.SurdPrim
import Verif.Props.SmallNorm
import Verif.Props.HomoSurd
import Verif.Props.HomoFinite
import Verif.Lemmas.HomoFinite
import Verif.Spec.Expansion
import Verif.Props.GFinite
import Verif.Lemmas.GFinite
import Verif.Props.CFArithExact
import Verif.Props.Serret
import Verif.Lemmas.Serret
import Verif.Lemmas.CFRotate
import Verif.Spec.Equivalent
import Verif.Props.CFNewPanic
import Verif.Props.CFSurdExact
import Verif.Props.BlockDigit
import Verif.Props.CFConvExact
import Verif.Props.CFSteps
import Verif.Lemmas.HeadBound
import Verif.Props.FixedQLaws
import Verif.Lemmas.QIntMod
import Verif.Spec.QIntMod
import Verif.Props.FixedSurdLaws
import Verif.Lemmas.FixedComm
import Verif.Props.FixedQComm
import Verif.Lemmas.FixedQComm
import Verif.Props.FixedCFComm
import Verif.Lemmas.FixedCFComm
import Verif.Spec.FixedCFComm
import Verif.Props.SubDiv
import Verif.Props.Formula
import Verif.Lemmas.Formula
import Verif.Spec.Formula
import Verif.Props.CFFormula
import Verif.Spec.CFFormula
import Verif.Props.QFormula
import Verif.Spec.QFormula
import Verif.Props.Gcd
import Verif.Spec.Gcd
import Verif.Props.QFormulaMod
import Verif.Props.Mirror
import Verif.Lemmas.Mirror
import Verif.Spec.Mirror
import Verif.Props.PFormula
import Verif.Spec.PFormula
import Verif.Props.Agree
import Verif.Spec.Agree
import Verif.Props.Rounding
import Verif.Props.StoredForm
import Verif.Props.SurdProg
import Verif.Spec.SurdProg
import Verif.Spec.Hand
import Verif.Props.Hand
import Verif.Props.CFHurwitz
import Verif.Props.PellPow
import Verif.Props.TwoSquares
import Verif.Props.HandFixed
import Verif.Props.Fib
import Verif.Props.Config
import Verif.Props.ConfigCF
import Verif.Props.ConfigFx
import Verif.Props.ComplexOnly
import Verif.Spec.Horner
import Verif.Props.Horner
import Verif.Props.Units
import Verif.Spec.Order
import Verif.Props.Order
import Verif.Props.Divides
import Verif.Spec.Pow
import Verif.Props.Pow
import Verif.Spec.CFPow
import Verif.Props.CFPow
import Verif.Props.CFRecip
import Verif.Props.PowFixed
import Verif.Props.CFRecipReturns
import Verif.Spec.Far
import Verif.Props.SurdSplit
import Verif.Props.CFFar
import Verif.Props.CFPowFar
import Verif.Props.Apart
import Verif.Spec.ExtEuclid
import Verif.Props.ExtEuclid
import Verif.Spec.QIntProg
import Verif.Props.QIntProg
import Verif.Spec.QIntProgFixed
import Verif.Props.QIntProgFixed
import Verif.Props.SurdProgFixed
import Verif.Spec.GIntProg
import Verif.Props.GIntProg
import Verif.Spec.CFProg
import Verif.Props.CFProg
import Verif.Spec.CFProgFixed
import Verif.Props.CFProgFixed
import Verif.Props.CFShiftExact
import Verif.Props.CFProgRange
import Verif.Spec.GIntProgRange
import Verif.Props.GIntProgRange
import Verif.Spec.QIntProgRange
import Verif.Props.QIntProgRange
import Verif.Spec.SurdProgRange
import Verif.Props.SurdProgRange
import Verif.Spec.QIntProgExact
import Verif.Props.QIntProgExact
import Verif.Checks.SurdTests
import Verif.Checks.QIntTests
import Verif.Checks.CFTests
import Verif.Props.CFParse
import Verif.Props.CFNewPeriod
import Verif.Props.ClassExact
