/-
Model of `QuadraticSurd` (/repo/src/quadratic/surd.rs), values, constructors, arithmetic, rounding.
All citations in this file are to /repo/src/quadratic/surd.rs unless stated otherwise.

Simplifications: `T` is an unbounded integer; references/clones are erased (`recip_ref`, `conj_ref`,
`trunc_ref`, `fract_ref`, `floor_ref` are the same functions as their by-value versions).
-/
import Verif.Model.Basic

namespace NumIrr

/-- `QuadraticSurdCoeffs<T>(a, b, c)` (lines 26-27). -/
structure Coeffs where
  a : Int
  b : Int
  c : Int
  deriving DecidableEq, Repr

/-- `QuadraticSurd<T>` (lines 193-197): the number `(a + b√r)/c`; fields `coeffs.0/1/2` and `discr`. -/
structure Surd where
  a : Int
  b : Int
  c : Int
  r : Int
  deriving DecidableEq, Repr

namespace Coeffs

/-- `Add for QuadraticSurdCoeffs` (lines 41-51). -/
def add (x y : Coeffs) : Coeffs :=
  if x.c = y.c then ⟨x.a + y.a, x.b + y.b, y.c⟩
  else ⟨x.a * y.c + y.a * x.c, x.b * y.c + y.b * x.c, y.c * x.c⟩

/-- `Sub for QuadraticSurdCoeffs` (lines 60-70). -/
def sub (x y : Coeffs) : Coeffs :=
  if x.c = y.c then ⟨x.a - y.a, x.b - y.b, y.c⟩
  else ⟨x.a * y.c - y.a * x.c, x.b * y.c - y.b * x.c, y.c * x.c⟩

/-- `QuadraticOps::mul` (lines 78-82). -/
def mul (x y : Coeffs) (r : Int) : Coeffs :=
  ⟨x.a * y.a + x.b * y.b * r, x.a * y.b + x.b * y.a, x.c * y.c⟩

/-- `QuadraticOps::div` (lines 83-92). -/
def div (x y : Coeffs) (r : Int) : Coeffs :=
  ⟨y.c * (x.a * y.a - x.b * y.b * r), y.c * (x.b * y.a - x.a * y.b),
    x.c * (y.a * y.a - y.b * y.b * r)⟩

/-- `QuadraticOps::conj` (lines 94-96). -/
def conj (x : Coeffs) : Coeffs := ⟨x.a, -x.b, x.c⟩

/-- `QuadraticOps::norm` (lines 98-103). -/
def norm (x : Coeffs) (r : Int) : Res Rat := ratioNew (x.a * x.a - x.b * x.b * r) (x.c * x.c)

/-- `Add<Ratio<T>>` (lines 109-117). -/
def addRat (x : Coeffs) (q : Rat) : Coeffs :=
  if x.c = q.den then ⟨x.a + q.num, x.b, x.c⟩
  else ⟨x.a * q.den + q.num * x.c, x.b * q.den, x.c * q.den⟩

/-- `Sub<Ratio<T>>` (lines 123-131). -/
def subRat (x : Coeffs) (q : Rat) : Coeffs :=
  if x.c = q.den then ⟨x.a - q.num, x.b, x.c⟩
  else ⟨x.a * q.den - q.num * x.c, x.b * q.den, x.c * q.den⟩

/-- `Mul<Ratio<T>>` (lines 136-139). -/
def mulRat (x : Coeffs) (q : Rat) : Coeffs := ⟨x.a * q.num, x.b * q.num, x.c * q.den⟩

/-- `Div<Ratio<T>>` (lines 144-147). -/
def divRat (x : Coeffs) (q : Rat) : Coeffs := ⟨x.a * q.den, x.b * q.den, x.c * q.num⟩

/-- `Add<T>` (lines 152-154). -/
def addInt (x : Coeffs) (k : Int) : Coeffs := ⟨x.a + k * x.c, x.b, x.c⟩

/-- `Sub<T>` (lines 159-161). -/
def subInt (x : Coeffs) (k : Int) : Coeffs := ⟨x.a - k * x.c, x.b, x.c⟩

/-- `Mul<T>` (lines 166-168). -/
def mulInt (x : Coeffs) (k : Int) : Coeffs := ⟨x.a * k, x.b * k, x.c⟩

/-- `Div<T>` (lines 173-175). -/
def divInt (x : Coeffs) (k : Int) : Coeffs := ⟨x.a, x.b, x.c * k⟩

end Coeffs

namespace Surd

/-- the `coeffs` field (surd.rs:194-197) -/
def coeffs (s : Surd) : Coeffs := ⟨s.a, s.b, s.c⟩

/-- `is_rational` (lines 236-238). -/
def isRational (s : Surd) : Bool := s.b = 0 || s.r = 0

/-- `is_integer` (lines 217-219). -/
def isInteger (s : Surd) : Bool := s.c = 1 && s.isRational

/-- `is_gaussint` (lines 224-226). -/
def isGaussint (s : Surd) : Bool := s.c = 1

/-- `is_quadint` (lines 230-232). -/
def isQuadint (s : Surd) : Bool := s.c = 1

/-- `is_complex` (lines 243-245). -/
def isComplex (s : Surd) : Bool := s.r < 0

/-- `is_pure` (lines 249-251). -/
def isPure (s : Surd) : Bool := s.a = 0 && s.b ≠ 0

/-- `panic_if_complex` (lines 255-261). -/
def panicIfComplex (cfg : Cfg) (s : Surd) : Res Unit :=
  if cfg.complex = true ∧ s.r < 0 then .error .complexUnsupported else .ok ()

/-- `From<T>` (lines 268-273). -/
def ofInt (t : Int) : Surd := ⟨t, 0, 1, 0⟩

/-- `From<Ratio<T>>` (lines 280-286). -/
def ofRat (t : Rat) : Surd := ⟨t.num, 0, t.den, 0⟩

/-- first part of `reduce` (lines 299-310): fold a perfect-square root into the coefficients.
The negative branch (lines 302-304) is transcribed although it cannot be reached. -/
def reduceSquare (s : Surd) : Surd :=
  let root := isqrt (s.r.natAbs : Int)
  if root * root = s.r then
    if s.r < 0 then ⟨s.a, s.b * root, s.c, -1⟩
    else ⟨s.a + s.b * root, 0, s.c, 0⟩
  else s

/-- rational branch of `reduce` (lines 313-319). -/
def reduceRat (s : Surd) : Surd :=
  let g := igcd s.a s.c
  ⟨s.a.tdiv g, 0, s.c.tdiv g, 0⟩

/-- the square-factor step of the irrational branch of `reduce` (lines 322-330);
returns the new surd and the new `g_ac`. -/
def reduceFactor (s : Surd) : Surd × Int :=
  let gac := igcd s.a s.c
  let gacr := igcd (gac * gac) s.r
  let groot := isqrt gacr
  if groot * groot = gacr then
    (⟨s.a.tdiv groot, s.b, s.c.tdiv groot, s.r.tdiv gacr⟩, gac.tdiv groot)
  else (s, gac)

/-- irrational branch of `reduce` (lines 321-335). -/
def reduceIrr (s : Surd) : Surd :=
  let t := reduceFactor s
  let g := igcd t.2 t.1.b
  ⟨t.1.a.tdiv g, t.1.b.tdiv g, t.1.c.tdiv g, t.1.r⟩

/-- last part of `reduce` (lines 338-343). -/
def reduceSign (s : Surd) : Surd :=
  if s.c < 0 then ⟨0 - s.a, 0 - s.b, 0 - s.c, s.r⟩ else s

/-- `reduce` (lines 294-344).  The gcds divided by are non-zero because `c ≠ 0`. -/
def reduce (s : Surd) : Res Surd :=
  if s.c = 0 then .error .denomZero
  else
    let s := reduceSquare s
    let s := if s.b = 0 ∨ s.r = 0 then reduceRat s else reduceIrr s
    .ok (reduceSign s)

/-- `reduce_root_hinted` (lines 347-370). -/
def reduceRootHinted (s : Surd) (hint : Int) : Surd :=
  let hint : Int := (hint.natAbs : Int)
  if hint = 0 ∨ hint = 1 ∨ hint < 0 then s
  else
    let quo := s.r.tdiv hint
    let rem := s.r.tmod hint
    if rem = 0 then
      let root := isqrt hint
      if root * root = hint then
        let g := igcd (igcd root s.a) s.c
        ⟨s.a.tdiv g, (s.b * root).tdiv g, s.c.tdiv g, quo⟩
      else s
    else s

/-- `new` (lines 377-386). -/
def new (cfg : Cfg) (a b c r : Int) : Res Surd :=
  if cfg.complex = false ∧ r < 0 then .error .negRoot
  else reduce ⟨a, b, c, r⟩

/-- `from_coeffs` (lines 389-398). -/
def fromCoeffs (cfg : Cfg) (x : Coeffs) (r : Int) : Res Surd :=
  if cfg.complex = false ∧ r < 0 then .error .negRoot
  else reduce ⟨x.a, x.b, x.c, r⟩

/-- `from_rationals` (lines 405-419). -/
def fromRationals (cfg : Cfg) (a b r : Rat) : Res Surd :=
  if cfg.complex = false ∧ r < 0 then .error .negRoot
  else
    let surdR := r.num * r.den
    let newBDenom : Int := b.den * r.den
    let surdA := a.num * newBDenom
    let surdB := b.num * a.den
    let surdC := a.den * newBDenom
    reduce ⟨surdA, surdB, surdC, surdR⟩

/-- `from_equation` (lines 425-445). -/
def fromEquation (cfg : Cfg) (a b c : Rat) : Res (Option Surd) :=
  if a = 0 then
    if b = 0 then .ok none
    else .ok (some (ofRat (-c / b)))
  else
    let delta := b * b - 4 * a * c
    if cfg.complex = false ∧ delta < 0 then .ok none
    else do
      let aa := 2 * a
      let s ← fromRationals cfg (-b * aa⁻¹) aa⁻¹ delta
      return some s

/-- `recip` (lines 449-454). -/
def recip (cfg : Cfg) (s : Surd) : Res Surd :=
  new cfg (-(s.c * s.a)) (s.c * s.b) (s.b * s.b * s.r - s.a * s.a) s.r

/-- `conj` (lines 467-472). -/
def conj (s : Surd) : Surd := ⟨s.coeffs.conj.a, s.coeffs.conj.b, s.coeffs.conj.c, s.r⟩

/-- `Neg` (lines 1257-1259). -/
def neg (s : Surd) : Surd := ⟨-s.a, -s.b, s.c, s.r⟩

/-- `trunc` (lines 485-496). -/
def trunc (cfg : Cfg) (s : Surd) : Res Surd :=
  if s.r < 0 then do
    let q ← sqrtR (s.b * s.b * -s.r)
    let br := s.b.sign * q
    let x ← divR s.a s.c
    let y ← divR br s.c
    fromCoeffs cfg ⟨x, y, 1⟩ (-1)
  else do
    let q ← sqrtR (s.b * s.b * s.r)
    let br := s.b.sign * q
    let x ← divR (s.a + br) s.c
    return ofInt x

/-- `numer` (lines 522-529). -/
def numer (s : Surd) : Surd := ⟨s.a, s.b, 1, s.r⟩

/-- `denom` (lines 533-535). -/
def denom (s : Surd) : Surd := ofInt s.c

/-- `to_integer` (lines 542-550). -/
def toInteger (cfg : Cfg) (s : Surd) : Res (Approx Int) := do
  panicIfComplex cfg s
  if s.isInteger then return .exact s.a
  else
    let t ← trunc cfg s
    return .approximated t.a

/-- `to_rational` (lines 583-594).  The two components of the `Ratio::new_raw` are kept as a pair
because the fraction built here is not necessarily in lowest terms. -/
def toRational (cfg : Cfg) (s : Surd) : Res (Approx (Int × Int)) := do
  panicIfComplex cfg s
  if s.r = 0 then return .exact (s.a, s.c)
  else
    let q ← sqrtR (s.b * s.b * s.r)
    return .approximated (s.a + q, s.c)

/-- `floor` (lines 600-615). -/
def floor (cfg : Cfg) (s : Surd) : Res Surd := do
  panicIfComplex cfg s
  let br ← sqrtR (s.b * s.b * s.r)
  let num := if 0 ≤ s.b then s.a + br else s.a - br - 1
  let num := if 0 ≤ num then num else num - s.c + 1
  let x ← divR num s.c
  return ofInt x

/-- `is_positive` (lines 635-654). -/
def isPositive (cfg : Cfg) (s : Surd) : Res Bool := do
  panicIfComplex cfg s
  return (
    if s.b = 0 then decide (0 < s.a)
    else if 0 < s.b then
      if 0 < s.a then true else decide (s.a * s.a < s.b * s.b * s.r)
    else
      if ¬ 0 < s.a then false else decide (s.a * s.a > s.b * s.b * s.r))

/-- `is_negative` (lines 660-679). -/
def isNegative (cfg : Cfg) (s : Surd) : Res Bool := do
  panicIfComplex cfg s
  return (
    if s.b = 0 then decide (s.a < 0)
    else if s.b < 0 then
      if s.a < 0 then true else decide (s.a * s.a < s.b * s.b * s.r)
    else
      if ¬ s.a < 0 then false else decide (s.a * s.a > s.b * s.b * s.r))

/-- `PartialEq::eq` (lines 686-705). -/
def eq (x y : Surd) : Bool :=
  if x.r = y.r then decide (x.a = y.a ∧ x.b = y.b ∧ x.c = y.c)
  else if x.r = 0 ∨ y.r = 0 then false
  else if x.a * y.c ≠ y.a * x.c then false
  else decide (x.b * x.b * x.r * y.c * y.c = y.b * y.b * y.r * x.c * x.c)

/-- `reduce_bin_op` (lines 1049-1105; both `cfg` variants). -/
def reduceBinOp (cfg : Cfg) (x y : Surd) : Res (Option (Surd × Surd)) :=
  let fin (p : Surd × Surd) : Option (Surd × Surd) := if p.1.r = p.2.r then some p else none
  if cfg.complex then
    if (decide (x.r < 0)) ^^ (decide (y.r < 0)) then .ok none
    else if x.r.natAbs > y.r.natAbs then do
      let hint ← divR x.r y.r
      return fin (x.reduceRootHinted hint, y)
    else if y.r.natAbs > x.r.natAbs then do
      let hint ← divR y.r x.r
      return fin (x, y.reduceRootHinted hint)
    else return fin (x, y)
  else if cfg.debug = true ∧ (x.r = 0 ∨ y.r = 0) then .error .debugAssert
  else if x.r > y.r then do
    let hint ← divR x.r y.r
    return fin (x.reduceRootHinted hint, y)
  else if y.r > x.r then do
    let hint ← divR y.r x.r
    return fin (x, y.reduceRootHinted hint)
  else return fin (x, y)

/-- `reduce_bin_op_unwrap` (lines 1108-1116). -/
def reduceBinOpUnwrap (cfg : Cfg) (x y : Surd) : Res (Surd × Surd) := do
  match ← reduceBinOp cfg x y with
  | some p => return p
  | none => .error .incompatible

/-- `Add<T>` (macro lines 1126-1128, instance 1133). -/
def addInt (cfg : Cfg) (s : Surd) (k : Int) : Res Surd := fromCoeffs cfg (s.coeffs.addInt k) s.r
/-- `Add<Ratio<T>>` (lines 1126-1128, 1134). -/
def addRat (cfg : Cfg) (s : Surd) (q : Rat) : Res Surd := fromCoeffs cfg (s.coeffs.addRat q) s.r
/-- `Sub<T>` (lines 1126-1128, 1135). -/
def subInt (cfg : Cfg) (s : Surd) (k : Int) : Res Surd := fromCoeffs cfg (s.coeffs.subInt k) s.r
/-- `Sub<Ratio<T>>` (lines 1126-1128, 1136). -/
def subRat (cfg : Cfg) (s : Surd) (q : Rat) : Res Surd := fromCoeffs cfg (s.coeffs.subRat q) s.r
/-- `Mul<T>` (lines 1126-1128, 1137). -/
def mulInt (cfg : Cfg) (s : Surd) (k : Int) : Res Surd := fromCoeffs cfg (s.coeffs.mulInt k) s.r
/-- `Mul<Ratio<T>>` (lines 1126-1128, 1138). -/
def mulRat (cfg : Cfg) (s : Surd) (q : Rat) : Res Surd := fromCoeffs cfg (s.coeffs.mulRat q) s.r
/-- `Div<T>` (lines 1126-1128, 1139). -/
def divInt (cfg : Cfg) (s : Surd) (k : Int) : Res Surd := fromCoeffs cfg (s.coeffs.divInt k) s.r
/-- `Div<Ratio<T>>` (lines 1126-1128, 1140). -/
def divRat (cfg : Cfg) (s : Surd) (q : Rat) : Res Surd := fromCoeffs cfg (s.coeffs.divRat q) s.r

/-- `Add` (lines 1148-1160). -/
def add (cfg : Cfg) (x y : Surd) : Res Surd :=
  if y.isRational then do
    let q ← ratioNew y.a y.c
    addRat cfg x q
  else if x.isRational then do
    let q ← ratioNew x.a x.c
    addRat cfg y q
  else do
    let p ← reduceBinOpUnwrap cfg x y
    fromCoeffs cfg (p.1.coeffs.add p.2.coeffs) p.1.r

/-- `Sub` (lines 1168-1180). -/
def sub (cfg : Cfg) (x y : Surd) : Res Surd :=
  if y.isRational then do
    let q ← ratioNew y.a y.c
    subRat cfg x q
  else if x.isRational then do
    let q ← ratioNew x.a x.c
    let d ← subRat cfg y q
    return d.neg
  else do
    let p ← reduceBinOpUnwrap cfg x y
    fromCoeffs cfg (p.1.coeffs.sub p.2.coeffs) p.1.r

/-- `Mul` (lines 1189-1214). -/
def mul (cfg : Cfg) (x y : Surd) : Res Surd :=
  if y.isRational then do
    let q ← ratioNew y.a y.c
    mulRat cfg x q
  else if x.isRational then do
    let q ← ratioNew x.a x.c
    mulRat cfg y q
  else if x.isPure && y.isPure then
    let gcd := igcd x.r y.r
    let discr := (x.r.tdiv gcd) * (y.r.tdiv gcd)
    new cfg 0 (x.b * y.b * gcd) (x.c * y.c) discr
  else do
    let p ← reduceBinOpUnwrap cfg x y
    fromCoeffs cfg (p.1.coeffs.mul p.2.coeffs p.1.r) p.1.r

/-- `Div` (lines 1223-1248). -/
def div (cfg : Cfg) (x y : Surd) : Res Surd :=
  if y.isRational then do
    let q ← ratioNew y.a y.c
    divRat cfg x q
  else if x.isRational then do
    let q ← ratioNew x.a x.c
    let d ← divRat cfg y q
    recip cfg d
  else if x.isPure && y.isPure then
    let gcd := igcd x.r y.r
    let ld := x.r.tdiv gcd
    let rd := y.r.tdiv gcd
    new cfg 0 (x.b * y.c) (x.c * y.b * rd) (ld * rd)
  else do
    let p ← reduceBinOpUnwrap cfg x y
    fromCoeffs cfg (p.1.coeffs.div p.2.coeffs p.1.r) p.1.r

/-- `fract` (lines 509-512). -/
def fract (cfg : Cfg) (s : Surd) : Res Surd := do
  let t ← trunc cfg s
  sub cfg s t

/-- `Zero::is_zero` (lines 1274-1276). -/
def isZero (s : Surd) : Bool := s.a = 0 && s.b = 0

/-- `One::is_one` (lines 1291-1293). -/
def isOne (s : Surd) : Bool := s.a = 1 && s.b = 0 && s.c = 1

/-- `Zero::zero` (lines 1267-1272). -/
def zero : Surd := ⟨0, 0, 1, 0⟩

/-- `One::one` (lines 1284-1289). -/
def one : Surd := ⟨1, 0, 1, 0⟩

end Surd
end NumIrr
