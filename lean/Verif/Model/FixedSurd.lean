/-
Model of `QuadraticSurd` over fixed-width integers (/repo/src/quadratic/surd.rs), operator by operator, with the
overflow behaviour of `Verif.Model.Fixed`.  All citations in this file are to /repo/src/quadratic/surd.rs.

Every arithmetic operator of the source is one line of a `do` block, in the order of the source.  Comparisons, clones and
moves do not overflow and stay as they are.  The functions that only inspect fields (`is_rational`, …) are those of
`Verif.Model.Surd`.
-/
import Verif.Model.Fixed
import Verif.Model.Surd

namespace NumIrr
namespace Fx

/-! ### Coefficients -/

/-- `Add for QuadraticSurdCoeffs` (lines 41-51). -/
def coeffsAdd (x : Fx) (l r : Coeffs) : Res Coeffs :=
  if l.c = r.c then do
    let a ← x.add l.a r.a
    let b ← x.add l.b r.b
    return ⟨a, b, r.c⟩
  else do
    let t1 ← x.mul l.a r.c
    let t2 ← x.mul r.a l.c
    let a ← x.add t1 t2
    let t3 ← x.mul l.b r.c
    let t4 ← x.mul r.b l.c
    let b ← x.add t3 t4
    let c ← x.mul r.c l.c
    return ⟨a, b, c⟩

/-- `Sub for QuadraticSurdCoeffs` (lines 60-70). -/
def coeffsSub (x : Fx) (l r : Coeffs) : Res Coeffs :=
  if l.c = r.c then do
    let a ← x.sub l.a r.a
    let b ← x.sub l.b r.b
    return ⟨a, b, r.c⟩
  else do
    let t1 ← x.mul l.a r.c
    let t2 ← x.mul r.a l.c
    let a ← x.sub t1 t2
    let t3 ← x.mul l.b r.c
    let t4 ← x.mul r.b l.c
    let b ← x.sub t3 t4
    let c ← x.mul r.c l.c
    return ⟨a, b, c⟩

/-- `QuadraticOps::mul` (lines 78-82). -/
def coeffsMul (x : Fx) (l r : Coeffs) (discr : Int) : Res Coeffs := do
  let t1 ← x.mul l.a r.a
  let t2 ← x.mul l.b r.b
  let t3 ← x.mul t2 discr
  let a ← x.add t1 t3
  let t4 ← x.mul l.a r.b
  let t5 ← x.mul l.b r.a
  let b ← x.add t4 t5
  let c ← x.mul l.c r.c
  return ⟨a, b, c⟩

/-- `QuadraticOps::div` (lines 83-92). -/
def coeffsDiv (x : Fx) (l r : Coeffs) (discr : Int) : Res Coeffs := do
  let t1 ← x.mul r.a r.a
  let t2 ← x.mul r.b r.b
  let t3 ← x.mul t2 discr
  let t4 ← x.sub t1 t3
  let c ← x.mul l.c t4
  let t5 ← x.mul l.a r.a
  let t6 ← x.mul l.b r.b
  let t7 ← x.mul t6 discr
  let t8 ← x.sub t5 t7
  let a ← x.mul r.c t8
  let t9 ← x.mul l.b r.a
  let t10 ← x.mul l.a r.b
  let t11 ← x.sub t9 t10
  let b ← x.mul r.c t11
  return ⟨a, b, c⟩

/-- `Add<Ratio<T>>` (lines 109-117). -/
def coeffsAddRat (x : Fx) (l : Coeffs) (q : Rt) : Res Coeffs :=
  if l.c = q.den then do
    let a ← x.add l.a q.num
    return ⟨a, l.b, l.c⟩
  else do
    let t1 ← x.mul l.a q.den
    let t2 ← x.mul q.num l.c
    let a ← x.add t1 t2
    let b ← x.mul l.b q.den
    let c ← x.mul l.c q.den
    return ⟨a, b, c⟩

/-- `Sub<Ratio<T>>` (lines 123-131). -/
def coeffsSubRat (x : Fx) (l : Coeffs) (q : Rt) : Res Coeffs :=
  if l.c = q.den then do
    let a ← x.sub l.a q.num
    return ⟨a, l.b, l.c⟩
  else do
    let t1 ← x.mul l.a q.den
    let t2 ← x.mul q.num l.c
    let a ← x.sub t1 t2
    let b ← x.mul l.b q.den
    let c ← x.mul l.c q.den
    return ⟨a, b, c⟩

/-- `Mul<Ratio<T>>` (lines 136-139). -/
def coeffsMulRat (x : Fx) (l : Coeffs) (q : Rt) : Res Coeffs := do
  let a ← x.mul l.a q.num
  let b ← x.mul l.b q.num
  let c ← x.mul l.c q.den
  return ⟨a, b, c⟩

/-- `Div<Ratio<T>>` (lines 144-147). -/
def coeffsDivRat (x : Fx) (l : Coeffs) (q : Rt) : Res Coeffs := do
  let a ← x.mul l.a q.den
  let b ← x.mul l.b q.den
  let c ← x.mul l.c q.num
  return ⟨a, b, c⟩

/-- `Add<T>` (lines 152-154). -/
def coeffsAddInt (x : Fx) (l : Coeffs) (k : Int) : Res Coeffs := do
  let t ← x.mul k l.c
  let a ← x.add l.a t
  return ⟨a, l.b, l.c⟩

/-- `Sub<T>` (lines 159-161). -/
def coeffsSubInt (x : Fx) (l : Coeffs) (k : Int) : Res Coeffs := do
  let t ← x.mul k l.c
  let a ← x.sub l.a t
  return ⟨a, l.b, l.c⟩

/-- `Mul<T>` (lines 166-168). -/
def coeffsMulInt (x : Fx) (l : Coeffs) (k : Int) : Res Coeffs := do
  let a ← x.mul l.a k
  let b ← x.mul l.b k
  return ⟨a, b, l.c⟩

/-- `Div<T>` (lines 173-175). -/
def coeffsDivInt (x : Fx) (l : Coeffs) (k : Int) : Res Coeffs := do
  let c ← x.mul l.c k
  return ⟨l.a, l.b, c⟩

/-! ### Normalisation -/

/-- first part of `reduce` (lines 299-310). -/
def reduceSquare (x : Fx) (s : Surd) : Res Surd := do
  let m ← x.abs s.r
  let root ← sqrtR m
  let sq ← x.mul root root
  if sq = s.r then
    if s.r < 0 then do
      let b ← x.mul s.b root
      let r ← x.neg 1
      return ⟨s.a, b, s.c, r⟩
    else do
      let t ← x.mul s.b root
      let a ← x.add s.a t
      return ⟨a, 0, s.c, 0⟩
  else return s

/-- rational branch of `reduce` (lines 313-319). -/
def reduceRat (x : Fx) (s : Surd) : Res Surd := do
  let g ← x.gcd s.a s.c
  let a ← x.div s.a g
  let c ← x.div s.c g
  return ⟨a, 0, c, 0⟩

/-- the square-factor step of the irrational branch (lines 322-330). -/
def reduceFactor (x : Fx) (s : Surd) : Res (Surd × Int) := do
  let gac ← x.gcd s.a s.c
  let gac2 ← x.mul gac gac
  let gacr ← x.gcd gac2 s.r
  let groot ← sqrtR gacr
  let sq ← x.mul groot groot
  if sq = gacr then do
    let r ← x.div s.r gacr
    let a ← x.div s.a groot
    let c ← x.div s.c groot
    let g ← x.div gac groot
    return (⟨a, s.b, c, r⟩, g)
  else return (s, gac)

/-- irrational branch of `reduce` (lines 321-335). -/
def reduceIrr (x : Fx) (s : Surd) : Res Surd := do
  let t ← x.reduceFactor s
  let g ← x.gcd t.2 t.1.b
  let a ← x.div t.1.a g
  let b ← x.div t.1.b g
  let c ← x.div t.1.c g
  return ⟨a, b, c, t.1.r⟩

/-- last part of `reduce` (lines 338-343). -/
def reduceSign (x : Fx) (s : Surd) : Res Surd :=
  if s.c < 0 then do
    let a ← x.sub 0 s.a
    let b ← x.sub 0 s.b
    let c ← x.sub 0 s.c
    return ⟨a, b, c, s.r⟩
  else return s

/-- `reduce` (lines 294-344). -/
def reduce (x : Fx) (s : Surd) : Res Surd :=
  if s.c = 0 then .error .denomZero
  else do
    let s ← x.reduceSquare s
    let s ← (if s.b = 0 ∨ s.r = 0 then x.reduceRat s else x.reduceIrr s)
    x.reduceSign s

/-- `reduce_root_hinted` (lines 347-370). -/
def reduceRootHinted (x : Fx) (s : Surd) (hint : Int) : Res Surd := do
  let hint ← x.abs hint
  if hint = 0 ∨ hint = 1 ∨ hint < 0 then return s
  else do
    let quo ← x.div s.r hint
    let rem ← x.rem s.r hint
    if rem = 0 then do
      let root ← sqrtR hint
      let sq ← x.mul root root
      if sq = hint then do
        let g1 ← x.gcd root s.a
        let g ← x.gcd g1 s.c
        let a ← x.div s.a g
        let t ← x.mul s.b root
        let b ← x.div t g
        let c ← x.div s.c g
        return ⟨a, b, c, quo⟩
      else return s
    else return s

/-- `new` (lines 377-386). -/
def surdNew (x : Fx) (cfg : Cfg) (a b c r : Int) : Res Surd :=
  if cfg.complex = false ∧ r < 0 then .error .negRoot else x.reduce ⟨a, b, c, r⟩

/-- `from_coeffs` (lines 389-398). -/
def fromCoeffs (x : Fx) (cfg : Cfg) (l : Coeffs) (r : Int) : Res Surd :=
  if cfg.complex = false ∧ r < 0 then .error .negRoot else x.reduce ⟨l.a, l.b, l.c, r⟩

/-- `from_rationals` (lines 405-419). -/
def fromRationals (x : Fx) (cfg : Cfg) (a b r : Rt) : Res Surd :=
  if cfg.complex = false ∧ r.num < 0 then .error .negRoot
  else do
    let sr ← x.mul r.num r.den
    let nb ← x.mul b.den r.den
    let sa ← x.mul a.num nb
    let sb ← x.mul b.num a.den
    let sc ← x.mul a.den nb
    x.reduce ⟨sa, sb, sc, sr⟩

/-- `FromSqrt<T>` (lines 1389-1398), the successful case. -/
def fromSqrtInt (x : Fx) (cfg : Cfg) (t : Int) : Res (Option Surd) :=
  if cfg.complex = false ∧ t < 0 then .ok none
  else do
    let s ← x.surdNew cfg 0 1 1 t
    return some s

/-! ### Unary operations -/

/-- `recip` (lines 449-454). -/
def recip (x : Fx) (cfg : Cfg) (s : Surd) : Res Surd := do
  let aa ← x.mul s.a s.a
  let bb ← x.mul s.b s.b
  let t1 ← x.mul s.c s.a
  let a ← x.neg t1
  let b ← x.mul s.c s.b
  let t2 ← x.mul bb s.r
  let c ← x.sub t2 aa
  x.surdNew cfg a b c s.r

/-- `conj` (lines 467-472). -/
def conj (x : Fx) (s : Surd) : Res Surd := do
  let b ← x.neg s.b
  return ⟨s.a, b, s.c, s.r⟩

/-- `Neg` (lines 1257-1259). -/
def surdNeg (x : Fx) (s : Surd) : Res Surd := do
  let a ← x.neg s.a
  let b ← x.neg s.b
  return ⟨a, b, s.c, s.r⟩

/-- `trunc` (lines 485-496). -/
def trunc (x : Fx) (cfg : Cfg) (s : Surd) : Res Surd :=
  if s.r < 0 then do
    let t1 ← x.mul s.b s.b
    let t2 ← x.neg s.r
    let t3 ← x.mul t1 t2
    let q ← sqrtR t3
    let br ← x.mul s.b.sign q
    let u ← x.div s.a s.c
    let v ← x.div br s.c
    let m ← x.neg 1
    x.fromCoeffs cfg ⟨u, v, 1⟩ m
  else do
    let t1 ← x.mul s.b s.b
    let t2 ← x.mul t1 s.r
    let q ← sqrtR t2
    let br ← x.mul s.b.sign q
    let t3 ← x.add s.a br
    let u ← x.div t3 s.c
    return Surd.ofInt u

/-- `to_integer` (lines 542-550). -/
def toInteger (x : Fx) (cfg : Cfg) (s : Surd) : Res (Approx Int) := do
  s.panicIfComplex cfg
  if s.isInteger then return .exact s.a
  else
    let t ← x.trunc cfg s
    return .approximated t.a

/-- `to_rational` (lines 583-594). -/
def toRational (x : Fx) (cfg : Cfg) (s : Surd) : Res (Approx (Int × Int)) := do
  s.panicIfComplex cfg
  if s.r = 0 then return .exact (s.a, s.c)
  else do
    let t1 ← x.mul s.b s.b
    let t2 ← x.mul t1 s.r
    let q ← sqrtR t2
    let n ← x.add s.a q
    return .approximated (n, s.c)

/-- `floor` (lines 600-615). -/
def floor (x : Fx) (cfg : Cfg) (s : Surd) : Res Surd := do
  s.panicIfComplex cfg
  let t1 ← x.mul s.b s.b
  let t2 ← x.mul t1 s.r
  let br ← sqrtR t2
  let num ← (if 0 ≤ s.b then x.add s.a br
    else do
      let t ← x.sub s.a br
      x.sub t 1)
  let num ← (if 0 ≤ num then (return num)
    else do
      let t ← x.sub num s.c
      x.add t 1)
  let q ← x.div num s.c
  return Surd.ofInt q

/-- the comparison of `a²` with `b²r` in the sign predicates (lines 644, 651, 669, 676) -/
def cmpSquares (x : Fx) (s : Surd) (less : Bool) : Res Bool := do
  let t1 ← x.mul s.a s.a
  let t2 ← x.mul s.b s.b
  let t3 ← x.mul t2 s.r
  return (if less then decide (t1 < t3) else decide (t1 > t3))

/-- `is_positive` (lines 635-654). -/
def isPositive (x : Fx) (cfg : Cfg) (s : Surd) : Res Bool := do
  s.panicIfComplex cfg
  if s.b = 0 then return decide (0 < s.a)
  else if 0 < s.b then
    if 0 < s.a then return true else x.cmpSquares s true
  else
    if ¬ 0 < s.a then return false else x.cmpSquares s false

/-- `is_negative` (lines 660-679). -/
def isNegative (x : Fx) (cfg : Cfg) (s : Surd) : Res Bool := do
  s.panicIfComplex cfg
  if s.b = 0 then return decide (s.a < 0)
  else if s.b < 0 then
    if s.a < 0 then return true else x.cmpSquares s true
  else
    if ¬ s.a < 0 then return false else x.cmpSquares s false

/-- `PartialEq::eq` (lines 686-705). -/
def eq (x : Fx) (l r : Surd) : Res Bool :=
  if l.r = r.r then return decide (l.a = r.a ∧ l.b = r.b ∧ l.c = r.c)
  else if l.r = 0 ∨ r.r = 0 then return false
  else do
    let t1 ← x.mul l.a r.c
    let t2 ← x.mul r.a l.c
    if t1 ≠ t2 then return false
    else do
      let u1 ← x.mul l.b l.b
      let u2 ← x.mul u1 l.r
      let u3 ← x.mul u2 r.c
      let u4 ← x.mul u3 r.c
      let v1 ← x.mul r.b r.b
      let v2 ← x.mul v1 r.r
      let v3 ← x.mul v2 l.c
      let v4 ← x.mul v3 l.c
      return decide (u4 = v4)

/-! ### Binary operations -/

/-- the last test of `reduce_bin_op` (lines 1070-1074, 1100-1104) -/
def sameRoot (p : Surd × Surd) : Option (Surd × Surd) := if p.1.r = p.2.r then some p else none

/-- `reduce_bin_op` (lines 1049-1105; both `cfg` variants). -/
def reduceBinOp (x : Fx) (cfg : Cfg) (l r : Surd) : Res (Option (Surd × Surd)) :=
  if cfg.complex then
    if (decide (l.r < 0)) ^^ (decide (r.r < 0)) then .ok none
    else do
      let al ← x.abs l.r
      let ar ← x.abs r.r
      if al > ar then do
        let hint ← x.div l.r r.r
        let l' ← x.reduceRootHinted l hint
        return sameRoot (l', r)
      else do
        let ar ← x.abs r.r
        let al ← x.abs l.r
        if ar > al then do
          let hint ← x.div r.r l.r
          let r' ← x.reduceRootHinted r hint
          return sameRoot (l, r')
        else return sameRoot (l, r)
  else if cfg.debug = true ∧ (l.r = 0 ∨ r.r = 0) then .error .debugAssert
  else if l.r > r.r then do
    let hint ← x.div l.r r.r
    let l' ← x.reduceRootHinted l hint
    return sameRoot (l', r)
  else if r.r > l.r then do
    let hint ← x.div r.r l.r
    let r' ← x.reduceRootHinted r hint
    return sameRoot (l, r')
  else return sameRoot (l, r)

/-- `reduce_bin_op_unwrap` (lines 1108-1116). -/
def reduceBinOpUnwrap (x : Fx) (cfg : Cfg) (l r : Surd) : Res (Surd × Surd) := do
  match ← x.reduceBinOp cfg l r with
  | some p => return p
  | none => .error .incompatible

/-- an operation on the coefficients followed by `from_coeffs` (macro lines 1126-1128). -/
def forward (x : Fx) (cfg : Cfg) (s : Surd) (op : Res Coeffs) : Res Surd := do
  let l ← op
  x.fromCoeffs cfg l s.r

/-- `Add<T>` (lines 1126-1128, 1133). -/
def surdAddInt (x : Fx) (cfg : Cfg) (s : Surd) (k : Int) : Res Surd := x.forward cfg s (x.coeffsAddInt s.coeffs k)
/-- `Add<Ratio<T>>` (line 1134). -/
def surdAddRat (x : Fx) (cfg : Cfg) (s : Surd) (q : Rt) : Res Surd := x.forward cfg s (x.coeffsAddRat s.coeffs q)
/-- `Sub<T>` (line 1135). -/
def surdSubInt (x : Fx) (cfg : Cfg) (s : Surd) (k : Int) : Res Surd := x.forward cfg s (x.coeffsSubInt s.coeffs k)
/-- `Sub<Ratio<T>>` (line 1136). -/
def surdSubRat (x : Fx) (cfg : Cfg) (s : Surd) (q : Rt) : Res Surd := x.forward cfg s (x.coeffsSubRat s.coeffs q)
/-- `Mul<T>` (line 1137). -/
def surdMulInt (x : Fx) (cfg : Cfg) (s : Surd) (k : Int) : Res Surd := x.forward cfg s (x.coeffsMulInt s.coeffs k)
/-- `Mul<Ratio<T>>` (line 1138). -/
def surdMulRat (x : Fx) (cfg : Cfg) (s : Surd) (q : Rt) : Res Surd := x.forward cfg s (x.coeffsMulRat s.coeffs q)
/-- `Div<T>` (line 1139). -/
def surdDivInt (x : Fx) (cfg : Cfg) (s : Surd) (k : Int) : Res Surd := x.forward cfg s (x.coeffsDivInt s.coeffs k)
/-- `Div<Ratio<T>>` (line 1140). -/
def surdDivRat (x : Fx) (cfg : Cfg) (s : Surd) (q : Rt) : Res Surd := x.forward cfg s (x.coeffsDivRat s.coeffs q)

/-- `Add` (lines 1148-1160). -/
def surdAdd (x : Fx) (cfg : Cfg) (l r : Surd) : Res Surd :=
  if r.isRational then do
    let q ← x.ratio r.a r.c
    x.surdAddRat cfg l q
  else if l.isRational then do
    let q ← x.ratio l.a l.c
    x.surdAddRat cfg r q
  else do
    let p ← x.reduceBinOpUnwrap cfg l r
    x.forward cfg p.1 (x.coeffsAdd p.1.coeffs p.2.coeffs)

/-- `Sub` (lines 1168-1180). -/
def surdSub (x : Fx) (cfg : Cfg) (l r : Surd) : Res Surd :=
  if r.isRational then do
    let q ← x.ratio r.a r.c
    x.surdSubRat cfg l q
  else if l.isRational then do
    let q ← x.ratio l.a l.c
    let d ← x.surdSubRat cfg r q
    x.surdNeg d
  else do
    let p ← x.reduceBinOpUnwrap cfg l r
    x.forward cfg p.1 (x.coeffsSub p.1.coeffs p.2.coeffs)

/-- `Mul` (lines 1189-1214). -/
def surdMul (x : Fx) (cfg : Cfg) (l r : Surd) : Res Surd :=
  if r.isRational then do
    let q ← x.ratio r.a r.c
    x.surdMulRat cfg l q
  else if l.isRational then do
    let q ← x.ratio l.a l.c
    x.surdMulRat cfg r q
  else if l.isPure && r.isPure then do
    let g ← x.gcd l.r r.r
    let t1 ← x.div l.r g
    let t2 ← x.div r.r g
    let discr ← x.mul t1 t2
    let t3 ← x.mul l.b r.b
    let b ← x.mul t3 g
    let c ← x.mul l.c r.c
    x.surdNew cfg 0 b c discr
  else do
    let p ← x.reduceBinOpUnwrap cfg l r
    x.forward cfg p.1 (x.coeffsMul p.1.coeffs p.2.coeffs p.1.r)

/-- `Div` (lines 1223-1248). -/
def surdDiv (x : Fx) (cfg : Cfg) (l r : Surd) : Res Surd :=
  if r.isRational then do
    let q ← x.ratio r.a r.c
    x.surdDivRat cfg l q
  else if l.isRational then do
    let q ← x.ratio l.a l.c
    let d ← x.surdDivRat cfg r q
    x.recip cfg d
  else if l.isPure && r.isPure then do
    let g ← x.gcd l.r r.r
    let ld ← x.div l.r g
    let rd ← x.div r.r g
    let b ← x.mul l.b r.c
    let t1 ← x.mul l.c r.b
    let c ← x.mul t1 rd
    let discr ← x.mul ld rd
    x.surdNew cfg 0 b c discr
  else do
    let p ← x.reduceBinOpUnwrap cfg l r
    x.forward cfg p.1 (x.coeffsDiv p.1.coeffs p.2.coeffs p.1.r)

/-- `fract` (lines 509-512). -/
def fract (x : Fx) (cfg : Cfg) (s : Surd) : Res Surd := do
  let t ← x.trunc cfg s
  x.surdSub cfg s t

end Fx
end NumIrr
