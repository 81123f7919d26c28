/-
Model of `QuadraticInt` and `GaussianInt` (/repo/src/quadratic/integer.rs).
All citations in this file are to /repo/src/quadratic/integer.rs unless stated otherwise.

Simplifications: `T` is an unbounded integer; references/clones are erased.
-/
import Verif.Model.Surd

namespace NumIrr

/-- `mod4d2` (lines 15-37). -/
def mod4d2 (v : Int) : Int :=
  let m := v.tmod 4
  if m = 0 then -1
  else if v < 0 then
    let m2 := (4 + m).tdiv 2
    if m2 = 1 then 1 else 0
  else
    let m2 := m.tdiv 2
    if m2 = 1 then 1 else 0

/-- `div_rem_round` (lines 41-49). -/
def divRemRound (x y : Int) : Res (Int × Int) :=
  let offset := (y.natAbs : Int).tdiv 2 * x.sign
  if y = 0 then .error .divZero
  else .ok ((x + offset).tdiv y, (x + offset).tmod y - offset)

/-- `QuadraticIntCoeffs<T>(a, b)` (lines 59-60). -/
structure QCoeffs where
  a : Int
  b : Int
  deriving DecidableEq, Repr

/-- `QuadraticInt<T>` (lines 236-240): `a + bω` with `coeffs = (a, b)`, `discr = d`. -/
structure QInt where
  a : Int
  b : Int
  d : Int
  deriving DecidableEq, Repr

namespace QCoeffs

/-- `Add<T>` (lines 68-74). -/
def addInt (x : QCoeffs) (k : Int) : QCoeffs := ⟨x.a + k, x.b⟩
/-- `Add` (lines 75-81). -/
def add (x y : QCoeffs) : QCoeffs := ⟨x.a + y.a, x.b + y.b⟩
/-- `Sub<T>` (lines 83-89). -/
def subInt (x : QCoeffs) (k : Int) : QCoeffs := ⟨x.a - k, x.b⟩
/-- `Sub` (lines 90-96). -/
def sub (x y : QCoeffs) : QCoeffs := ⟨x.a - y.a, x.b - y.b⟩
/-- `Mul<T>` (lines 98-104). -/
def mulInt (x : QCoeffs) (k : Int) : QCoeffs := ⟨x.a * k, x.b * k⟩

/-- `Div<T>` (lines 106-115). -/
def divInt (x : QCoeffs) (k : Int) : Res QCoeffs := do
  let p ← divRemRound x.a k
  let q ← divRemRound x.b k
  return ⟨p.1, q.1⟩

/-- `Rem<T>` (lines 116-125). -/
def remInt (x : QCoeffs) (k : Int) : Res QCoeffs := do
  let p ← divRemRound x.a k
  let q ← divRemRound x.b k
  return ⟨p.2, q.2⟩

/-- `norm_ref` (lines 132-147). -/
def norm (x : QCoeffs) (d : Int) : Res Int :=
  if d = 0 then .ok (x.a * x.a)
  else match mod4d2 d with
    | 0 => .ok (x.a * x.a + x.a * x.b + x.b * x.b * (1 - d).tdiv 4)
    | 1 => .ok (x.a * x.a - x.b * x.b * d)
    | _ => .error .unreachable

/-- `QuadraticOps::mul` (lines 187-200). -/
def mul (x y : QCoeffs) (d : Int) : Res QCoeffs :=
  match mod4d2 d with
  | 0 => .ok ⟨x.a * y.a + x.b * y.b * (d - 1).tdiv 4, x.a * y.b + x.b * (y.a + y.b)⟩
  | 1 => .ok ⟨x.a * y.a + x.b * y.b * d, x.a * y.b + x.b * y.a⟩
  | _ => .error .unreachable

/-- the numerator `self * conj(rhs)` computed at the start of `div_rem` (lines 155-171). -/
def divNumer (x y : QCoeffs) (d : Int) : Res (Int × Int) :=
  match mod4d2 d with
  | 0 => .ok (x.a * y.a + x.a * y.b - x.b * y.b * (d - 1).tdiv 4, x.b * y.a - x.a * y.b)
  | 1 => .ok (x.a * y.a - x.b * y.b * d, x.b * y.a - x.a * y.b)
  | _ => .error .unreachable

/-- `div_rem` (lines 150-177). -/
def divRem (x y : QCoeffs) (d : Int) : Res (QCoeffs × QCoeffs) := do
  let ab ← divNumer x y d
  let n ← norm y d
  let p ← divRemRound ab.1 n
  let q ← divRemRound ab.2 n
  let m ← mul y ⟨p.2, q.2⟩ d
  let r ← divInt m n
  return (⟨p.1, q.1⟩, r)

/-- `QuadraticOps::div` (lines 202-204). -/
def div (x y : QCoeffs) (d : Int) : Res QCoeffs := do
  let p ← divRem x y d
  return p.1

/-- `QuadraticOps::conj` (lines 207-221). -/
def conj (x : QCoeffs) (d : Int) : Res QCoeffs :=
  if d = 0 then .ok x
  else match mod4d2 d with
    | 0 => .ok ⟨x.a + x.b, -x.b⟩
    | 1 => .ok ⟨x.a, -x.b⟩
    | _ => .error .unreachable

end QCoeffs

namespace QInt

/-- the `coeffs` field (integer.rs:237-240) -/
def coeffs (x : QInt) : QCoeffs := ⟨x.a, x.b⟩

/-- `QuadraticInt { coeffs, discr }` (integer.rs:237-240, 303-307) -/
def mk' (c : QCoeffs) (d : Int) : QInt := ⟨c.a, c.b, d⟩

/-- `from_coeffs` (lines 273-308). -/
def fromCoeffs (cfg : Cfg) (c : QCoeffs) (d : Int) : Res QInt :=
  if cfg.complex = false ∧ d < 0 then .error .negRoot
  else if d.tmod 4 = 0 then .error .discrMod4
  else
    let root := isqrt (d.natAbs : Int)
    let t : Int × Int × Int :=
      if root * root = d then
        if d < 0 then (c.a, c.b * root, -1)
        else (c.a + c.b * root, 0, 0)
      else (c.a, c.b, d)
    if t.2.1 = 0 ∨ t.2.2 = 0 then .ok ⟨t.1, 0, 0⟩
    else .ok ⟨t.1, t.2.1, t.2.2⟩

/-- the loop removing factors 4 in `new` (lines 252-257), on a positive `r`; `fuel` bounds the number of
rounds and `new` supplies `r` rounds, which is always enough (`QInt.strip4_spec`). -/
def strip4 : Nat → Int → Int → Int × Int
  | 0, b, r => (b, r)
  | fuel + 1, b, r => if r.tmod 4 = 0 then strip4 fuel (b + b) (r.tdiv 4) else (b, r)

/-- `new` (lines 248-267). -/
def new (cfg : Cfg) (a b r : Int) : Res QInt :=
  let br := if 0 < r then strip4 r.toNat b r else (b, r)
  match mod4d2 br.2 with
  | 0 => fromCoeffs cfg ⟨a - br.1, br.1 + br.1⟩ br.2
  | 1 => fromCoeffs cfg ⟨a, br.1⟩ br.2
  | _ => .error .unreachable

/-- `conj` (lines 311-316). -/
def conj (x : QInt) : Res QInt := do
  let c ← x.coeffs.conj x.d
  return mk' c x.d

/-- `norm` (lines 318-320). -/
def norm (x : QInt) : Res Int := x.coeffs.norm x.d

/-- `is_rational` (lines 322-324). -/
def isRational (x : QInt) : Bool := x.b = 0

/-- `is_pure` (lines 326-332). -/
def isPure (x : QInt) : Res Bool :=
  match mod4d2 x.d with
  | 0 => .ok (x.a + x.a + x.b = 0)
  | 1 => .ok (x.b = 0)
  | _ => .error .unreachable

/-- `parts_doubled` (lines 343-350). -/
def partsDoubled (x : QInt) : Res (Int × Int) :=
  match mod4d2 x.d with
  | 0 => .ok (x.a + x.a + x.b, x.b)
  | 1 => .ok (x.a + x.a, x.b + x.b)
  | _ => .error .unreachable

/-- `reduce_root_hinted` (lines 358-385). -/
def reduceRootHinted (cfg : Cfg) (x : QInt) (hint : Int) : Res QInt :=
  let hint : Int := (hint.natAbs : Int)
  if hint = 0 ∨ hint = 1 ∨ hint < 0 then .ok x
  else
    let quo := x.d.tdiv hint
    let rem := x.d.tmod hint
    if rem = 0 then
      let root := isqrt hint
      if root * root = hint then
        match mod4d2 x.d with
        | 0 =>
          let scale := (root - 1).tdiv 2
          fromCoeffs cfg ⟨x.a - x.b * scale, x.b * root⟩ quo
        | 1 => fromCoeffs cfg ⟨x.a, x.b * root⟩ quo
        | _ => .error .unreachable
      else .ok x
    else .ok x

/-- `Neg` (lines 388-396). -/
def neg (x : QInt) : QInt := ⟨-x.a, -x.b, x.d⟩

/-- `reduce_bin_op` (lines 401-458, both `cfg` variants). -/
def reduceBinOp (cfg : Cfg) (x y : QInt) : Res (Option (QInt × QInt)) :=
  let fin (p : QInt × QInt) : Option (QInt × QInt) := if p.1.d = p.2.d then some p else none
  if cfg.complex then
    if (decide (x.d < 0)) ^^ (decide (y.d < 0)) then .ok none
    else if x.d.natAbs > y.d.natAbs then do
      let hint ← divR x.d y.d
      let x' ← x.reduceRootHinted cfg hint
      return fin (x', y)
    else if y.d.natAbs > x.d.natAbs then do
      let hint ← divR y.d x.d
      let y' ← y.reduceRootHinted cfg hint
      return fin (x, y')
    else return fin (x, y)
  else if cfg.debug = true ∧ (x.d = 0 ∨ y.d = 0) then .error .debugAssert
  else if x.d > y.d then do
    let hint ← divR x.d y.d
    let x' ← x.reduceRootHinted cfg hint
    return fin (x', y)
  else if y.d > x.d then do
    let hint ← divR y.d x.d
    let y' ← y.reduceRootHinted cfg hint
    return fin (x, y')
  else return fin (x, y)

/-- `reduce_bin_op_unwrap` (lines 461-469). -/
def reduceBinOpUnwrap (cfg : Cfg) (x y : QInt) : Res (QInt × QInt) := do
  match ← reduceBinOp cfg x y with
  | some p => return p
  | none => .error .incompatible

/-- `PartialEq::eq` (lines 475-488). -/
def eq (x y : QInt) : Res Bool :=
  if x.d = y.d then .ok (decide (x.a = y.a ∧ x.b = y.b))
  else if x.d = 0 ∨ y.d = 0 then .ok false
  else do
    let l ← x.partsDoubled
    let r ← y.partsDoubled
    return decide (l.1 = r.1 ∧ l.2 * l.2 * x.d = r.2 * r.2 * y.d)

/-- `Add<T>` (lines 493-501). -/
def addInt (x : QInt) (k : Int) : QInt := mk' (x.coeffs.addInt k) x.d

/-- `Add` (lines 508-518). -/
def add (cfg : Cfg) (x y : QInt) : Res QInt :=
  if y.isRational then .ok (x.addInt y.a)
  else if x.isRational then .ok (y.addInt x.a)
  else do
    let p ← reduceBinOpUnwrap cfg x y
    fromCoeffs cfg (p.1.coeffs.add p.2.coeffs) p.2.d

/-- `Sub<T>` (lines 521-529). -/
def subInt (x : QInt) (k : Int) : QInt := mk' (x.coeffs.subInt k) x.d

/-- `Sub` (lines 536-546). -/
def sub (cfg : Cfg) (x y : QInt) : Res QInt :=
  if y.isRational then .ok (x.subInt y.a)
  else if x.isRational then .ok (y.subInt x.a).neg
  else do
    let p ← reduceBinOpUnwrap cfg x y
    fromCoeffs cfg (p.1.coeffs.sub p.2.coeffs) p.2.d

/-- `Zero::zero` (lines 663-668). -/
def zero : QInt := ⟨0, 0, 0⟩
/-- `Zero::is_zero` (lines 670-672). -/
def isZero (x : QInt) : Bool := x.a = 0 && x.b = 0
/-- `One::one` (lines 679-684). -/
def one : QInt := ⟨1, 0, 0⟩

/-- `Mul<T>` (lines 555-564). -/
def mulInt (x : QInt) (k : Int) : QInt := if k = 0 then zero else mk' (x.coeffs.mulInt k) x.d

/-- `Mul` (lines 572-588). -/
def mul (cfg : Cfg) (x y : QInt) : Res QInt :=
  if y.isRational then .ok (x.mulInt y.a)
  else if x.isRational then .ok (y.mulInt x.a)
  else do
    let p ← reduceBinOpUnwrap cfg x y
    let c ← p.1.coeffs.mul p.2.coeffs p.1.d
    fromCoeffs cfg c p.2.d

/-- `Div<T>` (lines 597-602). -/
def divInt (x : QInt) (k : Int) : Res QInt := do
  let c ← x.coeffs.divInt k
  return mk' c x.d

/-- `Div` (lines 610-627). -/
def div (cfg : Cfg) (x y : QInt) : Res QInt :=
  if y.isRational then x.divInt y.a
  else if x.isRational then do
    let c ← x.coeffs.div y.coeffs y.d
    fromCoeffs cfg c y.d
  else do
    let p ← reduceBinOpUnwrap cfg x y
    let c ← p.1.coeffs.div p.2.coeffs p.1.d
    fromCoeffs cfg c p.2.d

/-- `Rem<T>` (lines 636-641). -/
def remInt (x : QInt) (k : Int) : Res QInt := do
  let c ← x.coeffs.remInt k
  return mk' c x.d

/-- `Rem` (lines 649-656; line 651 divides where a remainder is expected). -/
def rem (cfg : Cfg) (x y : QInt) : Res QInt :=
  if y.isRational then x.divInt y.a
  else do
    let p ← reduceBinOpUnwrap cfg x y
    let c ← p.1.coeffs.divRem p.2.coeffs p.1.d
    fromCoeffs cfg c.2 p.2.d

end QInt

/-- `GaussianInt<T>` (lines 691-692), feature `complex` only: `re + im·i`. -/
structure GInt where
  re : Int
  im : Int
  deriving DecidableEq, Repr

namespace GInt

/-- the wrapped `QuadraticIntCoeffs` (integer.rs:692) -/
def coeffs (x : GInt) : QCoeffs := ⟨x.re, x.im⟩
/-- wrapping of a `QuadraticIntCoeffs` (integer.rs:692) -/
def ofCoeffs (c : QCoeffs) : GInt := ⟨c.a, c.b⟩

/-- `conj` (lines 702-705). -/
def conj (x : GInt) : GInt := ⟨x.re, -x.im⟩
/-- `norm`/`norm_ref` (lines 712-718). -/
def norm (x : GInt) : Int := x.re * x.re + x.im * x.im
/-- `Add` (lines 721-730). -/
def add (x y : GInt) : GInt := ofCoeffs (x.coeffs.add y.coeffs)
/-- `Sub` (lines 732-741). -/
def sub (x y : GInt) : GInt := ofCoeffs (x.coeffs.sub y.coeffs)
/-- `Mul` (lines 743-752). -/
def mul (x y : GInt) : Res GInt := do
  let c ← x.coeffs.mul y.coeffs (-1)
  return ofCoeffs c
/-- `Div` (lines 754-763). -/
def div (x y : GInt) : Res GInt := do
  let c ← x.coeffs.div y.coeffs (-1)
  return ofCoeffs c
/-- `Rem` (lines 765-774). -/
def rem (x y : GInt) : Res GInt := do
  let c ← x.coeffs.divRem y.coeffs (-1)
  return ofCoeffs c.2

end GInt

namespace Surd

/-- `to_gaussint` (surd.rs:555-565). -/
def toGaussint (cfg : Cfg) (s : Surd) : Res (Approx GInt) :=
  if s.isGaussint then .ok (.exact ⟨s.a, s.b⟩)
  else do
    let t ← trunc cfg s
    return .approximated ⟨t.a, t.b⟩

/-- `to_quadint` (surd.rs:569-576). -/
def toQuadint (cfg : Cfg) (s : Surd) : Res (Approx QInt) :=
  if s.isQuadint then do
    let q ← QInt.new cfg s.a s.b s.r
    return .exact q
  else do
    let x ← divR s.a s.c
    let y ← divR s.b s.c
    let q ← QInt.new cfg x y s.r
    return .approximated q

end Surd
end NumIrr
