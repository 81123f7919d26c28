/-
Model of the conversions of surds to floating point numbers.  Citations: /repo/src/quadratic/surd.rs.

`F64` is IEEE 754 binary64 with the default rounding (to nearest, ties to even); finite numbers are real numbers, and the two
zeros are identified (no step of the conversions depends on the sign of a zero, since the denominator is not zero).
`to_f64` of the integer types is the nearest float, or an infinity (the `as` cast; num-bigint).  Trusted, as these are outside
/repo.
-/
import Verif.Model.Surd
import Mathlib.Data.Int.Log
import Mathlib.Analysis.SpecialFunctions.Sqrt

namespace NumIrr

/-- a binary64 number; `f64` of lines 1345-1375. -/
inductive F64 where
  | nan
  | inf (neg : Bool)
  | fin (v : ℝ)

namespace F64

/-- the integer nearest to `y`, the even one of two.  Part of the operators of lines 1350, 1366-1369. -/
noncomputable def rne (y : ℝ) : ℤ :=
  if y - ⌊y⌋ < 1 / 2 then ⌊y⌋
  else if 1 / 2 < y - ⌊y⌋ then ⌊y⌋ + 1
  else if Even ⌊y⌋ then ⌊y⌋ else ⌊y⌋ + 1

/-- the exponent of the last binary digit of the floats next to `x`: 53 significant digits, the last of which is at least
`2^(-1074)`.  Part of the operators of lines 1350, 1366-1369. -/
noncomputable def lastExp (x : ℝ) : ℤ := max (Int.log 2 |x| - 52) (-1074)

/-- rounding to 53 significant digits.  Part of the operators of lines 1350, 1366-1369. -/
noncomputable def rnd (x : ℝ) : ℝ := rne (x / 2 ^ lastExp x) * 2 ^ lastExp x

/-- the float of a real number.  Part of the operators of lines 1350, 1366-1369. -/
noncomputable def round (x : ℝ) : F64 := if |rnd x| < 2 ^ (1024 : ℤ) then fin (rnd x) else inf (decide (x < 0))

/-- `to_f64` of an integer (lines 1350, 1366-1369) -/
noncomputable def ofInt (n : ℤ) : F64 := round n

/-- `+` (line 1350) -/
noncomputable def add : F64 → F64 → F64
  | nan, _ => nan
  | _, nan => nan
  | inf s, inf t => if s = t then inf s else nan
  | inf s, fin _ => inf s
  | fin _, inf t => inf t
  | fin v, fin w => round (v + w)

/-- `*` (lines 1350, 1369) -/
noncomputable def mul : F64 → F64 → F64
  | nan, _ => nan
  | _, nan => nan
  | inf s, inf t => inf (s != t)
  | inf s, fin w => if w = 0 then nan else inf (s != decide (w < 0))
  | fin v, inf t => if v = 0 then nan else inf (decide (v < 0) != t)
  | fin v, fin w => round (v * w)

/-- `/` (lines 1350, 1366-1369) -/
noncomputable def div : F64 → F64 → F64
  | nan, _ => nan
  | _, nan => nan
  | inf _, inf _ => nan
  | inf s, fin w => inf (s != decide (w < 0))
  | fin _, inf _ => fin 0
  | fin v, fin w => if w = 0 then (if v = 0 then nan else inf (decide (v < 0))) else round (v / w)

/-- `f64::sqrt` (lines 1350, 1369) -/
noncomputable def sqrt : F64 → F64
  | nan => nan
  | inf s => if s then nan else inf false
  | fin v => if v < 0 then nan else round (Real.sqrt v)

/-- `f64::abs` (line 1369) -/
noncomputable def abs : F64 → F64
  | nan => nan
  | inf _ => inf false
  | fin v => fin |v|

end F64

namespace Surd

/-- `to_f64` (lines 1345-1353). -/
noncomputable def toF64 (s : Surd) : Option F64 :=
  if s.r < 0 then none
  else some (((F64.ofInt s.a).add ((F64.ofInt s.b).mul (F64.ofInt s.r).sqrt)).div (F64.ofInt s.c))

/-- `to_complex64` (lines 1365-1375). -/
noncomputable def toComplex64 (s : Surd) : Option (F64 × F64) :=
  if s.r < 0 then
    some ((F64.ofInt s.a).div (F64.ofInt s.c), ((F64.ofInt s.b).mul (F64.ofInt s.r).abs.sqrt).div (F64.ofInt s.c))
  else s.toF64.map fun re => (re, .fin 0)

/-- `from_f64` (lines 1309-1315).  `frac` is what `Ratio::<i64>::from_f64` returns for the argument (an approximation, computed
outside /repo), in lowest terms; `fits` is the range of `T`. -/
def fromF64 (fits : Int → Bool) (frac : Option Rat) : Option Surd :=
  match frac with
  | none => none
  | some q => if fits q.num && fits q.den then some (ofRat q) else none

end Surd

/-- `E::value` (symbols.rs lines 34-36): a float literal is rounded to the nearest float. -/
noncomputable def eValue : F64 := F64.round 2.71828182845904523536028747

/-- `Pi::value` (symbols.rs lines 78-80). -/
noncomputable def piValue : F64 := F64.round 3.141592653589793238462643383

end NumIrr
