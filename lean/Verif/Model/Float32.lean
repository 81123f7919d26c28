/-
Model of the conversion of surds to single precision numbers.  Citations: /repo/src/quadratic/surd.rs.

`F32` is IEEE 754 binary32 with the default rounding, represented as `F64` is.  `to_f32` of an `f64` (num-traits) is the `as`
cast, which never fails: it rounds to the nearest `f32`, or to an infinity.  Trusted, as this is outside /repo.
-/
import Verif.Model.Float

namespace NumIrr

/-- a binary32 number -/
inductive F32 where
  | nan
  | inf (neg : Bool)
  | fin (v : ℝ)

namespace F32

/-- the exponent of the last binary digit of the numbers next to `x`: 24 significant digits, the last of which is at least
`2^(-149)` -/
noncomputable def lastExp (x : ℝ) : ℤ := max (Int.log 2 |x| - 23) (-149)

/-- rounding to 24 significant digits -/
noncomputable def rnd (x : ℝ) : ℝ := F64.rne (x / 2 ^ lastExp x) * 2 ^ lastExp x

/-- the binary32 number of a real number -/
noncomputable def round (x : ℝ) : F32 := if |rnd x| < 2 ^ (128 : ℤ) then fin (rnd x) else inf (decide (x < 0))

/-- the cast `as f32` -/
noncomputable def ofF64 : F64 → F32
  | .nan => nan
  | .inf s => inf s
  | .fin v => round v

end F32

/-- `to_complex32` (lines 1377-1380). -/
noncomputable def Surd.toComplex32 (s : Surd) : Option (F32 × F32) :=
  s.toComplex64.map fun z => (F32.ofF64 z.1, F32.ofF64 z.2)

end NumIrr
