/-
Model of the conversions between surds and primitive numbers that the traits `ToPrimitive` and `FromPrimitive` add to the
methods written in /repo/src/quadratic/surd.rs:1296-1354.

The provided methods of num-traits are outside /repo and trusted as documented: `to_i8 … to_i128`, `to_isize` call `to_i64` and
convert its result, `to_u8 … to_u128`, `to_usize` call `to_u64`, `to_f32` calls `to_f64`; `from_i8 … from_i128`, `from_isize`
convert to `i64` and call `from_i64`, the unsigned ones go through `from_u64`.  A conversion between primitive integers gives
`None` iff the number does not fit the target.
-/
import Verif.Model.SurdSqrt
import Verif.Model.Float32
import Verif.Model.General

namespace NumIrr

/-- the range of a primitive integer type: the targets of the provided methods, and `i64`, `u64` of surd.rs:1298-1342 -/
def primFits (sg : Bool) (w : Nat) (n : Int) : Bool :=
  if sg then (IntTy.signed w).fits n else (IntTy.unsigned w).fits n

namespace Surd

/-- `to_i{w}` (`sg`) and `to_u{w}`: through `to_i64` and `to_u64` (surd.rs:1323-1342) -/
def toPrimW (cfg : Cfg) (sg : Bool) (w : Nat) (s : Surd) : Res (Option Int) := do
  match ← toPrim cfg (primFits sg 64) s with
  | some v => return (if primFits sg w v then some v else none)
  | none => return none

/-- `from_i{w}` (`sg`) and `from_u{w}` of a number `n` of that type: through `from_i64` and `from_u64` (surd.rs:1298-1305);
`fitsT` is the range of `T` -/
def fromPrimW (fitsT : Int → Bool) (sg : Bool) (n : Int) : Option Surd :=
  if primFits sg 64 n then fromPrim fitsT n else none

/-- `to_f32`: through `to_f64` (surd.rs:1345-1353) -/
noncomputable def toF32 (s : Surd) : Option F32 := s.toF64.map F32.ofF64

end Surd
end NumIrr
