/-
Basic vocabulary of the model: panics, configuration, and the arithmetic functions of the
num-integer / num-traits / num-rational crates that the library calls.
-/
import Mathlib.Data.Int.GCD
import Mathlib.Data.Nat.Sqrt
import Mathlib.Data.Rat.Defs

namespace NumIrr

/-- The ways the modelled code can panic.  The panics of /repo/src; each constructor cites the lines. -/
inductive Panic where
  /-- surd.rs:296 `denominator is zero` -/
  | denomZero
  /-- surd.rs:380, 392, 408 `Negative root is not supported without the complex feature` -/
  | negRoot
  /-- integer.rs:279 `The discriminant must not be 0 modulo 4!` -/
  | discrMod4
  /-- surd.rs:259 `operation not supported on complex numbers` -/
  | complexUnsupported
  /-- surd.rs:1115 / integer.rs `two root bases are not compatible!` -/
  | incompatible
  /-- integer division or `Ratio::new` by zero -/
  | divZero
  /-- square root of a negative integer (num-integer) -/
  | sqrtNeg
  /-- `unreachable!()` -/
  | unreachable
  /-- `Option::unwrap` / `expect` on `None` -/
  | unwrapNone
  /-- `unimplemented!()` -/
  | unimplemented
  /-- a failed `debug_assert!` (only when debug assertions are enabled) -/
  | debugAssert
  /-- explicit `panic!` for a fraction without coefficients -/
  | noCoeff
  /-- arithmetic overflow of an unchecked operator (only when overflow checks are enabled) -/
  | overflow
  deriving DecidableEq, Repr

/-- Result of a function that may panic.
Used for every function of /repo/src that contains a panic of surd.rs:259-408, integer.rs:145-411 or simple.rs:68-225. -/
abbrev Res (α : Type) := Except Panic α

/-- Build configuration: cargo feature `complex` and `cfg(debug_assertions)`.
Features: surd.rs:378-381, 390-393, 406-409 and Cargo.toml:35; debug assertions: surd.rs:844-845, 1057-1058, 1525, simple.rs:116-171. -/
structure Cfg where
  complex : Bool
  debug : Bool
  deriving DecidableEq, Repr

/-- `Approximation<T>` (traits.rs:41-46). -/
inductive Approx (α : Type) where
  | approximated (v : α)
  | exact (v : α)
  deriving DecidableEq, Repr

/-- `Approximation::value` (traits.rs:50-55). -/
def Approx.value {α : Type} : Approx α → α
  | .approximated v => v
  | .exact v => v

/-- `SqrtErrorKind` (traits.rs:15-23). -/
inductive SqrtErrKind where
  | overflow
  | complex
  | unrepresentable
  deriving DecidableEq, Repr

/-- `num_integer::sqrt` on a non-negative argument: the integer square root.  It is only used at
call sites whose argument is an absolute value or a gcd; other call sites use `sqrtR`.
Called at surd.rs:300, 324, 356. -/
def isqrt (n : Int) : Int := (Nat.sqrt n.toNat : Nat)

/-- `num_integer::sqrt` / `Roots::sqrt`, which panics on negative arguments.
Called at surd.rs:490-493, 590, 603, 868, 1509. -/
def sqrtR (n : Int) : Res Int := if n < 0 then .error .sqrtNeg else .ok (isqrt n)

/-- `num_integer::Integer::gcd`, non-negative.
Called at surd.rs:317-359, 1198, 1232, 1502 and block.rs:60, 144. -/
def igcd (a b : Int) : Int := (Int.gcd a b : Nat)

/-- Rust `/` on integers: truncating, panics on zero divisor.  Used at surd.rs:318-338, 863, 1503-1504. -/
def divR (a b : Int) : Res Int := if b = 0 then .error .divZero else .ok (a.tdiv b)

/-- Rust `%` on integers: truncating, panics on zero divisor.  Used at surd.rs:850 and integer.rs:19. -/
def remR (a b : Int) : Res Int := if b = 0 then .error .divZero else .ok (a.tmod b)

/-- `Integer::div_floor`, panics on zero divisor.  Called at surd.rs:860. -/
def divFloorR (a b : Int) : Res Int := if b = 0 then .error .divZero else .ok (a.fdiv b)

/-- `num_rational::Ratio::new`, panics on zero denominator, otherwise the reduced fraction.
Called at surd.rs:99, 1467-1468, simple.rs:330 and general.rs:85. -/
def ratioNew (n d : Int) : Res Rat := if d = 0 then .error .divZero else .ok (Rat.divInt n d)

/-- `Ratio / Ratio`, panics on zero divisor.  Used at surd.rs:431, 1469 and simple.rs:815-863. -/
def ratioDiv (x y : Rat) : Res Rat := if y = 0 then .error .divZero else .ok (x / y)

end NumIrr
