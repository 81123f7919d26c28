/-
Fixed-width integers: the operators of `i8 … i128` with overflow, and `num_rational::Ratio` over them.

An operator whose exact result is not representable panics when the crate is built with overflow checks (the default
of debug builds) and wraps around otherwise (the default of release builds).  Division and remainder overflow
(`MIN / -1`) panic in both cases.

Trusted from the crates: `Integer::gcd` of primitive integers gives the non-negative gcd and only overflows when that
gcd is `-MIN` (its last step is `(1 << shift).abs()`); `num_integer::sqrt` gives the integer square root and panics on
negative numbers; `Signed::abs` is the primitive `abs`.
-/
import Verif.Model.General

namespace NumIrr

/-- A signed primitive type of `w` bits, and whether overflow checks are compiled in.
One of the types of traits.rs:109-113. -/
structure Fx where
  w : Nat
  checks : Bool

namespace Fx

/-- the representable integers; of `i{w}` (traits.rs:109-113) -/
def fits (x : Fx) (n : Int) : Bool := (IntTy.signed x.w).fits n

/-- the result of an operator whose exact result is `v` (every operator on `T` in /repo/src) -/
def ret (x : Fx) (v : Int) : Res Int :=
  if x.fits v then .ok v else if x.checks then .error .overflow else .ok ((IntTy.signed x.w).wrap v)

/-- `+`; e.g. surd.rs:305 -/
def add (x : Fx) (a b : Int) : Res Int := x.ret (a + b)
/-- `-`; e.g. surd.rs:343-345 -/
def sub (x : Fx) (a b : Int) : Res Int := x.ret (a - b)
/-- `*`; e.g. surd.rs:301-305 -/
def mul (x : Fx) (a b : Int) : Res Int := x.ret (a * b)
/-- unary `-`; e.g. surd.rs:303 -/
def neg (x : Fx) (a : Int) : Res Int := x.ret (-a)
/-- `abs`; e.g. surd.rs:300 -/
def abs (x : Fx) (a : Int) : Res Int := x.ret (a.natAbs : Int)
/-- `Integer::gcd`; surd.rs:317-359 -/
def gcd (x : Fx) (a b : Int) : Res Int := x.ret (igcd a b)
/-- `/`; surd.rs:318-338 -/
def div (x : Fx) (a b : Int) : Res Int :=
  if b = 0 then .error .divZero else if x.fits (a.tdiv b) then .ok (a.tdiv b) else .error .overflow
/-- `%`; overflows together with `/`; surd.rs:850 -/
def rem (x : Fx) (a b : Int) : Res Int :=
  if b = 0 then .error .divZero else if x.fits (a.tdiv b) then .ok (a.tmod b) else .error .overflow

end Fx

/-- `Ratio<T>` as its two fields.  Used at surd.rs:405-445. -/
structure Rt where
  num : Int
  den : Int
  deriving DecidableEq, Repr

/-- the fields of a rational in lowest terms.  The arguments of surd.rs:405, 425. -/
def Rt.of (q : Rat) : Rt := ⟨q.num, q.den⟩

/-- `Ratio::new` (num-rational 0.4, `reduce`): zero, one, common divisor, sign.
Called at surd.rs:99, 1467-1468 and simple.rs:330. -/
def Fx.ratio (x : Fx) (n d : Int) : Res Rt :=
  if d = 0 then .error .divZero
  else if n = 0 then .ok ⟨0, 1⟩
  else if n = d then .ok ⟨1, 1⟩
  else do
    let g ← x.gcd n d
    let n' ← x.div n g
    let d' ← x.div d g
    if d' < 0 then do
      let n'' ← x.sub 0 n'
      let d'' ← x.sub 0 d'
      return ⟨n'', d''⟩
    else return ⟨n', d'⟩

end NumIrr
