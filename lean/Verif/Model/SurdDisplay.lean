/-
Model of `Display` for `QuadraticSurd` (/repo/src/quadratic/surd.rs:936-1043).
-/
import Verif.Model.Surd

namespace NumIrr

/-- `Display` of a signed integer (core / num-bigint).  Used by the `write!` of lines 936-1043. -/
def showInt (n : Int) : String := if n < 0 then "-" ++ toString n.natAbs else toString n.natAbs

namespace Surd

/-- the alternate form for a negative root (lines 939-997); `r` is `-discr`. -/
def displayImag (a b c r : Int) : String :=
  match decide (a = 0), decide (b = 0), decide (b = 1), decide (b = -1), decide (c = 1), decide (r = 1) with
  | true, true, _, _, _, _ => "0"
  | true, false, true, _, true, true => "i"
  | true, false, true, _, true, false => "√" ++ showInt r ++ "i"
  | true, false, true, _, false, true => "i/" ++ showInt c
  | true, false, true, _, false, false => "√" ++ showInt r ++ "i/" ++ showInt c
  | true, false, false, true, true, true => "-i"
  | true, false, false, true, true, false => "-√" ++ showInt r ++ "i"
  | true, false, false, true, false, true => "-i/" ++ showInt c
  | true, false, false, true, false, false => "-√" ++ showInt r ++ "i/" ++ showInt c
  | true, false, false, false, true, true => showInt b ++ "i"
  | true, false, false, false, true, false => showInt b ++ "√" ++ showInt r ++ "i"
  | true, false, false, false, false, true => showInt b ++ "i/" ++ showInt c
  | true, false, false, false, false, false => showInt b ++ "√" ++ showInt r ++ "i/" ++ showInt c
  | false, true, _, _, true, _ => showInt a
  | false, true, _, _, false, _ => showInt a ++ "/" ++ showInt c
  | false, false, true, _, true, true => showInt a ++ "+i"
  | false, false, true, _, true, false => showInt a ++ "+√" ++ showInt r ++ "i"
  | false, false, false, true, true, true => showInt a ++ "-i"
  | false, false, false, true, true, false => showInt a ++ "-√" ++ showInt r ++ "i"
  | false, false, false, false, true, true =>
    if b < 0 then showInt a ++ showInt b ++ "i" else showInt a ++ "+" ++ showInt b ++ "i"
  | false, false, false, false, true, false =>
    if b < 0 then showInt a ++ showInt b ++ "√" ++ showInt r ++ "i"
    else showInt a ++ "+" ++ showInt b ++ "√" ++ showInt r ++ "i"
  | false, false, true, _, false, true => "(" ++ showInt a ++ "+i)/" ++ showInt c
  | false, false, true, _, false, false => "(" ++ showInt a ++ "+√" ++ showInt r ++ "i)/" ++ showInt c
  | false, false, false, true, false, true => "(" ++ showInt a ++ "-i)/" ++ showInt c
  | false, false, false, true, false, false => "(" ++ showInt a ++ "-√" ++ showInt r ++ "i)/" ++ showInt c
  | false, false, false, false, false, true =>
    if b < 0 then "(" ++ showInt a ++ showInt b ++ "i)/" ++ showInt c
    else "(" ++ showInt a ++ "+" ++ showInt b ++ "i)/" ++ showInt c
  | false, false, false, false, false, false =>
    if b < 0 then "(" ++ showInt a ++ showInt b ++ "√" ++ showInt r ++ "i)/" ++ showInt c
    else "(" ++ showInt a ++ "+" ++ showInt b ++ "√" ++ showInt r ++ "i)/" ++ showInt c

/-- the plain form (lines 998-1041). -/
def displayPlain (a b c r : Int) : String :=
  match decide (a = 0), decide (b = 0), decide (b = 1), decide (b = -1), decide (c = 1) with
  | true, true, _, _, _ => "0"
  | true, false, true, _, true => "√" ++ showInt r
  | true, false, true, _, false => "√" ++ showInt r ++ "/" ++ showInt c
  | true, false, false, true, true => "-√" ++ showInt r
  | true, false, false, true, false => "-√" ++ showInt r ++ "/" ++ showInt c
  | true, false, false, false, true => showInt b ++ "√" ++ showInt r
  | true, false, false, false, false => showInt b ++ "√" ++ showInt r ++ "/" ++ showInt c
  | false, true, _, _, true => showInt a
  | false, true, _, _, false => showInt a ++ "/" ++ showInt c
  | false, false, true, _, true => showInt a ++ "+√" ++ showInt r
  | false, false, false, true, true => showInt a ++ "-√" ++ showInt r
  | false, false, false, false, true =>
    if b < 0 then showInt a ++ showInt b ++ "√" ++ showInt r
    else showInt a ++ "+" ++ showInt b ++ "√" ++ showInt r
  | false, false, true, _, false => "(" ++ showInt a ++ "+√" ++ showInt r ++ ")/" ++ showInt c
  | false, false, false, true, false => "(" ++ showInt a ++ "-√" ++ showInt r ++ ")/" ++ showInt c
  | false, false, false, false, false =>
    if b < 0 then "(" ++ showInt a ++ showInt b ++ "√" ++ showInt r ++ ")/" ++ showInt c
    else "(" ++ showInt a ++ "+" ++ showInt b ++ "√" ++ showInt r ++ ")/" ++ showInt c

/-- `Display` (lines 937-1042); `alternate` is the `#` flag. -/
def display (alternate : Bool) (s : Surd) : String :=
  if alternate = true ∧ s.r < 0 then displayImag s.a s.b s.c (-s.r) else displayPlain s.a s.b s.c s.r

end Surd
end NumIrr
