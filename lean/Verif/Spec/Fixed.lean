/-
What correctness of fixed-width arithmetic means: a run either panics with an overflow or does exactly what the
arbitrary-precision run does; and every integer that is stored is representable.
-/
import Verif.Model.FixedQInt
import Verif.Model.FixedCF
import Verif.Model.FixedCFSurd
import Verif.Spec.CF
import Verif.Spec.CFArith
import Mathlib.Algebra.Order.Group.Unbundled.Abs
import Mathlib.Algebra.Order.Ring.Int

namespace NumIrr

/-- the fixed-width run `r` does what the arbitrary-precision run `b` does, or panics with an overflow -/
def Refines {α : Type} (r b : Res α) : Prop := r = b ∨ r = .error .overflow

/-- the same for a function with a loop, where `none` means still running -/
def RefinesO {α : Type} (r b : Option (Res α)) : Prop := r = b ∨ r = some (.error .overflow)

/-- an integer is representable -/
def Fx.Holds (x : Fx) (n : Int) : Prop := -2 ^ (x.w - 1) ≤ n ∧ n < 2 ^ (x.w - 1)

/-- all four fields of a surd are representable -/
def Fx.HoldsS (x : Fx) (s : Surd) : Prop := x.Holds s.a ∧ x.Holds s.b ∧ x.Holds s.c ∧ x.Holds s.r

/-- all fields of a surd are at most `B` in absolute value -/
def Surd.Small (B : ℤ) (s : Surd) : Prop := |s.a| ≤ B ∧ |s.b| ≤ B ∧ |s.c| ≤ B ∧ |s.r| ≤ B

/-- all three fields of a quadratic integer are representable -/
def Fx.HoldsQ (x : Fx) (u : QInt) : Prop := x.Holds u.a ∧ x.Holds u.b ∧ x.Holds u.d

/-- both parts of a Gaussian integer are representable -/
def Fx.HoldsG (x : Fx) (u : GInt) : Prop := x.Holds u.re ∧ x.Holds u.im

/-- all fields of a quadratic integer are at most `B` in absolute value -/
def QInt.Small (B : ℤ) (u : QInt) : Prop := |u.a| ≤ B ∧ |u.b| ≤ B ∧ |u.d| ≤ B

/-- both parts of a Gaussian integer are at most `B` in absolute value -/
def GInt.Small (B : ℤ) (u : GInt) : Prop := |u.re| ≤ B ∧ |u.im| ≤ B

/-- an integer is representable in a primitive type -/
def Prim.Holds (t : Prim) (n : Int) : Prop :=
  if t.sg then -2 ^ (t.w - 1) ≤ n ∧ n < 2 ^ (t.w - 1) else 0 ≤ n ∧ n < 2 ^ t.w

/-- every coefficient of a continued fraction is an unsigned integer of `w` bits -/
def CF.Fits (w : Nat) (c : CF) : Prop := ∀ v ∈ c.a ++ c.p, v < 2 ^ w

/-- the continuant of a list of coefficients: the numerator of the continued fraction they form -/
def continuant : List Nat → Nat
  | [] => 1
  | [v] => v
  | v :: w :: l => v * continuant (w :: l) + continuant l

/-- the integers read off a continued fraction when it is converted to a number fit the signed type of `w` bits: the two
parts of the number if it is finite, otherwise the first coefficient and the continuants of the other coefficients and of
the period -/
def CF.Reads (w : Nat) (c : CF) : Prop :=
  if c.p = [] then ∃ r, c.valQ = some r ∧ (r.num.natAbs : Int) < 2 ^ (w - 1) ∧ (r.den : Int) < 2 ^ (w - 1)
  else ((c.a.headD 0 : Nat) : Int) < 2 ^ (w - 1) ∧ ((continuant c.a.tail : Nat) : Int) < 2 ^ (w - 1) ∧
    ((continuant c.p : Nat) : Int) < 2 ^ (w - 1)

/-- the function of the fixed-width model for an operation of a continued fraction with a number -/
def NumOp.runFx (x : Fx) (cfg : Cfg) (fuel : Nat) (c : CF) : NumOp → Option (Res CF)
  | .mulInt k => x.cfMulInt cfg fuel c k
  | .divInt k => x.cfDivInt cfg fuel c k
  | .addRat k => x.cfAddRat cfg fuel c (.of k)
  | .subRat k => x.cfSubRat cfg fuel c (.of k)
  | .mulRat k => x.cfMulRat cfg fuel c (.of k)
  | .divRat k => x.cfDivRat cfg fuel c (.of k)

/-- the function of the fixed-width model for an operation on two continued fractions -/
def BinOp.runFx (x : Fx) (cfg : Cfg) (fuel : Nat) (c e : CF) : BinOp → Option (Res CF)
  | .add => x.cfAdd cfg fuel c e
  | .sub => x.cfSub cfg fuel c e
  | .mul => x.cfMul cfg fuel c e
  | .div => x.cfDiv cfg fuel c e

/-- a rational number whose two parts are at most `B` in absolute value -/
def RatSmall (B : ℤ) (q : ℚ) : Prop := |q.num| ≤ B ∧ (q.den : ℤ) ≤ B

/-- the number of an operation has parts of at most `B` in absolute value -/
def NumOp.Small (B : ℤ) : NumOp → Prop
  | .mulInt k => |k| ≤ B
  | .divInt k => |k| ≤ B
  | .addRat k => RatSmall B k
  | .subRat k => RatSmall B k
  | .mulRat k => RatSmall B k
  | .divRat k => RatSmall B k

/-- the sum of the absolute values -/
def absSum (l : List Int) : Int := (l.map fun v => |v|).sum

end NumIrr
