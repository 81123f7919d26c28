/-
Quadratic integers of one ring, in the form in which the constructors store them.
-/
import Verif.Spec.QInt

namespace NumIrr

/-- Rational numbers are stored with discriminant zero. -/
def QInt.Stored (x : QInt) : Prop := x.b = 0 → x.d = 0

/-- A number of the ring with discriminant `D`, stored in the documented way. -/
structure QInt.InRing (cfg : Cfg) (D : ℤ) (x : QInt) : Prop where
  ok : x.Ok cfg
  stored : x.Stored
  discr : x.b ≠ 0 → x.d = D

end NumIrr
