/- Specification vocabulary for binary surd operations. -/
import Verif.Spec.Surd

namespace NumIrr

/-- One of the two roots is the other one times a perfect square. -/
def Surd.Compatible (x y : Surd) : Prop := ∃ k : ℤ, x.r = k * k * y.r ∨ y.r = k * k * x.r

end NumIrr
