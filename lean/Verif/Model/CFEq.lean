/-
`ContinuedFraction`, `src/cont_frac/simple.rs`: equality.
-/
import Verif.Model.CF

namespace NumIrr
namespace CF

/-- `PartialEq` of `ContinuedFraction<T>`, derived (line 18): the three fields are compared in the order of their
declaration (lines 19-28), the vectors coefficient by coefficient. -/
def eq (x y : CF) : Bool := x.a == y.a && x.p == y.p && x.neg == y.neg

end CF
end NumIrr
