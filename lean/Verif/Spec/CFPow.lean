/-
`num_traits::pow` on continued fractions, whose products may panic or never return.  The same function as in `Spec/Pow.lean`.
-/
import Verif.Spec.CFFormula

namespace NumIrr
namespace CF
open CFFormula

/-- the second loop; the exponent bounds the number of rounds because it is halved -/
def powLoop (mul : CF → CF → Option (Res CF)) : Nat → CF → CF → Nat → Option (Res CF)
  | 0, acc, _, _ => some (.ok acc)
  | f + 1, acc, b, e =>
    if 1 < e then
      andThen (mul b b) fun b' =>
        if e / 2 % 2 = 1 then andThen (mul acc b') fun acc' => powLoop mul f acc' b' (e / 2)
        else powLoop mul f acc b' (e / 2)
    else some (.ok acc)

/-- the first loop and what follows it -/
def powStrip (mul : CF → CF → Option (Res CF)) : Nat → CF → Nat → Option (Res CF)
  | 0, b, _ => some (.ok b)
  | f + 1, b, e =>
    if e % 2 = 0 then andThen (mul b b) fun b' => powStrip mul f b' (e / 2)
    else if e = 1 then some (.ok b)
    else powLoop mul e b b e

/-- `num_traits::pow` -/
def pow (cfg : Cfg) (fuel : Nat) (c : CF) (e : Nat) : Option (Res CF) :=
  if e = 0 then some (.ok CF.one) else powStrip (CF.mul cfg fuel) e c e

end CF
end NumIrr
