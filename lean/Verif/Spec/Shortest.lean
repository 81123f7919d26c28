/-
The shortest way to write a periodic continued fraction.
-/
import Verif.Spec.CF

namespace NumIrr

/-- `a` and `p` write the same coefficients as the fraction `c`. -/
def CF.SameCoeffs (c : CF) (a p : List Nat) : Prop :=
  a ≠ [] ∧ p ≠ [] ∧ ∀ n, coeffAt a p n = coeffAt c.a c.p n

/-- No other way of writing the same coefficients, with a non-empty aperiodic part, has a shorter period. -/
def CF.ShortestPeriod (c : CF) : Prop := ∀ a p, c.SameCoeffs a p → c.p.length ≤ p.length

/-- No other way of writing the same coefficients, with a non-empty aperiodic part, has fewer coefficients before the
period. -/
def CF.ShortestHead (c : CF) : Prop := ∀ a p, c.SameCoeffs a p → c.a.length ≤ a.length

end NumIrr
