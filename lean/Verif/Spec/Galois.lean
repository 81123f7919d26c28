/-
Conjugate real quadratic numbers and purely periodic fractions.
-/
import Verif.Spec.CF

namespace NumIrr

/-- `x` and `y` are the two different roots of a quadratic polynomial with integer coefficients. -/
def ConjRoots (x y : ℝ) : Prop :=
  x ≠ y ∧ ∃ A B C : ℤ, A ≠ 0 ∧ A * x ^ 2 + B * x + C = 0 ∧ A * y ^ 2 + B * y + C = 0

/-- The coefficients of `c` are those of `l`, repeated from the very first one. -/
def CF.Pure (c : CF) (l : List ℕ) : Prop := l ≠ [] ∧ ∀ n, coeffAt c.a c.p n = coeffAt [] l n

end NumIrr
