/-
Equivalent real numbers.
-/
import Verif.Spec.Tails

namespace NumIrr

/-- `y` is a homographic function of `x` with integer coefficients and determinant `1` or `-1` -/
def Equivalent (x y : ℝ) : Prop :=
  ∃ a b c d : ℤ, (a * d - b * c = 1 ∨ a * d - b * c = -1) ∧ c * x + d ≠ 0 ∧ y = (a * x + b) / (c * x + d)

/-- the regular continued fractions of `x` and `y` agree from some place on, up to a shift -/
def SameTail (x y : ℝ) : Prop := ∃ m k : ℕ, ∀ n, ⌊tails x (m + n)⌋ = ⌊tails y (k + n)⌋

end NumIrr
