/-
Quadratic irrationals at some distance from their conjugates.
-/
import Verif.Spec.CFArith

namespace NumIrr
namespace CF

/-- `z = A + B√R` where `B√R` has the sign of `z`, and `2|B|√R ≥ 1` -/
def Far (z : ℝ) : Prop :=
  ∃ (A B : ℚ) (R : ℤ), 0 ≤ R ∧ ¬ IsSquare R ∧ z = A + B * √(R : ℝ) ∧ 0 < (B : ℝ) * z ∧ 1 ≤ 4 * (B * B * R)

/-- `z = A + B√R` where `B√R` has the sign of `z`, and the fractional part of `|z|` is below the distance `2|B|√R` of `z` from its
conjugate -/
def Apart (z : ℝ) : Prop :=
  ∃ (A B : ℚ) (R : ℤ), 0 ≤ R ∧ ¬ IsSquare R ∧ z = A + B * √(R : ℝ) ∧ 0 < (B : ℝ) * z ∧ Int.fract |z| < 2 * |(B : ℝ)| * √(R : ℝ)

end CF
end NumIrr
