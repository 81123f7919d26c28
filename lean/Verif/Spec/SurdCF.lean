/-
The notions used to say which quadratic irrationals have their continued fraction computed correctly.
-/
import Verif.Spec.Surd
import Verif.Spec.Tails
import Mathlib.Algebra.Order.Floor.Ring

namespace NumIrr

/-- `x = (P + √d)/Q` with `Q < 0` dividing `d - P²`, and `Q ∣ ⌊√d⌋ + P`: the numbers whose integer part is
computed one too large, as `⌊(⌊√d⌋ + P)/Q⌋` -/
def TooLarge (d : ℤ) (x : ℝ) : Prop :=
  ∃ P Q : ℤ, Q < 0 ∧ Q ∣ d - P * P ∧ x = (P + √(d : ℝ)) / Q ∧ Q ∣ ⌊√(d : ℝ)⌋ + P

/-- moreover `Q` and `(d - ⌊√d⌋²)/Q` divide `2⌊√d⌋` -/
def StuckAt (d : ℤ) (x : ℝ) : Prop :=
  ∃ P Q : ℤ, Q < 0 ∧ Q ∣ d - P * P ∧ x = (P + √(d : ℝ)) / Q ∧ Q ∣ ⌊√(d : ℝ)⌋ + P ∧ Q ∣ 2 * ⌊√(d : ℝ)⌋ ∧
    ∃ Q' : ℤ, Q * Q' = d - ⌊√(d : ℝ)⌋ * ⌊√(d : ℝ)⌋ ∧ Q' ∣ 2 * ⌊√(d : ℝ)⌋

/-- the first complete quotient with a wrong integer part is a stuck one -/
def Hangs (d : ℤ) (x : ℝ) : Prop := ∃ n, StuckAt d (tails x n) ∧ ∀ m < n, ¬ TooLarge d (tails x m)

namespace Surd

/-- the conjugate `(a - b√r)/c` as a real number -/
noncomputable def conjVal (s : Surd) : ℝ := quadR s.a (-s.b) s.c s.r

/-- The denominator does not divide `b²r - a²`, and the irrational part and the number have opposite signs: such a
number is replaced by its conjugate. -/
def Swapped (s : Surd) : Prop := ¬ s.c ∣ s.r * s.b * s.b - s.a * s.a ∧ (s.b : ℝ) * s.val < 0

/-- A negative number with positive irrational part, `c ∣ b²r - a²` and `⌊√(b²r)⌋ + a = -c`: the sign of such a number
is lost. -/
def Flipped (s : Surd) : Prop :=
  s.val < 0 ∧ 0 < s.b ∧ s.c ∣ s.r * s.b * s.b - s.a * s.a ∧ ⌊√((s.r * s.b * s.b : ℤ) : ℝ)⌋ + s.a = -s.c

/-- the integer under the root when the number is written as `(P + √d)/Q` with `Q ∣ d - P²` -/
def cfDisc (s : Surd) : ℤ :=
  if s.c ∣ s.r * s.b * s.b - s.a * s.a then s.r * s.b * s.b else s.r * s.b * s.b * s.c * s.c

/-- the `P`, up to its sign, when the number is written as `(P + √d)/Q` with `Q ∣ d - P²` -/
def cfShift (s : Surd) : ℤ := if s.c ∣ s.r * s.b * s.b - s.a * s.a then s.a else s.a * s.c

open Classical in
/-- the value of the computed fraction -/
noncomputable def cfValue (s : Surd) : ℝ := if Swapped s then s.conjVal else if Flipped s then -s.val else s.val

open Classical in
/-- the absolute value of the number whose expansion is computed -/
noncomputable def cfStart (s : Surd) : ℝ := |if Swapped s then s.conjVal else s.val|

end Surd
end NumIrr
