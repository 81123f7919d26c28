/-
What is expected of a conversion to single precision numbers (binary32).
-/
import Verif.Model.Float32

namespace NumIrr

/-- `v` is a finite binary32 number, up to its range: 24 binary digits, the last of which is at least `2^(-149)` -/
def IsF32 (v : ℝ) : Prop := ∃ m e : ℤ, |m| < 2 ^ 24 ∧ -149 ≤ e ∧ v = m * 2 ^ e

/-- `z` represents the real number `x`, which was known up to the error `ε`: a number in the range of binary32 becomes a
binary32 number, and no other one is nearer by more than `2ε`; a number out of the range (from the middle between the
largest number and `2¹²⁸` on) becomes an infinity of the right sign -/
def Near32 (ε : ℝ) (z : F32) (x : ℝ) : Prop :=
  (|x| + ε < 2 ^ (128 : ℤ) - 2 ^ (103 : ℤ) → ∃ w, z = .fin w ∧ IsF32 w ∧
    |w - x| ≤ (|x| + ε) / 2 ^ 24 + ε + 1 / 2 ^ 150 ∧ ∀ v, IsF32 v → |w - x| ≤ |v - x| + 2 * ε) ∧
  (2 ^ (128 : ℤ) - 2 ^ (103 : ℤ) + ε < |x| → z = .inf (decide (x < 0)))

end NumIrr
