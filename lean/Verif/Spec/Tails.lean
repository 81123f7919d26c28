/-
The complete quotients of a real number; `⌊tails x n⌋` is the `n`-th coefficient of its regular continued fraction.
-/
import Mathlib.Data.Real.Basic
import Mathlib.Algebra.Order.Floor.Ring
import Mathlib.Algebra.Order.Archimedean.Real.Basic

namespace NumIrr

/-- the complete quotients of a real number: `x₀ = x`, `xₙ₊₁ = 1/(xₙ - ⌊xₙ⌋)` -/
noncomputable def tails : ℝ → ℕ → ℝ
  | x, 0 => x
  | x, n + 1 => tails (1 / (x - ⌊x⌋)) n

end NumIrr
