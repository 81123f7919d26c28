/-
The rational sequences behind the continued fraction of Euler's constant, after the paper cited in symbols.rs
(Pilehrood, Pilehrood 2013) as quoted in the comments there.
-/
import Mathlib.Data.Rat.Cast.CharZero
import Mathlib.Data.Nat.Choose.Basic
import Mathlib.Algebra.BigOperators.Intervals
import Mathlib.NumberTheory.Harmonic.Defs

namespace NumIrr

/-- Eq (21): `q_n = Σ_k C(n,k)²·k!` -/
def gamQ (n : ℕ) : ℕ := ∑ k ∈ Finset.range (n + 1), n.choose k ^ 2 * k.factorial

/-- the numerators that belong to `q_n`: `p_n = Σ_k C(n,k)²·k!·(2·H_{n-k} - H_k)`, with the harmonic numbers `H_k` -/
def gamP (n : ℕ) : ℚ :=
  ∑ k ∈ Finset.range (n + 1), (n.choose k : ℚ) ^ 2 * k.factorial * (2 * harmonic (n - k) - harmonic k)

/-- Eq (35): `s_n = (n-1)²·s_{n-1} + (n-2)/n·q_{n-1}`, `s_1 = -1` -/
def gamS : ℕ → ℚ
  | 0 => 1
  | 1 => -1
  | n + 2 => (n + 1) ^ 2 * gamS (n + 1) + n / (n + 2) * gamQ (n + 1)

/-- Eq (38): `a_n = -s_n/s_{n-1}` -/
def gamA (n : ℕ) : ℚ := -gamS n / gamS (n - 1)

/-- Eq (38): `b_n = 2n + (n-2)/n·q_{n-2}/s_{n-1}` -/
def gamB (n : ℕ) : ℚ := 2 * n + ((n : ℚ) - 2) / n * gamQ (n - 2) / gamS (n - 1)

/-- the factors by which the fraction is made integral -/
def gamRho (n : ℕ) : ℚ :=
  if n ≤ 2 then 1 else if n = 3 then 3 else if n = 4 then 10 else n * (n - 1) / 2 * gamS (n - 1)

end NumIrr
