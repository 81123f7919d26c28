/-
What a quadratic surd means, independently of how the library computes with it.
-/
import Verif.Model.Surd
import Mathlib.Analysis.Real.Sqrt
import Mathlib.Analysis.Complex.Basic
import Mathlib.Algebra.Group.Even

namespace NumIrr

/-- The principal square root of an integer as a complex number: `√r` for `r ≥ 0`, `i√|r|` for `r < 0`. -/
noncomputable def rootC (r : ℤ) : ℂ :=
  if 0 ≤ r then ((Real.sqrt r : ℝ) : ℂ) else Complex.I * ((Real.sqrt (-r) : ℝ) : ℂ)

/-- The principal square root of a rational number as a complex number. -/
noncomputable def rootQ (t : ℚ) : ℂ :=
  if 0 ≤ t then ((Real.sqrt t : ℝ) : ℂ) else Complex.I * ((Real.sqrt (-t) : ℝ) : ℂ)

/-- The number `(a + b√r)/c` as a complex number. -/
noncomputable def quadC (a b c r : ℤ) : ℂ := ((a : ℂ) + b * rootC r) / c

/-- The number `(a + b√r)/c` as a real number (meaningful for `r ≥ 0`). -/
noncomputable def quadR (a b c r : ℤ) : ℝ := ((a : ℝ) + b * Real.sqrt r) / c

/-- The complex number denoted by a surd. -/
noncomputable def Surd.valC (s : Surd) : ℂ := quadC s.a s.b s.c s.r

/-- The real number denoted by a surd with non-negative root. -/
noncomputable def Surd.val (s : Surd) : ℝ := quadR s.a s.b s.c s.r

/-- The normal form promised for every public surd: positive denominator, no common divisor,
no root for rationals, and otherwise a root that is not a perfect square (and not zero). -/
structure Surd.Normal (s : Surd) : Prop where
  c_pos : 0 < s.c
  coprime : ∀ d : ℤ, d ∣ s.a → d ∣ s.b → d ∣ s.c → IsUnit d
  rational : s.b = 0 ↔ s.r = 0
  irrational : s.r ≠ 0 → ¬ IsSquare s.r

/-- Normal form, and no negative roots unless the `complex` feature is enabled. -/
structure Surd.Ok (cfg : Cfg) (s : Surd) : Prop extends s.Normal where
  real : cfg.complex = false → 0 ≤ s.r

/-- Real surd in normal form. -/
structure Surd.RealOk (s : Surd) : Prop extends s.Normal where
  real : 0 ≤ s.r

end NumIrr
