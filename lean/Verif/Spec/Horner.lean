/-
Polynomials with rational coefficients, and the program that evaluates them at a surd by Horner's rule.
-/
import Verif.Model.Surd
import Verif.Spec.Surd
import Mathlib.Algebra.BigOperators.Fin

namespace NumIrr

/-- the value at `z` of the polynomial with the coefficients `l`, lowest first -/
noncomputable def polyVal (l : List ℚ) (z : ℂ) : ℂ := ∑ i : Fin l.length, (l[i] : ℂ) * z ^ (i : ℕ)

/-- the program evaluating it at a surd with `Mul` and `Add<Ratio>` (/repo/src/quadratic/surd.rs:1183-1215, 1134) -/
def hornerRun (cfg : Cfg) (s : Surd) : List ℚ → Res Surd
  | [] => .ok (Surd.ofInt 0)
  | c :: l => do
    let t ← hornerRun cfg s l
    let u ← Surd.mul cfg t s
    Surd.addRat cfg u c

end NumIrr
