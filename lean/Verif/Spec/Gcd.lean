/-
Greatest common divisors in the ring of quadratic integers, and Euclid's algorithm as a user of the library writes it.
-/
import Verif.Model.FixedQInt
import Verif.Spec.QIntRing
import Mathlib.RingTheory.Adjoin.Basic

namespace NumIrr

/-- the ring `ℤ[ω]` of the quadratic integers with discriminant `D`, inside the complex numbers -/
noncomputable def ringOf (D : ℤ) : Subalgebra ℤ ℂ := Algebra.adjoin ℤ {omegaC D}

/-- `x` divides `y` in the ring -/
def DividesIn (D : ℤ) (x y : ℂ) : Prop := ∃ z ∈ ringOf D, y = x * z

/-- `g` is a greatest common divisor of `a` and `b` in the ring, and a combination of them -/
structure IsGcdIn (D : ℤ) (g a b : ℂ) : Prop where
  left : DividesIn D g a
  right : DividesIn D g b
  greatest : ∀ h, DividesIn D h a → DividesIn D h b → DividesIn D h g
  bezout : ∃ s ∈ ringOf D, ∃ t ∈ ringOf D, g = s * a + t * b

/-- `while b != 0 { (a, b) = (b, a % b) }; a` with at most `fuel` rounds, for a given remainder and test for zero -/
def euclid {α : Type} (rem : α → α → Res α) (isZero : α → Bool) : Nat → α → α → Option (Res α)
  | 0, _, _ => none
  | fuel + 1, a, b =>
    if isZero b then some (.ok a)
    else match rem a b with
      | .error e => some (.error e)
      | .ok r => euclid rem isZero fuel b r

/-- with `GaussianInt<BigInt>` (which has no `is_zero`: compared with `GaussianInt::new(0, 0)`) -/
def GInt.euclid : Nat → GInt → GInt → Option (Res GInt) := NumIrr.euclid GInt.rem (fun b => b = ⟨0, 0⟩)

/-- with `GaussianInt` over a primitive integer type -/
def Fx.gEuclid (x : Fx) : Nat → GInt → GInt → Option (Res GInt) := NumIrr.euclid x.gRem (fun b => b = ⟨0, 0⟩)

/-- with `QuadraticInt<BigInt>` -/
def QInt.euclid (cfg : Cfg) : Nat → QInt → QInt → Option (Res QInt) := NumIrr.euclid (QInt.rem cfg) QInt.isZero

/-- the algorithm meets a rational divisor other than zero -/
inductive QInt.MeetsRational (cfg : Cfg) : QInt → QInt → Prop where
  | here {a b} : b.b = 0 → b.a ≠ 0 → MeetsRational cfg a b
  | next {a b r} : b.isZero = false → QInt.rem cfg a b = .ok r → MeetsRational cfg b r → MeetsRational cfg a b

end NumIrr
