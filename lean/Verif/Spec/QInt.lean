/-
What a quadratic integer means, independently of how the library computes with it.
-/
import Verif.Model.QInt
import Verif.Spec.Surd

namespace NumIrr

/-- The generator `ω` of the ring: `(1+√d)/2` when `d ≡ 1 (mod 4)`, `√d` otherwise. -/
noncomputable def omegaC (d : ℤ) : ℂ := if d % 4 = 1 then (1 + rootC d) / 2 else rootC d

/-- The complex number `a + bω`. -/
noncomputable def QInt.valC (x : QInt) : ℂ := x.a + x.b * omegaC x.d

/-- The complex number `re + im·i`. -/
noncomputable def GInt.valC (x : GInt) : ℂ := x.re + x.im * Complex.I

/-- Documented representation invariant (integer.rs:238-239), plus: the discriminant is not a square. -/
structure QInt.Ok (cfg : Cfg) (x : QInt) : Prop where
  rational : x.d = 0 → x.b = 0
  mod4 : x.d ≠ 0 → x.d % 4 ≠ 0
  irrational : x.d ≠ 0 → ¬ IsSquare x.d
  real : cfg.complex = false → 0 ≤ x.d

/-- One of the two discriminants is the other one times a perfect square. -/
def QInt.Compatible (x y : QInt) : Prop := ∃ k : ℤ, x.d = k * k * y.d ∨ y.d = k * k * x.d

/-- `n` is `q` rounded to the nearest integer, halves away from zero. -/
def RoundAway (q : ℚ) (n : ℤ) : Prop := |q - n| ≤ 1 / 2 ∧ (|q - n| = 1 / 2 → |q| < |(n : ℚ)|)

/-- Quadratic integers a program can obtain through the public API. -/
inductive QInt.Reach (cfg : Cfg) : QInt → Prop where
  | new {a b r t} : QInt.new cfg a b r = .ok t → Reach cfg t
  | fromCoeffs {c d t} : QInt.fromCoeffs cfg c d = .ok t → Reach cfg t
  | zero : Reach cfg QInt.zero
  | one : Reach cfg QInt.one
  | conj {x t} : Reach cfg x → x.conj = .ok t → Reach cfg t
  | neg {x} : Reach cfg x → Reach cfg x.neg
  | addInt {x k} : Reach cfg x → Reach cfg (x.addInt k)
  | subInt {x k} : Reach cfg x → Reach cfg (x.subInt k)
  | mulInt {x k} : Reach cfg x → Reach cfg (x.mulInt k)
  | divInt {x k t} : Reach cfg x → x.divInt k = .ok t → Reach cfg t
  | remInt {x k t} : Reach cfg x → x.remInt k = .ok t → Reach cfg t
  | add {x y t} : Reach cfg x → Reach cfg y → QInt.add cfg x y = .ok t → Reach cfg t
  | sub {x y t} : Reach cfg x → Reach cfg y → QInt.sub cfg x y = .ok t → Reach cfg t
  | mul {x y t} : Reach cfg x → Reach cfg y → QInt.mul cfg x y = .ok t → Reach cfg t
  | div {x y t} : Reach cfg x → Reach cfg y → QInt.div cfg x y = .ok t → Reach cfg t
  | rem {x y t} : Reach cfg x → Reach cfg y → QInt.rem cfg x y = .ok t → Reach cfg t
  | surd {s t} : Surd.toQuadint cfg s = .ok t → Reach cfg t.value

end NumIrr
