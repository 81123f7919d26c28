/-
Quadratic integers over a fixed-width type as elements of the ring `(ℤ/2^w)[ω]`.
-/
import Verif.Spec.Fixed

namespace NumIrr

/-- The numbers of the ring with discriminant `D` that can be stored: representable fields, and irrational ones have the
discriminant `D`. -/
structure Fx.InRing (x : Fx) (D : ℤ) (u : QInt) : Prop where
  a : x.Holds u.a
  b : x.Holds u.b
  discr : u.b ≠ 0 → u.d = D

/-- A discriminant of `QuadraticInt` over `i{w}`. -/
structure Fx.Discr (x : Fx) (cfg : Cfg) (D : ℤ) : Prop where
  holds : x.Holds D
  mod4 : D % 4 ≠ 0
  irrational : ¬ IsSquare D
  real : cfg.complex = false → 0 ≤ D

/-- `ω² = omegaSq D + omegaLin D · ω`, where `ω = (1 + √D)/2` if `D ≡ 1 (mod 4)` and `ω = √D` otherwise -/
def omegaSq (D : ℤ) : ℤ := if D % 4 = 1 then (D - 1) / 4 else D
def omegaLin (D : ℤ) : ℤ := if D % 4 = 1 then 1 else 0

/-- both runs return, with the same coefficients -/
def QInt.Agree (l r : Res QInt) : Prop := ∃ s t, l = .ok s ∧ r = .ok t ∧ s.a = t.a ∧ s.b = t.b

/-- if both runs return, then with the same coefficients -/
def QInt.AgreeIfReturn (l r : Res QInt) : Prop := ∀ s t, l = .ok s → r = .ok t → s.a = t.a ∧ s.b = t.b

/-- both runs return the same number -/
def GInt.Agree (l r : Res GInt) : Prop := ∃ s, l = .ok s ∧ r = .ok s

/-- if both runs return, then the same number -/
def GInt.AgreeIfReturn (l r : Res GInt) : Prop := ∀ s t, l = .ok s → r = .ok t → s = t

end NumIrr
