/-
Representable integers of the iterators on generalized continued fractions.
-/
import Verif.Model.General

namespace NumIrr

/-- a primitive integer type of at least two bits -/
def IntTy.IsPrim (ty : IntTy) : Prop := ∃ w, 2 ≤ w ∧ (ty = .unsigned w ∨ ty = .signed w)

/-- all four entries are representable -/
def Block.Fits (ty : IntTy) (m : Block) : Prop :=
  ty.fits m.pm1 = true ∧ ty.fits m.pm2 = true ∧ ty.fits m.qm1 = true ∧ ty.fits m.qm2 = true

end NumIrr
