/-
Model of /repo/src/symbols.rs.  All citations in this file are to that file.

Simplifications: the integer type is `Int` (unbounded), `Ratio` is `Rat`, the counter `n : usize` of the gamma
coefficients is an unbounded `Nat`.  The floating point constants `value()` (lines 34-36, 78-80) are in
Model/Float.
-/
import Verif.Model.Basic
import Mathlib.Data.Rat.Floor

namespace NumIrr

/-- `ECoefficients` (lines 47-50) -/
structure ECoeffs where
  i : Int
  m : Nat
  deriving DecidableEq, Repr

namespace ECoeffs

/-- `E::cfrac` (lines 38-40) -/
def new : ECoeffs := ⟨0, 0⟩

/-- `ECoefficients::next` (lines 55-74) -/
def next (s : ECoeffs) : Option Int × ECoeffs :=
  if s.i = 0 then (some (1 + 1), { s with i := 1 + 1 })
  else
    let result := if s.m = 1 then some s.i else some 1
    if s.m = 2 then (result, { m := 0, i := 1 + 1 + s.i }) else (result, { s with m := s.m + 1 })

end ECoeffs

/-- `PiCoefficients` (lines 97-100) -/
structure PiCoeffs where
  a : Int
  b : Int
  deriving DecidableEq, Repr

namespace PiCoeffs

/-- `Pi::gfrac` (lines 83-88) -/
def new : PiCoeffs := ⟨0, 0⟩

/-- `PiCoefficients::next` (lines 105-123) -/
def next (s : PiCoeffs) : Option (Int × Int) × PiCoeffs :=
  let two : Int := 1 + 1
  if s.a = 0 then (some (1, 0), { s with a := 1 })
  else if s.b = 0 then (some (two + two, 1), { s with b := 1 + two })
  else (some (s.a * s.a, s.b), ⟨s.a + 1, s.b + two⟩)

end PiCoeffs

/-- `GammaCoefficients` (lines 151-157) -/
structure GammaCoeffs where
  n : Nat
  qm1 : Int
  qm2 : Int
  sm1 : Rat
  rm1 : Rat
  deriving DecidableEq, Repr

namespace GammaCoeffs

/-- `Gamma::gfrac` (lines 130-143) -/
def new : GammaCoeffs := ⟨0, 1 + 1, 1, -1, 1⟩

/-- `Ratio::to_integer`: truncation.  Called at symbols.rs:206-207. -/
def toInteger (x : Rat) : Int := x.num.tdiv x.den

/-- the new `q` (line 186) -/
def newQ (s : GammaCoeffs) : Int := 2 * s.n * s.qm1 - ((s.n - 1 : Nat) : Int) * ((s.n - 1 : Nat) : Int) * s.qm2

/-- `rho` (lines 198-203) -/
def newRho (s : GammaCoeffs) : Rat :=
  if s.n = 1 ∨ s.n = 2 then 1
  else if s.n = 3 then 3
  else if s.n = 4 then 10
  else (((s.n : Int) * ((s.n - 1 : Nat) : Int)).tdiv 2 : Int) * s.sm1

/-- `GammaCoefficients::next` (lines 166-216) -/
def next (st : GammaCoeffs) : Res (Option (Int × Int) × GammaCoeffs) :=
  if st.n = 0 then .ok (some (1, 0), { st with n := 1 })
  else if st.n = 1 then .ok (some (1, 2), { st with n := 2 })
  else do
    let n : Int := st.n
    let nm1 : Int := ((st.n - 1 : Nat) : Int)
    let nm2 : Int := ((st.n - 2 : Nat) : Int)
    let q := st.newQ
    let r1 ← ratioNew nm2 n
    let s : Rat := ((nm1 * nm1 : Int) : Rat) * st.sm1 + r1 * (st.qm1 : Rat)
    let a ← ratioDiv (-s) st.sm1
    let r2 ← ratioNew (nm2 * st.qm2) n
    let b' ← ratioDiv r2 st.sm1
    let b : Rat := b' + ((2 * n : Int) : Rat)
    let rho := st.newRho
    let astar := toInteger (rho * st.rm1 * a)
    let bstar := toInteger (rho * b)
    pure (some (astar, bstar), { n := st.n + 1, qm2 := st.qm1, qm1 := q, sm1 := s, rm1 := rho })

end GammaCoeffs
end NumIrr
