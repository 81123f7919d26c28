/-
Formulas built from numbers `a + b√r` with the operations of a ring and conjugation, and what they denote.
-/
import Verif.Model.FixedQInt
import Verif.Spec.QIntRing
import Verif.Spec.Fixed

namespace NumIrr

/-- a formula a user may write with quadratic integers over one root -/
inductive QFormula where
  | lit (a b : Int)
  | neg (f : QFormula)
  | conj (f : QFormula)
  | add (f g : QFormula)
  | sub (f g : QFormula)
  | mul (f g : QFormula)

namespace QFormula

/-- the number it denotes when `√r` is read as `ρ`; conjugation reads it as `-ρ` -/
noncomputable def val : QFormula → ℂ → ℂ
  | lit a b, ρ => a + b * ρ
  | neg f, ρ => -f.val ρ
  | conj f, ρ => f.val (-ρ)
  | add f g, ρ => f.val ρ + g.val ρ
  | sub f g, ρ => f.val ρ - g.val ρ
  | mul f g, ρ => f.val ρ * g.val ρ

/-- the program computing it with `QuadraticInt<BigInt>` -/
def run (cfg : Cfg) (r : Int) : QFormula → Res QInt
  | lit a b => QInt.new cfg a b r
  | neg f => do return (← f.run cfg r).neg
  | conj f => do (← f.run cfg r).conj
  | add f g => do QInt.add cfg (← f.run cfg r) (← g.run cfg r)
  | sub f g => do QInt.sub cfg (← f.run cfg r) (← g.run cfg r)
  | mul f g => do QInt.mul cfg (← f.run cfg r) (← g.run cfg r)

/-- the program computing it over a primitive integer type -/
def runFx (x : Fx) (cfg : Cfg) (r : Int) : QFormula → Res QInt
  | lit a b => x.qNew cfg a b r
  | neg f => do x.qNeg (← f.runFx x cfg r)
  | conj f => do x.qConj (← f.runFx x cfg r)
  | add f g => do x.qAdd cfg (← f.runFx x cfg r) (← g.runFx x cfg r)
  | sub f g => do x.qSub cfg (← f.runFx x cfg r) (← g.runFx x cfg r)
  | mul f g => do x.qMul cfg (← f.runFx x cfg r) (← g.runFx x cfg r)

/-- the program computing it with `GaussianInt<BigInt>` (for `r = -1`) -/
def runG : QFormula → Res GInt
  | lit a b => .ok ⟨a, b⟩
  | neg f => do return (⟨0, 0⟩ : GInt).sub (← f.runG)
  | conj f => do return (← f.runG).conj
  | add f g => do return (← f.runG).add (← g.runG)
  | sub f g => do return (← f.runG).sub (← g.runG)
  | mul f g => do (← f.runG).mul (← g.runG)

/-- the program computing it with `GaussianInt` over a primitive integer type -/
def runGFx (x : Fx) : QFormula → Res GInt
  | lit a b => .ok ⟨a, b⟩
  | neg f => do x.gSub ⟨0, 0⟩ (← f.runGFx x)
  | conj f => do x.gConj (← f.runGFx x)
  | add f g => do x.gAdd (← f.runGFx x) (← g.runGFx x)
  | sub f g => do x.gSub (← f.runGFx x) (← g.runGFx x)
  | mul f g => do x.gMul (← f.runGFx x) (← g.runGFx x)

/-- the numbers written in the formula are representable -/
def Writable (x : Fx) : QFormula → Prop
  | lit a b => x.Holds a ∧ x.Holds b
  | neg f | conj f => f.Writable x
  | add f g | sub f g | mul f g => f.Writable x ∧ g.Writable x

end QFormula
end NumIrr
