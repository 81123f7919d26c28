/-
Formulas built from numbers `(a + b√r)/c` with the operations of a field, and what they denote.
-/
import Verif.Model.Surd
import Verif.Model.FixedSurd
import Verif.Spec.Surd
import Mathlib.NumberTheory.Real.Irrational

namespace NumIrr

/-- a formula a user may write with surds -/
inductive Formula where
  | lit (a b c r : Int)
  | neg (f : Formula)
  | recip (f : Formula)
  | add (f g : Formula)
  | sub (f g : Formula)
  | mul (f g : Formula)
  | div (f g : Formula)

namespace Formula

/-- the real number a formula denotes -/
noncomputable def real : Formula → ℝ
  | lit a b c r => (a + b * Real.sqrt r) / c
  | neg f => -f.real
  | recip f => 1 / f.real
  | add f g => f.real + g.real
  | sub f g => f.real - g.real
  | mul f g => f.real * g.real
  | div f g => f.real / g.real

/-- it denotes one: nothing is divided by zero, and no root is taken of a negative number -/
def Defined : Formula → Prop
  | lit _ _ c r => c ≠ 0 ∧ 0 ≤ r
  | neg f => f.Defined
  | recip f => f.Defined ∧ f.real ≠ 0
  | add f g => f.Defined ∧ g.Defined
  | sub f g => f.Defined ∧ g.Defined
  | mul f g => f.Defined ∧ g.Defined
  | div f g => f.Defined ∧ g.Defined ∧ g.real ≠ 0

/-- all roots written in it are `√d` -/
def Over (d : Int) : Formula → Prop
  | lit _ _ _ r => r = d
  | neg f => f.Over d
  | recip f => f.Over d
  | add f g => f.Over d ∧ g.Over d
  | sub f g => f.Over d ∧ g.Over d
  | mul f g => f.Over d ∧ g.Over d
  | div f g => f.Over d ∧ g.Over d

/-- no zero is divided by an irrational number in it -/
def NoZeroOver : Formula → Prop
  | lit _ _ _ _ => True
  | neg f => f.NoZeroOver
  | recip f => f.NoZeroOver
  | add f g => f.NoZeroOver ∧ g.NoZeroOver
  | sub f g => f.NoZeroOver ∧ g.NoZeroOver
  | mul f g => f.NoZeroOver ∧ g.NoZeroOver
  | div f g => f.NoZeroOver ∧ g.NoZeroOver ∧ (f.real = 0 → ¬ Irrational g.real)

/-- the program computing it with `QuadraticSurd<BigInt>` -/
def run (cfg : Cfg) : Formula → Res Surd
  | lit a b c r => Surd.new cfg a b c r
  | neg f => do return (← f.run cfg).neg
  | recip f => do Surd.recip cfg (← f.run cfg)
  | add f g => do Surd.add cfg (← f.run cfg) (← g.run cfg)
  | sub f g => do Surd.sub cfg (← f.run cfg) (← g.run cfg)
  | mul f g => do Surd.mul cfg (← f.run cfg) (← g.run cfg)
  | div f g => do Surd.div cfg (← f.run cfg) (← g.run cfg)

/-- the program computing it over a primitive integer type -/
def runFx (x : Fx) (cfg : Cfg) : Formula → Res Surd
  | lit a b c r => x.surdNew cfg a b c r
  | neg f => do x.surdNeg (← f.runFx x cfg)
  | recip f => do x.recip cfg (← f.runFx x cfg)
  | add f g => do x.surdAdd cfg (← f.runFx x cfg) (← g.runFx x cfg)
  | sub f g => do x.surdSub cfg (← f.runFx x cfg) (← g.runFx x cfg)
  | mul f g => do x.surdMul cfg (← f.runFx x cfg) (← g.runFx x cfg)
  | div f g => do x.surdDiv cfg (← f.runFx x cfg) (← g.runFx x cfg)

end Formula
end NumIrr
