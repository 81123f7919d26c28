/-
The operations on continued fractions and their meaning on real numbers; two kinds of quadratic numbers.
-/
import Verif.Model.CFSurd
import Verif.Spec.Surd

namespace NumIrr

/-- operations of a continued fraction with a number -/
inductive NumOp where
  | mulInt (k : ℤ)
  | divInt (k : ℤ)
  | addRat (k : ℚ)
  | subRat (k : ℚ)
  | mulRat (k : ℚ)
  | divRat (k : ℚ)

/-- what the operation should compute -/
noncomputable def NumOp.real : NumOp → ℝ → ℝ
  | .mulInt k, x => x * k
  | .divInt k, x => x / k
  | .addRat k, x => x + k
  | .subRat k, x => x - k
  | .mulRat k, x => x * k
  | .divRat k, x => x / k

/-- not a division by zero -/
def NumOp.Defined : NumOp → Prop
  | .divInt k => k ≠ 0
  | .divRat k => k ≠ 0
  | _ => True

/-- the function of the model -/
def NumOp.run (cfg : Cfg) (fuel : Nat) (c : CF) : NumOp → Option (Res CF)
  | .mulInt k => c.mulInt cfg fuel k
  | .divInt k => c.divInt cfg fuel k
  | .addRat k => c.addRat cfg fuel k
  | .subRat k => c.subRat cfg fuel k
  | .mulRat k => c.mulRat cfg fuel k
  | .divRat k => c.divRat cfg fuel k

/-- operations on two continued fractions -/
inductive BinOp where
  | add
  | sub
  | mul
  | div

/-- what the operation should compute -/
noncomputable def BinOp.real : BinOp → ℝ → ℝ → ℝ
  | .add, x, y => x + y
  | .sub, x, y => x - y
  | .mul, x, y => x * y
  | .div, x, y => x / y

/-- the function of the model -/
def BinOp.run (cfg : Cfg) (fuel : Nat) (c e : CF) : BinOp → Option (Res CF)
  | .add => c.add cfg fuel e
  | .sub => c.sub cfg fuel e
  | .mul => c.mul cfg fuel e
  | .div => c.div cfg fuel e

/-- the operation on surds -/
def BinOp.surd (cfg : Cfg) (x y : Surd) : BinOp → Res Surd
  | .add => x.add cfg y
  | .sub => x.sub cfg y
  | .mul => x.mul cfg y
  | .div => x.div cfg y

/-- `z = A + B√R` with `A² < B²R`: a quadratic irrational whose conjugate has the opposite sign -/
def OppConj (z : ℝ) : Prop :=
  ∃ (A B : ℚ) (R : ℤ), 0 ≤ R ∧ ¬ IsSquare R ∧ z = A + B * √(R : ℝ) ∧ A * A < B * B * R

/-- `z = A + B√R` where `B√R` has the sign of `z` -/
def SameSign (z : ℝ) : Prop :=
  ∃ (A B : ℚ) (R : ℤ), 0 ≤ R ∧ ¬ IsSquare R ∧ z = A + B * √(R : ℝ) ∧ 0 < (B : ℝ) * z

end NumIrr
