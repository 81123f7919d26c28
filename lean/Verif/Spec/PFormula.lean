/-
Formulas calculated with continued fractions of any kind, and what the fractions returned stand for.
-/
import Mathlib.NumberTheory.Real.Irrational
import Verif.Model.CFSurd
import Verif.Spec.CFArith
import Verif.Spec.CF
import Verif.Spec.SurdCF
import Verif.Spec.CFLaws

namespace NumIrr

/-- a formula a user may write with continued fractions, finite or periodic; each fraction is written together with its
value -/
inductive PFormula where
  | frac (c : CF) (v : ℝ)
  | neg (f : PFormula)
  | num (o : NumOp) (f : PFormula)
  | bin (o : BinOp) (f g : PFormula)

namespace PFormula

/-- the number it denotes -/
noncomputable def val : PFormula → ℝ
  | frac _ v => v
  | neg f => -f.val
  | num o f => o.real f.val
  | bin o f g => o.real f.val g.val

/-- the program computing it -/
def run (cfg : Cfg) (fuel : Nat) : PFormula → Option (Res CF)
  | frac c _ => some (.ok c)
  | neg f => CF.andThen (f.run cfg fuel) fun c => some (.ok c.neg')
  | num o f => CF.andThen (f.run cfg fuel) fun c => o.run cfg fuel c
  | bin o f g => CF.andThen (f.run cfg fuel) fun c => CF.andThen (g.run cfg fuel) fun e => o.run cfg fuel c e

/-- the fractions written in it are well-formed and have the values written -/
def Leaves : PFormula → Prop
  | frac c v => c.Wf ∧ c.HasVal v
  | neg f => f.Leaves
  | num _ f => f.Leaves
  | bin _ f g => f.Leaves ∧ g.Leaves

/-- What the library stores for the exact result `z` of an operation with an irrational operand: `z`, or another number if
the conversion of a surd for `z` confuses it with its conjugate or loses its sign. -/
def Kept (z x : ℝ) : Prop := ∃ s : Surd, s.RealOk ∧ s.r ≠ 0 ∧ s.val = z ∧ x = s.cfValue

/-- the number the returned fraction stands for: exact as long as the operands are rational -/
inductive Stored : PFormula → ℝ → Prop
  | frac (c : CF) (v : ℝ) : Stored (frac c v) v
  | neg {f : PFormula} {x : ℝ} : Stored f x → Stored (neg f) (-x)
  | numRat {o : NumOp} {f : PFormula} {q : ℚ} : Stored f q → Stored (num o f) (o.real q)
  | num {o : NumOp} {f : PFormula} {x z : ℝ} : Stored f x → Irrational x → Kept (o.real x) z → Stored (num o f) z
  | binRat {o : BinOp} {f g : PFormula} {q r : ℚ} : Stored f q → Stored g r → Stored (bin o f g) (o.real q r)
  | bin {o : BinOp} {f g : PFormula} {x y z : ℝ} : Stored f x → Stored g y → Irrational x ∨ Irrational y →
      Kept (o.real x y) z → Stored (bin o f g) z

/-- every result of an operation with an irrational operand satisfies `P` -/
def Every (P : ℝ → Prop) : PFormula → Prop
  | frac _ _ => True
  | neg f => f.Every P
  | num o f => f.Every P ∧ (Irrational f.val → P (o.real f.val))
  | bin o f g => f.Every P ∧ g.Every P ∧ (Irrational f.val ∨ Irrational g.val → P (o.real f.val g.val))

/-- a fraction changed by operations with numbers only, one after another -/
def Chain : PFormula → Prop
  | frac _ _ => True
  | neg f => f.Chain
  | num o f => f.Chain ∧ o.Defined
  | bin _ _ _ => False

/-- the fraction a chain starts from -/
def leaf : PFormula → CF × ℝ
  | frac c v => (c, v)
  | neg f | num _ f | bin _ f _ => f.leaf

end PFormula
end NumIrr
