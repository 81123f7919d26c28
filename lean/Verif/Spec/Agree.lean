/-
The same formulas calculated with surds instead of quadratic integers.
-/
import Verif.Spec.QFormula
import Verif.Spec.Surd
import Verif.Model.FixedSurd

namespace NumIrr
namespace QFormula

/-- the program computing the formula with `QuadraticSurd<BigInt>` -/
def runSurd (cfg : Cfg) (r : Int) : QFormula → Res Surd
  | lit a b => Surd.new cfg a b 1 r
  | neg f => do return (← f.runSurd cfg r).neg
  | conj f => do return (← f.runSurd cfg r).conj
  | add f g => do Surd.add cfg (← f.runSurd cfg r) (← g.runSurd cfg r)
  | sub f g => do Surd.sub cfg (← f.runSurd cfg r) (← g.runSurd cfg r)
  | mul f g => do Surd.mul cfg (← f.runSurd cfg r) (← g.runSurd cfg r)

/-- the program computing it with surds over a primitive integer type -/
def runSurdFx (x : Fx) (cfg : Cfg) (r : Int) : QFormula → Res Surd
  | lit a b => x.surdNew cfg a b 1 r
  | neg f => do x.surdNeg (← f.runSurdFx x cfg r)
  | conj f => do x.conj (← f.runSurdFx x cfg r)
  | add f g => do x.surdAdd cfg (← f.runSurdFx x cfg r) (← g.runSurdFx x cfg r)
  | sub f g => do x.surdSub cfg (← f.runSurdFx x cfg r) (← g.runSurdFx x cfg r)
  | mul f g => do x.surdMul cfg (← f.runSurdFx x cfg r) (← g.runSurdFx x cfg r)

/-- the number denoted is a non-zero multiple of `√r`: exchanging `√r` and `-√r` changes its sign -/
def Multiple (r : Int) (f : QFormula) : Prop := f.val (rootC r) ≠ 0 ∧ f.val (-rootC r) = -f.val (rootC r)

/-- no product in the formula is one of two multiples of `√r` -/
def NoPure (r : Int) : QFormula → Prop
  | lit _ _ => True
  | neg f | conj f => f.NoPure r
  | add f g | sub f g => f.NoPure r ∧ g.NoPure r
  | mul f g => f.NoPure r ∧ g.NoPure r ∧ ¬ (f.Multiple r ∧ g.Multiple r)

end QFormula
end NumIrr
