/-
Formulas of rational numbers calculated with continued fractions.
-/
import Verif.Model.FixedCFSurd
import Verif.Spec.CFArith
import Verif.Spec.Fixed

namespace NumIrr

/-- a formula a user may write with continued fractions made from rational numbers -/
inductive CFFormula where
  | lit (q : Rat)
  | neg (f : CFFormula)
  | bin (o : BinOp) (f g : CFFormula)

namespace CFFormula

/-- the rational number it denotes -/
def rat : CFFormula → Rat
  | lit q => q
  | neg f => -f.rat
  | bin .add f g => f.rat + g.rat
  | bin .sub f g => f.rat - g.rat
  | bin .mul f g => f.rat * g.rat
  | bin .div f g => f.rat / g.rat

/-- nothing is divided by zero -/
def Defined : CFFormula → Prop
  | lit _ => True
  | neg f => f.Defined
  | bin o f g => f.Defined ∧ g.Defined ∧ (o = .div → g.rat ≠ 0)

/-- the numbers written in it can be written in a signed type of `w` bits -/
def Fits (w : Nat) : CFFormula → Prop
  | lit q => -2 ^ (w - 1) ≤ q.num ∧ q.num < 2 ^ (w - 1) ∧ (q.den : Int) < 2 ^ (w - 1)
  | neg f => f.Fits w
  | bin _ f g => f.Fits w ∧ g.Fits w

/-- one step after another, each of which may panic or not end -/
def andThen (r : Option (Res CF)) (k : CF → Option (Res CF)) : Option (Res CF) :=
  match r with
  | none => none
  | some (.error e) => some (.error e)
  | some (.ok c) => k c

/-- the program computing it with arbitrary precision -/
def run (cfg : Cfg) (fuel : Nat) : CFFormula → Option (Res CF)
  | lit q => some (.ok (CF.ofRat q))
  | neg f => andThen (f.run cfg fuel) fun c => some (.ok c.neg')
  | bin o f g => andThen (f.run cfg fuel) fun c => andThen (g.run cfg fuel) fun e => o.run cfg fuel c e

/-- the program computing it over primitive integers -/
def runFx (x : Fx) (cfg : Cfg) (fuel : Nat) : CFFormula → Option (Res CF)
  | lit q => x.ofRat fuel (.of q)
  | neg f => andThen (f.runFx x cfg fuel) fun c => some (.ok c.neg')
  | bin o f g => andThen (f.runFx x cfg fuel) fun c => andThen (g.runFx x cfg fuel) fun e => o.runFx x cfg fuel c e

end CFFormula
end NumIrr
