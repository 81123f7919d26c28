/-
The regular continued fraction of a rational number or infinity, and homographic functions of such numbers.
-/
import Verif.Spec.CF

namespace NumIrr

/-- `l` is the regular continued fraction of `r`, written in the shorter way; that of infinity (`none`) is empty -/
def IsExp (l : List Int) (r : Option Rat) : Prop :=
  cfVal l = r ∧ (∀ v ∈ l.tail, 1 ≤ v) ∧ (l.tail ≠ [] → l.getLastD 0 ≠ 1)

/-- `(px + q)/(kx + d)` for a rational number or infinity `x` -/
def mobQ (p q k d : Int) : Option Rat → Option Rat
  | none => if k = 0 then none else some ((p : Rat) / k)
  | some x => if k * x + d = 0 then none else some ((p * x + q) / (k * x + d))

/-- the longest common prefix of two lists -/
def commonPrefix : List Int → List Int → List Int
  | a :: l, b :: m => if a = b then a :: commonPrefix l m else []
  | _, _ => []

end NumIrr
