/-
Chains of operations on continued fractions.
-/
import Verif.Model.CFSurd

namespace NumIrr

/-- The second operation on the result of the first; a panic, or a loop that is still running, is passed on. -/
def CF.andThen (x : Option (Res CF)) (f : CF → Option (Res CF)) : Option (Res CF) :=
  match x with
  | none => none
  | some (.error e) => some (.error e)
  | some (.ok c) => f c

end NumIrr
