/-
Comparing two computations that may panic or run on, for C120.
-/
import Verif.Model.Basic

namespace NumIrr

/-- two computations return the same result, or both are still running, or both panic -/
def SameRun {α : Type} (u v : Option (Res α)) : Prop :=
  u = v ∨ ∃ e f, u = some (.error e) ∧ v = some (.error f)

end NumIrr
