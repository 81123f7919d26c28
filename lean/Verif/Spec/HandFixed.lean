/-
Expanding a surd over a primitive integer type by hand.
-/
import Verif.Model.FixedSurd

namespace NumIrr
namespace Fx

/-- `(s - s.floor()).recip()` -/
def handStep (x : Fx) (cfg : Cfg) (s : Surd) : Res Surd := do
  let f ← x.floor cfg s
  let d ← x.surdSub cfg s f
  x.recip cfg d

/-- the same, repeated -/
def hand (x : Fx) (cfg : Cfg) (s : Surd) : Nat → Res Surd
  | 0 => pure s
  | n + 1 => do x.handStep cfg (← hand x cfg s n)

end Fx
end NumIrr
