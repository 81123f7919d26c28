/-
Expanding a surd into a continued fraction by hand: a program with `floor`, subtraction and `recip`.
-/
import Verif.Model.Surd

namespace NumIrr
namespace Surd

/-- `(s - s.floor()).recip()` -/
def handStep (cfg : Cfg) (s : Surd) : Res Surd := do
  let f ← s.floor cfg
  let d ← s.sub cfg f
  d.recip cfg

/-- the same, repeated -/
def hand (cfg : Cfg) (s : Surd) : Nat → Res Surd
  | 0 => pure s
  | n + 1 => do handStep cfg (← hand cfg s n)

end Surd
end NumIrr
