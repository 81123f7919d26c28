/-
The negative of a generalized continued fraction.
-/
import Verif.Model.General

namespace NumIrr

/-- `-(b₀ + a₁/(b₁ + …)) = -b₀ + a₁/(-b₁ + a₂/(-b₂ + …))` -/
def negPairs (src : Nat → Option (Int × Int)) : Nat → Option (Int × Int) := fun k => (src k).map fun p => (p.1, -p.2)

namespace GIter

/-- a call of `next` on `convergents` which returns, with an item or `None` -/
def ConvRet (s : GIter) (v : Option Rat) (s' : GIter) : Prop := s.convNext IntTy.big = .ok (v, s')

/-- a call of `next` on `simplify` which returns, with an item or `None` -/
def SimpRet (s : GIter) (v : Option Int) (s' : GIter) : Prop := ∃ fuel, simpNext fuel s = some (v, s')

end GIter
end NumIrr
