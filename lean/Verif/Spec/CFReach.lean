/-
The continued fractions a program can build with the public interface, and the shape they have.
-/
import Verif.Spec.CFArith
import Verif.Spec.CF

namespace NumIrr
namespace CF

/-- What a program can build: constants, conversions, `new` with any aperiodic coefficients and a positive period
(finite fractions included), the fractions of real surds, and all results of operations on fractions built before. -/
inductive Reach (cfg : Cfg) : CF → Prop
  | zero : Reach cfg CF.zero
  | one : Reach cfg CF.one
  | ofInt (t : Int) : Reach cfg (CF.ofInt t)
  | ofRat (r : Rat) : Reach cfg (CF.ofRat r)
  | new {a p : List Int} {n : Bool} {c : CF} (hp : ∀ v ∈ p, 1 ≤ v) (h : CF.new cfg.debug a p n = .ok c) : Reach cfg c
  | fromIter {l : List Int} {c : CF} (h : CF.fromIter cfg.debug l = .ok c) : Reach cfg c
  | ofSurd {s : Surd} {fuel : Nat} {c : CF} (hs : s.RealOk) (h : s.toContfrac cfg fuel = some (.ok (some c))) :
      Reach cfg c
  | neg {c : CF} (hc : Reach cfg c) : Reach cfg c.neg'
  | addInt {c c' : CF} {k : Int} (hc : Reach cfg c) (h : c.addInt cfg.debug k = .ok c') : Reach cfg c'
  | subInt {c c' : CF} {k : Int} (hc : Reach cfg c) (h : c.subInt cfg.debug k = .ok c') : Reach cfg c'
  | num {c c' : CF} {fuel : Nat} {o : NumOp} (hc : Reach cfg c) (h : o.run cfg fuel c = some (.ok c')) : Reach cfg c'
  | bin {c e c' : CF} {fuel : Nat} {o : BinOp} (hc : Reach cfg c) (he : Reach cfg e)
      (h : o.run cfg fuel c e = some (.ok c')) : Reach cfg c'

/-- The shape of what can be built: a finite fraction is empty or canonical; in a periodic one the period is positive,
and so are the aperiodic coefficients except possibly the first and the last. -/
def Tame (c : CF) : Prop :=
  (c.p = [] → c.a = [] ∨ c.Canonical) ∧ (c.p ≠ [] → (∀ v ∈ c.p, 1 ≤ v) ∧ ∀ v ∈ c.a.tail.dropLast, 1 ≤ v)

/-- The part of `Reach` that stays well-formed: no zero after the first coefficient of a periodic fraction is given to
`new`, the first one is not negative, and integers are added to periodic fractions only if the integer part keeps its
sign. -/
inductive Built (cfg : Cfg) : CF → Prop
  | zero : Built cfg CF.zero
  | one : Built cfg CF.one
  | ofInt (t : Int) : Built cfg (CF.ofInt t)
  | ofRat (r : Rat) : Built cfg (CF.ofRat r)
  | newFinite {a : List Int} {n : Bool} {c : CF} (ha : cfVal a ≠ none) (h : CF.new cfg.debug a [] n = .ok c) :
      Built cfg c
  | newPeriodic {a0 : Int} {a p : List Int} {n : Bool} {c : CF} (h0 : 0 ≤ a0) (ha : ∀ v ∈ a, 1 ≤ v) (hp : ∀ v ∈ p, 1 ≤ v)
      (hp0 : p ≠ []) (h : CF.new cfg.debug (a0 :: a) p n = .ok c) : Built cfg c
  | ofSurd {s : Surd} {fuel : Nat} {c : CF} (hs : s.RealOk) (h : s.toContfrac cfg fuel = some (.ok (some c))) :
      Built cfg c
  | neg {c : CF} (hc : Built cfg c) : Built cfg c.neg'
  | addInt {c c' : CF} {k : Int} (hc : Built cfg c)
      (hk : c.p ≠ [] → 0 ≤ ((c.a.headD 0 : Nat) : Int) + signed c.neg k) (h : c.addInt cfg.debug k = .ok c') : Built cfg c'
  | subInt {c c' : CF} {k : Int} (hc : Built cfg c)
      (hk : c.p ≠ [] → 0 ≤ ((c.a.headD 0 : Nat) : Int) - signed c.neg k) (h : c.subInt cfg.debug k = .ok c') : Built cfg c'
  | num {c c' : CF} {fuel : Nat} {o : NumOp} (hc : Built cfg c) (h : o.run cfg fuel c = some (.ok c')) : Built cfg c'
  | bin {c e c' : CF} {fuel : Nat} {o : BinOp} (hc : Built cfg c) (he : Built cfg e)
      (h : o.run cfg fuel c e = some (.ok c')) : Built cfg c'

end CF
end NumIrr
