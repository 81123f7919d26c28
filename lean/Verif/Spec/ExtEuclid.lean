/-
Euclid's extended algorithm as a user of the library writes it, with `/`, `*` and `-` instead of `%`.
-/
import Verif.Model.FixedQInt
import Verif.Spec.Gcd

namespace NumIrr

/-- `a - q * b` -/
def subMul {α : Type} (mul sub : α → α → Res α) (q a b : α) : Res α := do
  let m ← mul q b
  sub a m

/-- one round: `(r, s, t)` and `(r', s', t')` become `(r', s', t')` and their difference by `r / r'` times the second -/
def extStep {α : Type} (div mul sub : α → α → Res α) (u v : α × α × α) : Res (α × α × α) := do
  let q ← div u.1 v.1
  let r ← subMul mul sub q u.1 v.1
  let s ← subMul mul sub q u.2.1 v.2.1
  let t ← subMul mul sub q u.2.2 v.2.2
  return (r, s, t)

/-- `while v.0 != 0 { (u, v) = (v, u - u.0 / v.0 * v) }; u` with at most `fuel` tests -/
def extLoop {α : Type} (div mul sub : α → α → Res α) (isZero : α → Bool) :
    Nat → α × α × α → α × α × α → Option (Res (α × α × α))
  | 0, _, _ => none
  | fuel + 1, u, v =>
    if isZero v.1 then some (.ok u)
    else match extStep div mul sub u v with
      | .error e => some (.error e)
      | .ok w => extLoop div mul sub isZero fuel v w

/-- with `QuadraticInt<BigInt>`: the divisor and the two factors -/
def QInt.extEuclid (cfg : Cfg) (fuel : Nat) (a b : QInt) : Option (Res (QInt × QInt × QInt)) :=
  extLoop (QInt.div cfg) (QInt.mul cfg) (QInt.sub cfg) QInt.isZero fuel (a, .one, .zero) (b, .zero, .one)

/-- with `GaussianInt<BigInt>` -/
def GInt.extEuclid (fuel : Nat) (a b : GInt) : Option (Res (GInt × GInt × GInt)) :=
  extLoop GInt.div GInt.mul (fun x y => .ok (x.sub y)) (fun b => b = ⟨0, 0⟩) fuel (a, ⟨1, 0⟩, ⟨0, 0⟩) (b, ⟨0, 0⟩, ⟨1, 0⟩)

/-- with `GaussianInt` over a primitive integer type -/
def Fx.gExtEuclid (x : Fx) (fuel : Nat) (a b : GInt) : Option (Res (GInt × GInt × GInt)) :=
  extLoop x.gDiv x.gMul x.gSub (fun b => b = ⟨0, 0⟩) fuel (a, ⟨1, 0⟩, ⟨0, 0⟩) (b, ⟨0, 0⟩, ⟨1, 0⟩)

end NumIrr
