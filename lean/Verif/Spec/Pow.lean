/-
`num_traits::pow`, the way programs raise surds and quadratic integers to a power: the library implements the traits it
needs (`One`, `Mul`, `Clone`).  The function itself belongs to the crate num-traits 0.2 and is not in /repo; it is
transcribed from that crate.

    pub fn pow<T: Clone + One + Mul<T, Output = T>>(mut base: T, mut exp: usize) -> T {
        if exp == 0 { return T::one(); }
        while exp & 1 == 0 { base = base.clone() * base; exp >>= 1; }
        if exp == 1 { return base; }
        let mut acc = base.clone();
        while exp > 1 {
            exp >>= 1;
            base = base.clone() * base;
            if exp & 1 == 1 { acc = acc * base.clone(); }
        }
        acc
    }
-/
import Verif.Model.Basic

namespace NumIrr

/-- the first loop; the exponent bounds the number of rounds because it is halved -/
def powStrip {α : Type} (mul : α → α → Res α) : Nat → α → Nat → Res (α × Nat)
  | 0, b, e => .ok (b, e)
  | f + 1, b, e =>
    if e % 2 = 0 then do
      let b' ← mul b b
      powStrip mul f b' (e / 2)
    else .ok (b, e)

/-- the second loop -/
def powLoop {α : Type} (mul : α → α → Res α) : Nat → α → α → Nat → Res α
  | 0, acc, _, _ => .ok acc
  | f + 1, acc, b, e =>
    if 1 < e then do
      let b' ← mul b b
      if e / 2 % 2 = 1 then do
        let acc' ← mul acc b'
        powLoop mul f acc' b' (e / 2)
      else powLoop mul f acc b' (e / 2)
    else .ok acc

/-- `num_traits::pow` -/
def powRun {α : Type} (one : α) (mul : α → α → Res α) (b : α) (e : Nat) : Res α :=
  if e = 0 then .ok one
  else do
    let p ← powStrip mul e b e
    if p.2 = 1 then .ok p.1 else powLoop mul p.2 p.1 p.1 p.2

end NumIrr
