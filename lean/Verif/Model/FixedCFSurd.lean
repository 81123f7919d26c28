/-
Model of the conversions between continued fractions and quadratic surds over fixed-width integers, and of the arithmetic
of continued fractions built on them, operator by operator.  Citations are to /repo/src/quadratic/surd.rs unless stated
otherwise.  The loops run on fuel as in Model/CFSurd.

Trusted from the crates: the formulas of the operators of `Ratio` (num-rational 0.4) and of `lcm` and `div_floor`
(num-integer 0.1) for primitive integers.
-/
import Verif.Model.FixedSurd
import Verif.Model.FixedCF
import Verif.Model.CFSurd

namespace NumIrr
namespace Fx

/-! ### `Ratio` -/

/-- `Integer::lcm` of a primitive integer: `(a * (b / gcd)).abs()`.
Used by the sums of `Ratio` at line 436 and simple.rs:860-861. -/
def lcm (x : Fx) (a b : Int) : Res Int :=
  if a = 0 ∧ b = 0 then .ok 0
  else do
    let g ← x.gcd a b
    let t1 ← x.div b g
    let t2 ← x.mul a t1
    x.abs t2

/-- `Ratio + Ratio`.  Used at simple.rs:828-832, 860. -/
def rtAdd (x : Fx) (p q : Rt) : Res Rt :=
  if p.den = q.den then do
    let n ← x.add p.num q.num
    x.ratio n q.den
  else do
    let l ← x.lcm p.den q.den
    let t1 ← x.div l p.den
    let m ← x.mul p.num t1
    let t2 ← x.div l q.den
    let n ← x.mul q.num t2
    let s ← x.add m n
    x.ratio s l

/-- `Ratio - Ratio`.  Used at line 436 and simple.rs:861. -/
def rtSub (x : Fx) (p q : Rt) : Res Rt :=
  if p.den = q.den then do
    let n ← x.sub p.num q.num
    x.ratio n q.den
  else do
    let l ← x.lcm p.den q.den
    let t1 ← x.div l p.den
    let m ← x.mul p.num t1
    let t2 ← x.div l q.den
    let n ← x.mul q.num t2
    let s ← x.sub m n
    x.ratio s l

/-- `Ratio * Ratio`.  Used at lines 436-444 and simple.rs:862. -/
def rtMul (x : Fx) (p q : Rt) : Res Rt := do
  let g ← x.gcd p.num q.den
  let h ← x.gcd p.den q.num
  let t1 ← x.div p.num g
  let t2 ← x.div q.num h
  let n ← x.mul t1 t2
  let t3 ← x.div p.den h
  let t4 ← x.div q.den g
  let d ← x.mul t3 t4
  x.ratio n d

/-- `Ratio / Ratio`.  Used at line 431 and simple.rs:863. -/
def rtDiv (x : Fx) (p q : Rt) : Res Rt := do
  let g ← x.gcd p.num q.num
  let h ← x.gcd p.den q.den
  let t1 ← x.div p.num g
  let t2 ← x.div q.den h
  let n ← x.mul t1 t2
  let t3 ← x.div p.den h
  let t4 ← x.div q.num g
  let d ← x.mul t3 t4
  x.ratio n d

/-- `Ratio * T`.  Used at simple.rs:788-789. -/
def rtMulInt (x : Fx) (p : Rt) (k : Int) : Res Rt := do
  let g ← x.gcd p.den k
  let t1 ← x.div k g
  let n ← x.mul p.num t1
  let d ← x.div p.den g
  x.ratio n d

/-- `Ratio / T`.  Used at simple.rs:807-808. -/
def rtDivInt (x : Fx) (p : Rt) (k : Int) : Res Rt := do
  let g ← x.gcd p.num k
  let n ← x.div p.num g
  let t1 ← x.div k g
  let d ← x.mul p.den t1
  x.ratio n d

/-- `-Ratio`.  Used at lines 431, 444. -/
def rtNeg (x : Fx) (p : Rt) : Res Rt := do
  let n ← x.neg p.num
  return ⟨n, p.den⟩

/-- `Ratio::recip`.  Used at line 444. -/
def rtRecip (x : Fx) (p : Rt) : Res Rt :=
  if p.num = 0 then .error .divZero
  else if 0 < p.num then .ok ⟨p.den, p.num⟩
  else do
    let n ← x.sub 0 p.den
    let d ← x.sub 0 p.num
    return ⟨n, d⟩

/-- `Integer::div_floor`: like `/` it overflows for `MIN / -1` only.  Called at line 860. -/
def divFloor (x : Fx) (a b : Int) : Res Int :=
  if b = 0 then .error .divZero else if x.fits (a.fdiv b) then .ok (a.fdiv b) else .error .overflow

/-! ### From continued fractions to surds -/

/-- `From<Ratio<T>>` (lines 280-286). -/
def surdOfRt (q : Rt) : Surd := ⟨q.num, 0, q.den, 0⟩

/-- `from_equation` (lines 425-445). -/
def fromEquation (x : Fx) (cfg : Cfg) (a b c : Rt) : Res (Option Surd) :=
  if a.num = 0 then
    if b.num = 0 then .ok none
    else do
      let m ← x.rtNeg c
      let q ← x.rtDiv m b
      return some (surdOfRt q)
  else do
    let two ← x.add 1 1
    let four ← x.mul two two
    let t1 ← x.rtMul b b
    let t2 ← x.rtMul ⟨four, 1⟩ a
    let t3 ← x.rtMul t2 c
    let delta ← x.rtSub t1 t3
    if cfg.complex = false ∧ delta.num < 0 then return none
    else do
      let aa ← x.rtMul ⟨two, 1⟩ a
      let m ← x.rtNeg b
      let r1 ← x.rtRecip aa
      let u ← x.rtMul m r1
      let r2 ← x.rtRecip aa
      let s ← x.fromRationals cfg u r2 delta
      return some s

/-- one round of the loops (lines 784-791 and 808-815), in the unsigned type -/
def mobStep (x : Fx) (m : Mob) (v : Nat) : Res Mob := do
  let t1 ← x.uns.mul v m.c
  let c ← x.uns.add t1 m.a
  let t2 ← x.uns.mul v m.d
  let d ← x.uns.add t2 m.b
  return ⟨m.c, m.d, c.toNat, d.toNat⟩

/-- the loops (lines 784-791 and 808-815) -/
def mobLoop (x : Fx) : Mob → List Nat → Res Mob
  | m, [] => .ok m
  | m, v :: vs => do
    let m' ← x.mobStep m v
    mobLoop x m' vs

/-- the initial values and the loop (lines 780-791 and 804-815), on the reversed list of coefficients -/
def mobOfRev (x : Fx) : List Nat → Res Mob
  | [] => .error .unwrapNone
  | v :: vs => x.mobLoop ⟨0, 1, 1, v⟩ vs

/-- `psurd` (lines 779-798) -/
def periodSurd (x : Fx) (cfg : Cfg) (p : List Nat) : Res Surd := do
  let m ← x.mobOfRev p.reverse
  let e ← x.sub (castS x.w m.d) (castS x.w m.a)
  let f ← x.neg (castS x.w m.b)
  match ← x.fromEquation cfg ⟨castS x.w m.c, 1⟩ ⟨e, 1⟩ ⟨f, 1⟩ with
  | none => .error .unwrapNone
  | some s => .ok s

/-- the aperiodic coefficients after the first (lines 801-819) -/
def tailSurd (x : Fx) (cfg : Cfg) (a : List Nat) (ps : Surd) : Res Surd :=
  if a.length = 1 then .ok ps
  else do
    let m ← x.mobOfRev (a.drop 1).reverse
    let n ← x.surdMulInt cfg ps (castS x.w m.a)
    let n ← x.surdAddInt cfg n (castS x.w m.b)
    let d ← x.surdMulInt cfg ps (castS x.w m.c)
    let d ← x.surdAddInt cfg d (castS x.w m.d)
    x.surdDiv cfg n d

/-- `From<ContinuedFraction<T>> for QuadraticSurd<U>` (lines 765-829) -/
def toSurd (x : Fx) (cfg : Cfg) (c : CF) : Res Surd :=
  if c.isRational then do
    let r ← x.lastConvergent c
    return surdOfRt r
  else do
    let ps ← x.periodSurd cfg c.p
    let s ← x.tailSurd cfg c.a ps
    match c.a with
    | [] => .error .unwrapNone
    | a0 :: _ => do
      let s ← x.surdAddInt cfg s (castS x.w a0)
      if c.neg then x.surdNeg s else return s

/-! ### From surds to continued fractions -/

/-- `rho` (lines 858-864): the coefficient and the new `p`, `q` -/
def rho (x : Fx) (d rd p q : Int) : Res (Int × Int × Int) := do
  let t1 ← x.add rd p
  let a ← x.divFloor t1 q
  let t2 ← x.mul a q
  let p' ← x.sub t2 p
  let t3 ← x.mul p' p'
  let t4 ← x.sub d t3
  let q' ← x.div t4 q
  return (a, p', q')

/-- the test at the end of the first loop (line 870), without the one on the length; `&&` does not evaluate its right
side if the left one is false -/
def isReduced (x : Fx) (rd p q : Int) : Res Bool :=
  if p ≤ rd then do
    let s ← x.add p q
    if rd < s then do
      let t ← x.sub q p
      return decide (t ≤ rd)
    else return false
  else return false

/-- a round of the first loop, with the test (lines 868-873) -/
def headStep (x : Fx) (d rd p q : Int) : Res ((Int × Int × Int) × Bool) := do
  let t ← x.rho d rd p q
  let b ← x.isReduced rd t.2.1 t.2.2
  return (t, b)

/-- the first loop (lines 867-873) -/
def headLoop (x : Fx) (d rd : Int) : Nat → List Int → Int → Int → Option (Res (List Int × Int × Int))
  | 0, _, _, _ => none
  | fuel + 1, acc, p, q =>
    match x.headStep d rd p q with
    | .error e => some (.error e)
    | .ok ((a, p', q'), b) =>
      if b then some (.ok ((a :: acc).reverse, p', q'))
      else headLoop x d rd fuel (a :: acc) p' q'

/-- the second loop (lines 875-883) -/
def periodLoop (x : Fx) (d rd ip iq : Int) : Nat → List Int → Int → Int → Option (Res (List Int))
  | 0, _, _, _ => none
  | fuel + 1, acc, p, q =>
    match x.rho d rd p q with
    | .error e => some (.error e)
    | .ok (a, p', q') =>
      if p' = ip ∧ q' = iq then some (.ok (a :: acc).reverse)
      else periodLoop x d rd ip iq fuel (a :: acc) p' q'

/-- the sign of `b` moved to `p` and `q` (line 849) -/
def pqSign (x : Fx) (a b c : Int) : Res (Int × Int) :=
  if b < 0 then do
    let p ← x.neg a
    let q ← x.neg c
    return (p, q)
  else .ok (a, c)

/-- the normalisation to `(p+√d)/q` with `q ∣ d - p²` (lines 848-854): `(d, p, q)` -/
def pqForm (x : Fx) (a b c r : Int) : Res (Int × Int × Int) := do
  let t1 ← x.mul r b
  let d ← x.mul t1 b
  let pq ← x.pqSign a b c
  let t2 ← x.mul pq.1 pq.1
  let t3 ← x.sub d t2
  let m ← x.rem t3 pq.2
  if m ≠ 0 then do
    let t4 ← x.mul d pq.2
    let d' ← x.mul t4 pq.2
    let p' ← x.mul pq.1 pq.2
    let q' ← x.mul pq.2 pq.2
    return (d', p', q')
  else return (d, pq.1, pq.2)

/-- the loops of `quadsurd_to_contfrac` (lines 866-885) -/
def cfLoops (x : Fx) (debug : Bool) (fuel : Nat) (d p q : Int) (neg : Bool) : Option (Res CF) :=
  match sqrtR d with
  | .error e => some (.error e)
  | .ok rd =>
    match x.headLoop d rd fuel [] p q with
    | none => none
    | some (.error e) => some (.error e)
    | some (.ok (as, p', q')) =>
      match x.periodLoop d rd p' q' fuel [] p' q' with
      | none => none
      | some (.error e) => some (.error e)
      | some (.ok ps) => some (x.prim.new debug as ps neg)

/-- `quadsurd_to_contfrac` (lines 834-886); the product in the second assertion is at most `r` and cannot overflow -/
def quadsurdToContfrac (x : Fx) (cfg : Cfg) (fuel : Nat) (a b c r : Int) (neg : Bool) : Option (Res CF) :=
  if cfg.debug = true ∧ ¬ (c ≠ 0 ∧ 0 ≤ r) then some (.error .debugAssert)
  else if cfg.debug = true ∧ isqrt r * isqrt r = r then some (.error .debugAssert)
  else
    match x.pqForm a b c r with
    | .error e => some (.error e)
    | .ok (d, p, q) => x.cfLoops cfg.debug fuel d p q neg

/-- the arguments passed by `try_from` (lines 901-915) -/
def cfArgs (x : Fx) (cfg : Cfg) (s : Surd) : Res (Int × Int × Bool) := do
  let n ← x.isNegative cfg s
  if n then do
    let a ← x.neg s.a
    let b ← x.neg s.b
    return (a, b, true)
  else return (s.a, s.b, false)

/-- `TryFrom<QuadraticSurd<T>> for ContinuedFraction<U>` (lines 891-917); the inner `none` is `Err(())` -/
def toContfrac (x : Fx) (cfg : Cfg) (fuel : Nat) (s : Surd) : Option (Res (Option CF)) :=
  if s.r < 0 then some (.ok none)
  else
    match x.cfArgs cfg s with
    | .error e => some (.error e)
    | .ok (a, b, n) => (x.quadsurdToContfrac cfg fuel a b s.c s.r n).map fun y => y.map some

/-- `try_from(..).unwrap()` (simple.rs:791, 810, 831, 853) -/
def toContfracUnwrap (x : Fx) (cfg : Cfg) (fuel : Nat) (s : Surd) : Option (Res CF) :=
  match x.toContfrac cfg fuel s with
  | none => none
  | some (.error e) => some (.error e)
  | some (.ok none) => some (.error .unwrapNone)
  | some (.ok (some c)) => some (.ok c)

/-! ### Arithmetic of continued fractions (/repo/src/cont_frac/simple.rs) -/

/-- the branch of all operations for periodic fractions: convert, operate, convert back
(simple.rs:791, 810, 831, 850-853) -/
def viaSurd (x : Fx) (cfg : Cfg) (fuel : Nat) (c : CF) (f : Surd → Res Surd) : Option (Res CF) :=
  match (do let s ← x.toSurd cfg c; f s) with
  | .error e => some (.error e)
  | .ok s => x.toContfracUnwrap cfg fuel s

/-- the value of `to_rational` (simple.rs:789, 808, 829, 848) -/
def ratValue (x : Fx) (c : CF) : Res Rt := do
  match ← x.cfToRational c with
  | .exact q => return q
  | .approximated q => return q

/-- an operation with a number on the right: the branch on `is_rational` (simple.rs:788-792, 807-811, 828-832) -/
def opNumber (x : Fx) (cfg : Cfg) (fuel : Nat) (c : CF) (f : Rt → Res Rt) (g : Surd → Res Surd) : Option (Res CF) :=
  if c.isRational then
    match (do let q ← x.ratValue c; f q) with
    | .error e => some (.error e)
    | .ok q => x.ofRat fuel q
  else x.viaSurd cfg fuel c g

/-- `Mul<T>` (simple.rs:777-794) -/
def cfMulInt (x : Fx) (cfg : Cfg) (fuel : Nat) (c : CF) (k : Int) : Option (Res CF) :=
  x.opNumber cfg fuel c (fun q => x.rtMulInt q k) (fun s => x.surdMulInt cfg s k)
/-- `Div<T>` (simple.rs:796-813) -/
def cfDivInt (x : Fx) (cfg : Cfg) (fuel : Nat) (c : CF) (k : Int) : Option (Res CF) :=
  x.opNumber cfg fuel c (fun q => x.rtDivInt q k) (fun s => x.surdDivInt cfg s k)
/-- `Add<Ratio<T>>` (simple.rs:815-834, 860) -/
def cfAddRat (x : Fx) (cfg : Cfg) (fuel : Nat) (c : CF) (k : Rt) : Option (Res CF) :=
  x.opNumber cfg fuel c (fun q => x.rtAdd q k) (fun s => x.surdAddRat cfg s k)
/-- `Sub<Ratio<T>>` (simple.rs:815-834, 861) -/
def cfSubRat (x : Fx) (cfg : Cfg) (fuel : Nat) (c : CF) (k : Rt) : Option (Res CF) :=
  x.opNumber cfg fuel c (fun q => x.rtSub q k) (fun s => x.surdSubRat cfg s k)
/-- `Mul<Ratio<T>>` (simple.rs:815-834, 862) -/
def cfMulRat (x : Fx) (cfg : Cfg) (fuel : Nat) (c : CF) (k : Rt) : Option (Res CF) :=
  x.opNumber cfg fuel c (fun q => x.rtMul q k) (fun s => x.surdMulRat cfg s k)
/-- `Div<Ratio<T>>` (simple.rs:815-834, 863) -/
def cfDivRat (x : Fx) (cfg : Cfg) (fuel : Nat) (c : CF) (k : Rt) : Option (Res CF) :=
  x.opNumber cfg fuel c (fun q => x.rtDiv q k) (fun s => x.surdDivRat cfg s k)

/-- an operation with a continued fraction on the right (simple.rs:847-854) -/
def opCF (x : Fx) (cfg : Cfg) (fuel : Nat) (c e : CF) (f : CF → Rt → Option (Res CF)) (g : Surd → Surd → Res Surd) :
    Option (Res CF) :=
  if e.isRational then
    match x.ratValue e with
    | .error p => some (.error p)
    | .ok q => f c q
  else x.viaSurd cfg fuel c (fun s => do let t ← x.toSurd cfg e; g s t)

/-- `Add` (simple.rs:836-856, 860) -/
def cfAdd (x : Fx) (cfg : Cfg) (fuel : Nat) (c e : CF) : Option (Res CF) :=
  x.opCF cfg fuel c e (x.cfAddRat cfg fuel) (x.surdAdd cfg)
/-- `Sub` (simple.rs:836-856, 861) -/
def cfSub (x : Fx) (cfg : Cfg) (fuel : Nat) (c e : CF) : Option (Res CF) :=
  x.opCF cfg fuel c e (x.cfSubRat cfg fuel) (x.surdSub cfg)
/-- `Mul` (simple.rs:836-856, 862) -/
def cfMul (x : Fx) (cfg : Cfg) (fuel : Nat) (c e : CF) : Option (Res CF) :=
  x.opCF cfg fuel c e (x.cfMulRat cfg fuel) (x.surdMul cfg)
/-- `Div` (simple.rs:836-856, 863) -/
def cfDiv (x : Fx) (cfg : Cfg) (fuel : Nat) (c e : CF) : Option (Res CF) :=
  x.opCF cfg fuel c e (x.cfDivRat cfg fuel) (x.surdDiv cfg)

end Fx
end NumIrr
