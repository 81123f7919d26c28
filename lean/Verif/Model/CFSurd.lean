/-
Model of the conversions between continued fractions and quadratic surds, and of the arithmetic of continued
fractions built on them.  Citations are to /repo/src/quadratic/surd.rs unless stated otherwise.

Simplifications: arbitrary precision, so `to_signed` keeps the number and nothing overflows.  The two loops of
`quadsurd_to_contfrac` run on fuel; the outer `none` means that a loop is still running.
-/
import Verif.Model.CF
import Verif.Model.Surd

namespace NumIrr

/-! ### From continued fractions to surds -/

/-- The variables `a, b, c, d` of `From<ContinuedFraction>` (lines 781-782, 805-806): `x ↦ (ax + b)/(cx + d)`. -/
structure Mob where
  a : Nat
  b : Nat
  c : Nat
  d : Nat
  deriving DecidableEq, Repr

/-- one round of the loops (lines 784-791 and 808-815) -/
def Mob.step (m : Mob) (v : Nat) : Mob := ⟨m.c, m.d, v * m.c + m.a, v * m.d + m.b⟩

/-- the initial values and the loop (lines 780-791 and 804-815), on the reversed list of coefficients -/
def Mob.ofRev : List Nat → Res Mob
  | [] => .error .unwrapNone
  | v :: vs => .ok (vs.foldl Mob.step ⟨0, 1, 1, v⟩)

/-- `psurd` (lines 779-798) -/
def CF.periodSurd (cfg : Cfg) (p : List Nat) : Res Surd := do
  let m ← Mob.ofRev p.reverse
  match ← Surd.fromEquation cfg (m.c : Int) ((m.d : Int) - m.a : Int) (-(m.b : Int) : Int) with
  | none => .error .unwrapNone
  | some s => .ok s

/-- the aperiodic coefficients after the first (lines 801-819) -/
def CF.tailSurd (cfg : Cfg) (a : List Nat) (ps : Surd) : Res Surd :=
  if a.length = 1 then .ok ps
  else do
    let m ← Mob.ofRev (a.drop 1).reverse
    let n ← ps.mulInt cfg m.a
    let n ← n.addInt cfg m.b
    let d ← ps.mulInt cfg m.c
    let d ← d.addInt cfg m.d
    n.div cfg d

/-- `From<ContinuedFraction<T>> for QuadraticSurd<U>` (lines 765-829) -/
def CF.toSurd (cfg : Cfg) (c : CF) : Res Surd :=
  if c.isRational then do
    let r ← c.lastConvergent Width.big
    return Surd.ofRat r
  else do
    let ps ← periodSurd cfg c.p
    let s ← tailSurd cfg c.a ps
    match c.a with
    | [] => .error .unwrapNone
    | a0 :: _ =>
      let s ← s.addInt cfg a0
      return if c.neg then s.neg else s

/-! ### From surds to continued fractions -/

/-- `rho` (lines 858-864): the coefficient and the new `p`, `q` -/
def rho (d rd p q : Int) : Res (Int × Int × Int) := do
  let a ← divFloorR (rd + p) q
  let p' := a * q - p
  let q' ← divR (d - p' * p') q
  return (a, p', q')

/-- the test at the end of the first loop (line 870), without the one on the length -/
def isReduced (rd p q : Int) : Bool := p ≤ rd && rd < p + q && q - p ≤ rd

/-- the first loop (lines 867-873) after at least one round, together with that round; `acc` is reversed -/
def headLoop (d rd : Int) : Nat → List Int → Int → Int → Option (Res (List Int × Int × Int))
  | 0, _, _, _ => none
  | fuel + 1, acc, p, q =>
    match rho d rd p q with
    | .error e => some (.error e)
    | .ok (a, p', q') =>
      if isReduced rd p' q' then some (.ok ((a :: acc).reverse, p', q'))
      else headLoop d rd fuel (a :: acc) p' q'

/-- the second loop (lines 875-883) -/
def periodLoop (d rd ip iq : Int) : Nat → List Int → Int → Int → Option (Res (List Int))
  | 0, _, _, _ => none
  | fuel + 1, acc, p, q =>
    match rho d rd p q with
    | .error e => some (.error e)
    | .ok (a, p', q') =>
      if p' = ip ∧ q' = iq then some (.ok (a :: acc).reverse)
      else periodLoop d rd ip iq fuel (a :: acc) p' q'

/-- the normalisation to `(p+√d)/q` with `q ∣ d - p²` (lines 848-854): `(d, p, q)` -/
def pqForm (a b c r : Int) : Res (Int × Int × Int) := do
  let d := r * b * b
  let p := if b < 0 then -a else a
  let q := if b < 0 then -c else c
  let m ← remR (d - p * p) q
  if m ≠ 0 then return (d * q * q, p * q, q * q) else return (d, p, q)

/-- `quadsurd_to_contfrac` (lines 834-886) -/
def quadsurdToContfrac (cfg : Cfg) (fuel : Nat) (a b c r : Int) (neg : Bool) : Option (Res CF) :=
  if cfg.debug = true ∧ ¬ (c ≠ 0 ∧ 0 ≤ r) then some (.error .debugAssert)
  else if cfg.debug = true ∧ isqrt r * isqrt r = r then some (.error .debugAssert)
  else
    match pqForm a b c r with
    | .error e => some (.error e)
    | .ok (d, p, q) =>
      match sqrtR d with
      | .error e => some (.error e)
      | .ok rd =>
        match headLoop d rd fuel [] p q with
        | none => none
        | some (.error e) => some (.error e)
        | some (.ok (as, p', q')) =>
          match periodLoop d rd p' q' fuel [] p' q' with
          | none => none
          | some (.error e) => some (.error e)
          | some (.ok ps) => some (CF.new cfg.debug as ps neg)

/-- `TryFrom<QuadraticSurd<T>> for ContinuedFraction<U>` (lines 891-917); the inner `none` is `Err(())` -/
def Surd.toContfrac (cfg : Cfg) (fuel : Nat) (s : Surd) : Option (Res (Option CF)) :=
  if s.r < 0 then some (.ok none)
  else
    match s.isNegative cfg with
    | .error e => some (.error e)
    | .ok true => (quadsurdToContfrac cfg fuel (-s.a) (-s.b) s.c s.r true).map fun x => x.map some
    | .ok false => (quadsurdToContfrac cfg fuel s.a s.b s.c s.r false).map fun x => x.map some

/-- `try_from(..).unwrap()` (simple.rs:791, 810, 831, 853; `expect` at line 931) -/
def Surd.toContfracUnwrap (cfg : Cfg) (fuel : Nat) (s : Surd) : Option (Res CF) :=
  match s.toContfrac cfg fuel with
  | none => none
  | some (.error e) => some (.error e)
  | some (.ok none) => some (.error .unwrapNone)
  | some (.ok (some c)) => some (.ok c)

/-- `Computable::approximated` for surds (lines 922-934) -/
def Surd.approximated (cfg : Cfg) (fuel : Nat) (s : Surd) (limit : Int) : Option (Res (Approx Rat)) :=
  match s.toContfracUnwrap cfg fuel with
  | none => none
  | some (.error e) => some (.error e)
  | some (.ok c) => c.approximated Width.big fuel limit

/-! ### Arithmetic of continued fractions (/repo/src/cont_frac/simple.rs) -/

namespace CF

/-- the branch of all operations for periodic fractions: convert, operate, convert back
(simple.rs:791, 810, 831, 850-853) -/
def viaSurd (cfg : Cfg) (fuel : Nat) (c : CF) (f : Surd → Res Surd) : Option (Res CF) :=
  match (do let s ← c.toSurd cfg; f s) with
  | .error e => some (.error e)
  | .ok s => s.toContfracUnwrap cfg fuel

/-- an operation with a number on the right: the branch on `is_rational` (simple.rs:788-792, 807-811, 828-832) -/
def opNumber (cfg : Cfg) (fuel : Nat) (c : CF) (f : Rat → Res Rat) (g : Surd → Res Surd) : Option (Res CF) :=
  if c.isRational then
    match (do let q ← c.toRational Width.big; f q.value) with
    | .error e => some (.error e)
    | .ok q => some (.ok (ofRat q))
  else viaSurd cfg fuel c g

/-- `Mul<T>` (simple.rs:777-794) -/
def mulInt (cfg : Cfg) (fuel : Nat) (c : CF) (k : Int) : Option (Res CF) :=
  opNumber cfg fuel c (fun q => .ok (q * k)) (fun s => s.mulInt cfg k)
/-- `Div<T>` (simple.rs:796-813) -/
def divInt (cfg : Cfg) (fuel : Nat) (c : CF) (k : Int) : Option (Res CF) :=
  opNumber cfg fuel c (fun q => ratioDiv q k) (fun s => s.divInt cfg k)

/-- `Add<Ratio<T>>` (simple.rs:815-834, 860) -/
def addRat (cfg : Cfg) (fuel : Nat) (c : CF) (k : Rat) : Option (Res CF) :=
  opNumber cfg fuel c (fun q => .ok (q + k)) (fun s => s.addRat cfg k)
/-- `Sub<Ratio<T>>` (simple.rs:815-834, 861) -/
def subRat (cfg : Cfg) (fuel : Nat) (c : CF) (k : Rat) : Option (Res CF) :=
  opNumber cfg fuel c (fun q => .ok (q - k)) (fun s => s.subRat cfg k)
/-- `Mul<Ratio<T>>` (simple.rs:815-834, 862) -/
def mulRat (cfg : Cfg) (fuel : Nat) (c : CF) (k : Rat) : Option (Res CF) :=
  opNumber cfg fuel c (fun q => .ok (q * k)) (fun s => s.mulRat cfg k)
/-- `Div<Ratio<T>>` (simple.rs:815-834, 863) -/
def divRat (cfg : Cfg) (fuel : Nat) (c : CF) (k : Rat) : Option (Res CF) :=
  opNumber cfg fuel c (fun q => ratioDiv q k) (fun s => s.divRat cfg k)

/-- an operation with a continued fraction on the right (simple.rs:847-854) -/
def opCF (cfg : Cfg) (fuel : Nat) (c e : CF) (f : CF → Rat → Option (Res CF)) (g : Surd → Surd → Res Surd) :
    Option (Res CF) :=
  if e.isRational then
    match e.toRational Width.big with
    | .error p => some (.error p)
    | .ok q => f c q.value
  else viaSurd cfg fuel c (fun s => do let t ← e.toSurd cfg; g s t)

/-- `Add` (simple.rs:836-856, 860) -/
def add (cfg : Cfg) (fuel : Nat) (c e : CF) : Option (Res CF) :=
  opCF cfg fuel c e (addRat cfg fuel) (Surd.add cfg)
/-- `Sub` (simple.rs:836-856, 861) -/
def sub (cfg : Cfg) (fuel : Nat) (c e : CF) : Option (Res CF) :=
  opCF cfg fuel c e (subRat cfg fuel) (Surd.sub cfg)
/-- `Mul` (simple.rs:836-856, 862) -/
def mul (cfg : Cfg) (fuel : Nat) (c e : CF) : Option (Res CF) :=
  opCF cfg fuel c e (mulRat cfg fuel) (Surd.mul cfg)
/-- `Div` (simple.rs:836-856, 863) -/
def div (cfg : Cfg) (fuel : Nat) (c e : CF) : Option (Res CF) :=
  opCF cfg fuel c e (divRat cfg fuel) (Surd.div cfg)

end CF
end NumIrr
