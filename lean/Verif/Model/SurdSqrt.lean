/-
Model of `FromSqrt` for `QuadraticSurd`, of `reduce_root`/`reduced`, and of the primitive conversions.
Citations: /repo/src/quadratic/surd.rs.
-/
import Verif.Model.Surd

namespace NumIrr

/-- `FromSqrtError<D>` (traits.rs:7-11). -/
structure SqrtErr (D : Type) where
  data : D
  kind : SqrtErrKind
  deriving DecidableEq, Repr

namespace Surd

/-- `FromSqrt<T>` (lines 1389-1398). -/
def fromSqrtInt (cfg : Cfg) (t : Int) : Res (Except (SqrtErr Int) Surd) :=
  if cfg.complex = false ∧ t < 0 then .ok (.error ⟨t, .complex⟩)
  else do
    let s ← new cfg 0 1 1 t
    return .ok s

/-- `FromSqrt<Ratio<T>>` (lines 1406-1431).  `fits` tells which integers the type can hold; it is used
by the `checked_mul` of line 1419. -/
def fromSqrtRat (cfg : Cfg) (fits : Int → Bool) (t : Rat) : Res (Except (SqrtErr Rat) Surd) :=
  if cfg.complex = false ∧ t < 0 then .ok (.error ⟨t, .complex⟩)
  else if t.den = 1 then do
    let s ← new cfg 0 1 1 t.num
    return .ok s
  else if fits (t.num * t.den) then do
    let s ← new cfg 0 1 t.den (t.num * t.den)
    return .ok s
  else .ok (.error ⟨t, .overflow⟩)

/-- `reconstruct` (lines 1474-1480). -/
def reconstruct (cfg : Cfg) (xy y : Rat) (r : Int) (kind : SqrtErrKind) : Res (SqrtErr Surd) := do
  let s ← fromRationals cfg (xy * y) y r
  return ⟨s, kind⟩

/-- `get_abc` (lines 1499-1515). -/
def getAbc (g y : Rat) : Res (Option (Int × Int × Int)) := do
  let twoAb := 2 * g.num * g.den
  let d := igcd twoAb y.num
  let scale ← divR y.num d
  let c2 ← divR (twoAb * scale * scale * y.den) y.num
  let a := g.num * scale
  let b := g.den * scale
  if c2 < 0 then return none
  else
    let c ← sqrtR c2
    if c * c ≠ c2 then return none else return some (a, b, c)

/-- the rational branch of `from_sqrt` (lines 1449-1459).  `to_rational` builds its fraction with
`Ratio::new_raw`; for a normal surd it is already in lowest terms, so `Rat.divInt` is the same fraction. -/
def fromSqrtSurdRat (cfg : Cfg) (fits : Int → Bool) (t : Surd) : Res (Except (SqrtErr Surd) Surd) := do
  match ← toRational cfg t with
  | .exact v =>
    match ← fromSqrtRat cfg fits (Rat.divInt v.1 v.2) with
    | .ok s => return .ok s
    | .error e => return .error ⟨ofRat e.data, e.kind⟩
  | .approximated _ => .error .unreachable

/-- the end of `from_sqrt` (lines 1517-1526), for a rational `delta`. -/
def fromSqrtFinish (cfg : Cfg) (xy y delta : Rat) (r : Int) : Res (Except (SqrtErr Surd) Surd) := do
  match ← getAbc (xy - delta) y with
  | some (a, b, c) => do
    let ret ← new cfg a b c r
    if cfg.debug = true ∧ ret.a < 0 then .error .debugAssert else return .ok ret
  | none =>
    match ← getAbc (xy + delta) y with
    | some (a, b, c) => do
      let ret ← new cfg a b c r
      if cfg.debug = true ∧ ret.a < 0 then .error .debugAssert else return .ok ret
    | none => return .error (← reconstruct cfg xy y r .unrepresentable)

/-- the irrational branch of `from_sqrt` (lines 1466-1526). -/
def fromSqrtSurdIrr (cfg : Cfg) (fits : Int → Bool) (t : Surd) : Res (Except (SqrtErr Surd) Surd) := do
  let x ← ratioNew t.a t.c
  let y ← ratioNew t.b t.c
  let xy ← ratioDiv x y
  let delta2 := xy * xy - t.r
  if delta2 < 0 then
    return .error (← reconstruct cfg xy y t.r .unrepresentable)
  else
    match ← fromSqrtRat cfg fits delta2 with
    | .error e => return .error (← reconstruct cfg xy y t.r e.kind)
    | .ok v =>
      if v.isRational then
        let w ← toRational cfg v
        fromSqrtFinish cfg xy y (Rat.divInt w.value.1 w.value.2) t.r
      else
        return .error (← reconstruct cfg xy y t.r .unrepresentable)

/-- `FromSqrt<QuadraticSurd<T>>` (lines 1440-1527). -/
def fromSqrtSurd (cfg : Cfg) (fits : Int → Bool) (t : Surd) : Res (Except (SqrtErr Surd) Surd) := do
  let neg ← (if cfg.complex then (pure false : Res Bool) else isNegative cfg t)
  if neg then return .error ⟨t, .complex⟩
  else if t.isRational then fromSqrtSurdRat cfg fits t
  else fromSqrtSurdIrr cfg fits t

/-- `SMALL_PRIMES` (lines 729-733). -/
def smallPrimes : List Int :=
  [2, 3, 5, 7, 11, 13, 17, 19, 23, 29, 31, 37, 41, 43, 47, 53, 59, 61, 67, 71, 73, 79, 83,
   89, 97, 101, 103, 107, 109, 113, 127, 131, 137, 139, 149, 151, 157, 163, 167, 173, 179,
   181, 191, 193, 197, 199, 211, 223, 227, 229, 233, 239, 241, 251]

/-- the inner `loop` of `reduce_root` (lines 737-746) on `(b, r)`; `none` = still running after
`fuel` iterations. -/
def stripLoop : Nat → Int → Int × Int → Option (Int × Int)
  | 0, _, _ => none
  | fuel + 1, p, (b, r) =>
    if r.tmod (p * p) = 0 then stripLoop fuel p (b * p, r.tdiv (p * p)) else some (b, r)

/-- the `for` loop of `reduce_root` (lines 734-748).  `T::from_u8(p).unwrap()` panics when the prime
does not fit the type, `p.checked_mul(&p)` skips the prime when `p*p` does not fit; both are modelled
with `fits`.  `none` = some inner loop is still running after `fuel` iterations. -/
def stripAll (fuel : Nat) (fits : Int → Bool) : List Int → Int × Int → Option (Res (Int × Int))
  | [], br => some (.ok br)
  | p :: ps, br =>
    if fits p then
      if fits (p * p) then
        match stripLoop fuel p br with
        | none => none
        | some br' => stripAll fuel fits ps br'
      else stripAll fuel fits ps br
    else some (.error .unwrapNone)

/-- `reduced` (lines 757-762, calling `reduce_root`, lines 728-749). -/
def reduced (fuel : Nat) (fits : Int → Bool) (s : Surd) : Option (Res Surd) :=
  match stripAll fuel fits smallPrimes (s.b, s.r) with
  | none => none
  | some (.error e) => some (.error e)
  | some (.ok (b, r)) => some (reduce ⟨s.a, b, s.c, r⟩)

/-- `ToPrimitive::to_i64` / `to_u64` (lines 1323-1342), with the target range as a predicate. -/
def toPrim (cfg : Cfg) (inRange : Int → Bool) (s : Surd) : Res (Option Int) :=
  if s.r < 0 then .ok none
  else do
    match ← toInteger cfg s with
    | .exact v => return (if inRange v then some v else none)
    | .approximated _ => return none

/-- `FromPrimitive::from_i64` / `from_u64` (lines 1298-1305), with the range of `T` as a predicate. -/
def fromPrim (inRange : Int → Bool) (n : Int) : Option Surd :=
  if inRange n then some (ofInt n) else none

end Surd
end NumIrr
