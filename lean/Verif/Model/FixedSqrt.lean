/-
Model of `FromSqrt` for `QuadraticSurd`, of `reduce_root`/`reduced` and of the primitive conversions over fixed-width
integers.  Citations: /repo/src/quadratic/surd.rs.  `checked_mul` tests `Fx.fits` in both kinds of build; the other operators
are the steps of `Fx`.  `Ratio - T`, `Ratio::is_negative` and `Ratio::is_integer` follow num-rational 0.4.
-/
import Verif.Model.FixedCFSurd
import Verif.Model.SurdSqrt

namespace NumIrr
namespace Fx

/-- `Ratio - T`: `Ratio::new(numer - denom * rhs, denom)`.  Used at line 1470. -/
def rtSubInt (x : Fx) (p : Rt) (k : Int) : Res Rt := do
  let t ← x.mul p.den k
  let n ← x.sub p.num t
  x.ratio n p.den

/-- `Ratio::is_negative`.  Called at lines 439, 1408, 1482. -/
def rtIsNeg (p : Rt) : Bool := decide ((p.num < 0 ∧ 0 < p.den) ∨ (0 < p.num ∧ p.den < 0))

/-- `FromSqrt<Ratio<T>>` (lines 1406-1431). -/
def fromSqrtRat (x : Fx) (cfg : Cfg) (t : Rt) : Res (Except (SqrtErr Rt) Surd) :=
  if cfg.complex = false ∧ rtIsNeg t = true then .ok (.error ⟨t, .complex⟩)
  else if t.den = 1 then do
    let s ← x.surdNew cfg 0 1 1 t.num
    return .ok s
  else if x.fits (t.num * t.den) then do
    let s ← x.surdNew cfg 0 1 t.den (t.num * t.den)
    return .ok s
  else .ok (.error ⟨t, .overflow⟩)

/-- `reconstruct` (lines 1474-1480). -/
def reconstruct (x : Fx) (cfg : Cfg) (xy y : Rt) (r : Int) (kind : SqrtErrKind) : Res (Except (SqrtErr Surd) Surd) := do
  let t ← x.rtMul xy y
  let s ← x.fromRationals cfg t y ⟨r, 1⟩
  return .error ⟨s, kind⟩

/-- `get_abc` (lines 1499-1515). -/
def getAbc (x : Fx) (g y : Rt) : Res (Option (Int × Int × Int)) := do
  let two ← x.add 1 1
  let t1 ← x.mul two g.num
  let twoAb ← x.mul t1 g.den
  let d ← x.gcd twoAb y.num
  let scale ← x.div y.num d
  let t2 ← x.mul twoAb scale
  let t3 ← x.mul t2 scale
  let t4 ← x.mul t3 y.den
  let c2 ← x.div t4 y.num
  let a ← x.mul g.num scale
  let b ← x.mul g.den scale
  if c2 < 0 then return none
  else
    let c ← sqrtR c2
    let cc ← x.mul c c
    if cc ≠ c2 then return none else return some (a, b, c)

/-- the rational branch of `from_sqrt` (lines 1449-1459) -/
def fromSqrtSurdRat (x : Fx) (cfg : Cfg) (t : Surd) : Res (Except (SqrtErr Surd) Surd) := do
  match ← x.toRational cfg t with
  | .exact v =>
    match ← x.fromSqrtRat cfg ⟨v.1, v.2⟩ with
    | .ok s => return .ok s
    | .error e => return .error ⟨surdOfRt e.data, e.kind⟩
  | .approximated _ => .error .unreachable

/-- `QuadraticSurd::new(a, b, c, target.discr)` and the assertion of lines 1518-1526 -/
def sqrtResult (x : Fx) (cfg : Cfg) (r : Int) (v : Int × Int × Int) : Res (Except (SqrtErr Surd) Surd) := do
  let ret ← x.surdNew cfg v.1 v.2.1 v.2.2 r
  if cfg.debug = true ∧ ret.a < 0 then .error .debugAssert else return .ok ret

/-- the end of `from_sqrt` (lines 1517-1526), for a rational `delta` -/
def fromSqrtFinish (x : Fx) (cfg : Cfg) (xy y delta : Rt) (r : Int) : Res (Except (SqrtErr Surd) Surd) := do
  let g ← x.rtSub xy delta
  match ← x.getAbc g y with
  | some v => x.sqrtResult cfg r v
  | none => do
    let g' ← x.rtAdd xy delta
    match ← x.getAbc g' y with
    | some v => x.sqrtResult cfg r v
    | none => x.reconstruct cfg xy y r .unrepresentable

/-- the irrational branch of `from_sqrt` (lines 1466-1526) -/
def fromSqrtSurdIrr (x : Fx) (cfg : Cfg) (t : Surd) : Res (Except (SqrtErr Surd) Surd) := do
  let u ← x.ratio t.a t.c
  let y ← x.ratio t.b t.c
  let xy ← x.rtDiv u y
  let sq ← x.rtMul xy xy
  let delta2 ← x.rtSubInt sq t.r
  if rtIsNeg delta2 then x.reconstruct cfg xy y t.r .unrepresentable
  else
    match ← x.fromSqrtRat cfg delta2 with
    | .error e => x.reconstruct cfg xy y t.r e.kind
    | .ok v =>
      if v.isRational then do
        let w ← x.toRational cfg v
        x.fromSqrtFinish cfg xy y ⟨w.value.1, w.value.2⟩ t.r
      else x.reconstruct cfg xy y t.r .unrepresentable

/-- `FromSqrt<QuadraticSurd<T>>` (lines 1440-1527). -/
def fromSqrtSurd (x : Fx) (cfg : Cfg) (t : Surd) : Res (Except (SqrtErr Surd) Surd) := do
  let neg ← (if cfg.complex then (pure false : Res Bool) else x.isNegative cfg t)
  if neg then return .error ⟨t, .complex⟩
  else if t.isRational then x.fromSqrtSurdRat cfg t
  else x.fromSqrtSurdIrr cfg t

/-- the inner `loop` of `reduce_root` (lines 737-746) on `(b, r)`; the division by `p2 ≥ 4` cannot overflow.  `none` = still
running after `fuel` iterations. -/
def stripLoop (x : Fx) : Nat → Int → Int → Int → Option (Res (Int × Int))
  | 0, _, _, _ => none
  | fuel + 1, p, b, r =>
    if r.tmod (p * p) = 0 then
      match x.mul b p with
      | .error e => some (.error e)
      | .ok b' => x.stripLoop fuel p b' (r.tdiv (p * p))
    else some (.ok (b, r))

/-- the `for` loop of `reduce_root` (lines 734-748) -/
def stripAll (x : Fx) (fuel : Nat) : List Int → Int → Int → Option (Res (Int × Int))
  | [], b, r => some (.ok (b, r))
  | p :: ps, b, r =>
    if x.fits p then
      if x.fits (p * p) then
        match x.stripLoop fuel p b r with
        | none => none
        | some (.error e) => some (.error e)
        | some (.ok (b', r')) => x.stripAll fuel ps b' r'
      else x.stripAll fuel ps b r
    else some (.error .unwrapNone)

/-- `reduced` (lines 757-762, calling `reduce_root`, lines 728-749). -/
def reduced (x : Fx) (fuel : Nat) (s : Surd) : Option (Res Surd) :=
  match x.stripAll fuel Surd.smallPrimes s.b s.r with
  | none => none
  | some (.error e) => some (.error e)
  | some (.ok (b, r)) => some (x.reduce ⟨s.a, b, s.c, r⟩)

/-- `ToPrimitive::to_i64` / `to_u64` (lines 1323-1342), with the target range as a predicate. -/
def toPrim (x : Fx) (cfg : Cfg) (inRange : Int → Bool) (s : Surd) : Res (Option Int) :=
  if s.r < 0 then .ok none
  else do
    match ← x.toInteger cfg s with
    | .exact v => return (if inRange v then some v else none)
    | .approximated _ => return none

end Fx
end NumIrr
