/-
Model of `ContinuedFraction` over fixed-width integers (/repo/src/cont_frac/simple.rs), operator by operator, with the
overflow behaviour of `Verif.Model.Fixed`.  All citations in this file are to /repo/src/cont_frac/simple.rs unless
stated otherwise.

The conversions `to_signed` and `to_unsigned` of the primitive types are `as` casts (traits.rs:80-117): they never panic,
with or without overflow checks, and keep the number modulo `2^w`.  The stored coefficients are unsigned integers of `w`
bits, here natural numbers.  `new` also accepts coefficients of the unsigned type, so its model takes the type `Prim`.
-/
import Verif.Model.Fixed
import Verif.Model.CF

namespace NumIrr

/-- A primitive integer type of `w` bits, signed or not, and whether overflow checks are compiled in.
One of the types of traits.rs:109-113. -/
structure Prim where
  w : Nat
  sg : Bool
  checks : Bool
  deriving DecidableEq, Repr

namespace Prim

/-- the representable integers and the wrap-around of the type (traits.rs:109-113) -/
def ty (t : Prim) : IntTy := if t.sg then IntTy.signed t.w else IntTy.unsigned t.w

/-- the result of an operator whose exact result is `v` (every operator on `T` in lines 58-230) -/
def ret (t : Prim) (v : Int) : Res Int :=
  if t.ty.fits v then .ok v else if t.checks then .error .overflow else .ok (t.ty.wrap v)

/-- `+`; e.g. line 169 -/
def add (t : Prim) (a b : Int) : Res Int := t.ret (a + b)
/-- `-`; e.g. lines 122-160 -/
def sub (t : Prim) (a b : Int) : Res Int := t.ret (a - b)
/-- `*`; e.g. block.rs:51-52 -/
def mul (t : Prim) (a b : Int) : Res Int := t.ret (a * b)

end Prim

/-- the signed type as one of the primitive types (traits.rs:109-113) -/
def Fx.prim (x : Fx) : Prim := ⟨x.w, true, x.checks⟩
/-- the unsigned type of the same width (traits.rs:94-100) -/
def Fx.uns (x : Fx) : Prim := ⟨x.w, false, x.checks⟩

/-- `to_unsigned`: the cast `as u{w}` of a primitive integer (traits.rs:97-110). -/
def castU (w : Nat) (v : Int) : Nat := (v % 2 ^ w).toNat
/-- `to_signed`: the cast `as i{w}` of an unsigned primitive integer (traits.rs:82-88). -/
def castS (w : Nat) (n : Nat) : Int := if (n : Int) < 2 ^ (w - 1) then n else n - 2 ^ w

namespace Prim
open CF

/-- the inner `loop` of `new` (lines 112-164). -/
def propagate (t : Prim) (debug : Bool) (negative : Option Bool) (negate : Bool) : List Int → Int → Res NewSt
  | [], _ => .error .unwrapNone
  | [am1], target =>
    if debug = true ∧ am1 < 0 then .error .debugAssert
    else if am1 = 1 then do
      let u ← t.sub 0 target
      let v ← t.sub u 1
      return ⟨[v, 1, 0], some false, !negate⟩
    else if am1 = 0 then do
      let u ← t.sub 0 target
      return ⟨[u, 0], some true, !negate⟩
    else if debug = true ∧ ¬ am1 > 1 then .error .debugAssert
    else do
      let m ← t.sub am1 1
      let u ← t.sub 0 target
      let v ← t.sub u 1
      return ⟨[v, 1, m], negative, !negate⟩
  | am1 :: am2 :: rest, target =>
    if debug = true ∧ am1 < 0 then .error .debugAssert
    else if am1 = 1 then do
      let m ← t.add am2 1
      let u ← t.sub 0 target
      let v ← t.sub u 1
      return ⟨v :: m :: rest, negative, !negate⟩
    else if am1 = 0 then
      match t.add am2 target with
      | .error e => .error e
      | .ok new_target =>
        if new_target < 0 then propagate t debug negative negate rest new_target
        else .ok ⟨new_target :: rest, negative, negate⟩
    else if debug = true ∧ ¬ am1 > 1 then .error .debugAssert
    else do
      let m ← t.sub am1 1
      let u ← t.sub 0 target
      let v ← t.sub u 1
      return ⟨v :: 1 :: m :: am2 :: rest, negative, !negate⟩

/-- the sign flag applied to a coefficient (line 81) -/
def applyNegate (t : Prim) (negate : Bool) (a : Int) : Res Int := if negate then t.sub 0 a else .ok a

/-- one round of the outer loop of `new` after the sign flag has been applied (lines 84-178). -/
def newPush (t : Prim) (debug : Bool) (s : NewSt) (a : Int) : Res NewSt :=
  match s.stack with
  | [] =>
    if a < 0 then do
      let u ← t.sub 0 a
      return ⟨[u], some true, !s.negate⟩
    else .ok ⟨[a], if a = 0 then s.negative else some false, s.negate⟩
  | top :: rest =>
    if a = 0 then
      if top = 0 then .ok { s with stack := rest }
      else .ok { s with stack := a :: top :: rest }
    else if a < 0 then t.propagate debug s.negative s.negate (top :: rest) a
    else
      match rest with
      | am2 :: rest' =>
        if top = 0 then do
          let u ← t.add am2 a
          return { s with stack := u :: rest' }
        else .ok ⟨a :: top :: am2 :: rest', if s.negative = none then some false else s.negative, s.negate⟩
      | [] => .ok ⟨[a, top], if s.negative = none then some false else s.negative, s.negate⟩

/-- one round of the outer loop of `new` (lines 79-178). -/
def newStep (t : Prim) (debug : Bool) (s : NewSt) (a : Int) : Res NewSt := do
  let a ← t.applyNegate s.negate a
  t.newPush debug s a

/-- the outer loop of `new` (lines 77-183). -/
def newLoop (t : Prim) (debug : Bool) : NewSt → List Int → Res NewSt
  | s, [] => .ok s
  | s, a :: as => do
    let s' ← t.newStep debug s a
    newLoop t debug s' as

/-- the clean-up loop of `new` (lines 191-202), on the reversed list. -/
def cleanup (t : Prim) : Nat → List Int → Res (List Int)
  | fuel + 1, x :: y :: rest =>
    if x = 0 then cleanup t fuel rest
    else if x = 1 then do
      let u ← t.add y x
      cleanup t fuel (u :: rest)
    else .ok (x :: y :: rest)
  | _, l => .ok l

/-- the clean-up of a finite fraction (lines 190-207). -/
def finish (t : Prim) (s : NewSt) (finite : Bool) : Res NewSt :=
  if finite then do
    let st ← t.cleanup s.stack.length s.stack
    return ⟨st, if st = [0] then some false else s.negative, s.negate⟩
  else .ok s

/-- `ContinuedFraction::new` (lines 62-227). -/
def new (t : Prim) (debug : Bool) (a p : List Int) (negate : Bool) : Res CF :=
  if a.length = 0 ∧ p.length = 0 then .error .noCoeff
  else do
    let s ← t.newLoop debug ⟨[], none, negate⟩ a
    if s.stack.length = 0 ∧ p.length = 0 then .error .noCoeff
    else do
      let s ← t.finish s (p.length = 0)
      let negative ← finalSign s.negative s.negate p
      return ⟨s.stack.reverse.map (castU t.w), p.map (castU t.w), negative⟩

/-- `From<T>` (lines 611-627). -/
def ofInt (t : Prim) (v : Int) : Res CF :=
  if v < 0 then do
    let u ← t.sub 0 v
    return ⟨[castU t.w u], [], true⟩
  else .ok ⟨[castU t.w v], [], false⟩

end Prim

namespace Fx
open CF

/-- the Euclidean loop of `From<Ratio>` (lines 652-657); the outer `none` means still running. -/
def euclid (x : Fx) : Nat → Int → Int → List Nat → Option (Res (List Nat))
  | 0, _, _, _ => none
  | fuel + 1, n, d, acc =>
    if d = 0 then some (.ok acc.reverse)
    else
      match (do let q ← x.div n d; let r ← x.rem n d; return (q, r) : Res (Int × Int)) with
      | .error e => some (.error e)
      | .ok (quo, rem) => euclid x fuel d rem (castU x.w quo :: acc)

/-- `From<Ratio<T>>` for signed `T` (lines 632-664). -/
def ofRat (x : Fx) (fuel : Nat) (r : Rt) : Option (Res CF) :=
  if r.num = 0 then some (.ok CF.zero)
  else
    match (if r.num < 0 then x.sub 0 r.num else .ok r.num) with
    | .error e => some (.error e)
    | .ok n =>
      let negative := decide (r.num < 0)
      let l := if n < r.den then x.euclid fuel r.den n [0] else x.euclid fuel n r.den []
      l.map fun l => l.map fun l => ⟨l, [], negative⟩

/-- the first part of `Add<T>` (lines 697-725): the new first coefficient, and whether the sign flips. -/
def shiftFirst (x : Fx) (neg : Bool) (i : Nat) (rhs : Int) : Res (Nat × Bool) :=
  match neg, decide (rhs < 0) with
  | true, true => do
    let m ← x.neg rhs
    let k := castU x.w m
    let u ← x.uns.add k i
    return (u.toNat, false)
  | true, false =>
    let k := castU x.w rhs
    if i < k then do
      let u ← x.uns.sub k i
      return (u.toNat, true)
    else do
      let u ← x.uns.sub i k
      return (u.toNat, false)
  | false, true => do
    let m ← x.neg rhs
    let k := castU x.w m
    if i < k then do
      let u ← x.uns.sub k i
      return (u.toNat, true)
    else do
      let u ← x.uns.sub i k
      return (u.toNat, false)
  | false, false => do
    let u ← x.uns.add i (castU x.w rhs)
    return (u.toNat, false)

/-- `Add<T>` (lines 692-747). -/
def addInt (x : Fx) (debug : Bool) (c : CF) (rhs : Int) : Res CF :=
  match c.a with
  | [] => .error .unwrapNone
  | i :: rest => do
    let t ← x.shiftFirst c.neg i rhs
    if t.2 then do
      let h ← x.neg (castS x.w t.1)
      x.prim.new debug (h :: rest.map (castS x.w)) (c.p.map (castS x.w)) c.neg
    else
      let result : CF := ⟨t.1 :: rest, c.p, c.neg⟩
      return (if result.isZero then { result with neg := false } else result)

/-- `Sub<T>` (lines 759-761). -/
def subInt (x : Fx) (debug : Bool) (c : CF) (rhs : Int) : Res CF := do
  let m ← x.neg rhs
  x.addInt debug c m

/-! ### Iterators -/

/-- the sign applied to a coefficient (lines 353-357, 377-381, 394-398) -/
def signedCoeff (x : Fx) (neg : Bool) (v : Nat) : Res Int := if neg then x.neg (castS x.w v) else .ok (castS x.w v)

/-- `next` for `SignedCoefficients` (lines 352-358). -/
def signedNext (x : Fx) (it : SignedIter) : Res (Option Int) × SignedIter :=
  match it.coeffs.next with
  | (none, c) => (.ok none, { it with coeffs := c })
  | (some v, c) => ((x.signedCoeff it.neg v).map some, { it with coeffs := c })

/-- `next` for `GeneralCoefficients` (lines 297-307). -/
def generalNext (x : Fx) (it : SignedIter) : Res (Option (Int × Int)) × SignedIter :=
  match it.coeffs.next with
  | (none, c) => (.ok none, { it with coeffs := c })
  | (some v, c) => ((x.signedCoeff it.neg v).map fun u => some (1, u), { it with coeffs := c })

/-- `next` for `OwnedCoefficients` (lines 373-402). -/
def ownedNext (x : Fx) (it : OwnedIter) : Res (Option Int) × OwnedIter :=
  match it.aIter with
  | some (v :: vs) => ((x.signedCoeff it.neg v).map some, { it with aIter := some vs })
  | _ =>
    let it : OwnedIter := { it with aIter := none }
    if it.pList.length > 0 then
      match it.pList[it.pPos]? with
      | none => (.error .unwrapNone, it)
      | some v =>
        let it' := if it.pPos ≥ it.pList.length then { it with pPos := it.pPos - it.pList.length } else it
        ((x.signedCoeff it.neg v).map some, it')
    else (.ok none, it)

/-- a convergent as a signed ratio: `Ratio::new(p.to_signed(), q.to_signed())` and its negation (lines 330-335) -/
def convItem (x : Fx) (neg : Bool) (p q : Int) : Res Rt := do
  let r ← x.ratio (castS x.w p.toNat) (castS x.w q.toNat)
  if neg then do
    let n ← x.neg r.num
    return ⟨n, r.den⟩
  else return r

/-- `next` for `Convergents` (lines 325-336). -/
def convNext (x : Fx) (it : ConvIter) : Res (Option Rt) × ConvIter :=
  match it.coeffs.next with
  | (none, c) => (.ok none, { it with coeffs := c })
  | (some a, c) =>
    match it.block.checkedRmove x.uns.ty.fits a with
    | none => (.ok none, { it with coeffs := c })
    | some (p, q) =>
      ((x.convItem it.neg p q).map some, { it with coeffs := c, block := it.block.update p q })

/-- `Iterator::nth` (core).  Called at lines 480-482. -/
def convNth (x : Fx) : Nat → ConvIter → Res (Option Rt)
  | 0, it => (x.convNext it).1
  | n + 1, it =>
    match x.convNext it with
    | (.error e, _) => .error e
    | (.ok none, _) => .ok none
    | (.ok (some _), it') => convNth x n it'

/-- `Iterator::last` (core); the outer `none` means still running after `fuel` items.
Called at line 477 and surd.rs:776. -/
def convLast (x : Fx) : Nat → Option Rt → ConvIter → Option (Res (Option Rt))
  | 0, _, _ => none
  | fuel + 1, acc, it =>
    match x.convNext it with
    | (.error e, _) => some (.error e)
    | (.ok none, _) => some (.ok acc)
    | (.ok (some r), it') => convLast x fuel (some r) it'

/-- `to_integer` (lines 462-470). -/
def cfToInteger (x : Fx) (c : CF) : Res (Approx Int) :=
  match c.a with
  | [] => .error .unwrapNone
  | v :: _ => do
    let a ← x.signedCoeff c.neg v
    if c.isInteger then return .exact a else return .approximated a

/-- `convergents().last().unwrap()` of a finite fraction (line 477 and surd.rs:776). -/
def lastConvergent (x : Fx) (c : CF) : Res Rt :=
  match x.convLast (c.a.length + 1) none c.convergents with
  | none => .error .unreachable
  | some (.error e) => .error e
  | some (.ok none) => .error .unwrapNone
  | some (.ok (some r)) => .ok r

/-- `to_rational` (lines 475-485). -/
def cfToRational (x : Fx) (c : CF) : Res (Approx Rt) :=
  if c.isRational then do
    let r ← x.lastConvergent c
    return .exact r
  else
    match x.convNth (c.a.length + c.p.length) c.convergents with
    | .error e => .error e
    | .ok (some r) => .ok (.approximated r)
    | .ok none => .error .unwrapNone

end Fx
end NumIrr
