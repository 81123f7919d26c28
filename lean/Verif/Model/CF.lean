/-
Model of `ContinuedFraction` (/repo/src/cont_frac/simple.rs): construction, iterators, convergents, rational
conversions, integer shifts, printing.
All citations in this file are to /repo/src/cont_frac/simple.rs unless stated otherwise.

Simplifications: the signed type is `Int`, the unsigned one `Nat`; `to_unsigned` is the arbitrary-precision one,
which panics on negative numbers (traits.rs `to_biguint().unwrap()`).  Iterators are state machines: `next`
returns the item and the new state.  The convergent iterators use checked arithmetic, so they take a `Width`
describing the unsigned type and its conversion to the signed one.
-/
import Verif.Model.Block

namespace NumIrr

/-- `ContinuedFraction<T>` (lines 18-28). -/
structure CF where
  a : List Nat
  p : List Nat
  neg : Bool
  deriving DecidableEq, Repr

/-- An unsigned integer type: which integers it holds, and its `to_signed` (traits.rs:89-158). -/
structure Width where
  fits : Int → Bool
  sgn : Int → Int

/-- arbitrary precision; `BigUint` and `BigInt` (traits.rs:116-150). -/
def Width.big : Width := ⟨fun _ => true, fun n => n⟩

/-- `u{w}` with `as i{w}` for the signed version; `w ≥ 1` bits.  (traits.rs:77-113) -/
def Width.prim (w : Nat) : Width :=
  ⟨fun n => 0 ≤ n && n < 2 ^ w, fun n => if n < 2 ^ (w - 1) then n else n - 2 ^ w⟩

namespace CF

/-- `to_unsigned` of an arbitrary-precision integer (traits.rs `impl WithUnsigned for BigInt`).
(traits.rs:134-140) -/
def toUnsigned (v : Int) : Res Nat := if v < 0 then .error .unwrapNone else .ok v.toNat

/-- `to_unsigned` of every element of a list, in order.  (lines 220-221) -/
def toUnsignedAll : List Int → Res (List Nat)
  | [] => .ok []
  | v :: vs => do
    let n ← toUnsigned v
    let ns ← toUnsignedAll vs
    return n :: ns

/-- The local variables of `new` (lines 71-73): `stack` is `dedup_a` with its last element first. -/
structure NewSt where
  stack : List Int
  negative : Option Bool
  negate : Bool
  deriving DecidableEq, Repr

/-- the inner `loop` of `new` handling a negative coefficient (lines 112-164). -/
def propagate (debug : Bool) (negative : Option Bool) (negate : Bool) : List Int → Int → Res NewSt
  | [], _ => .error .unwrapNone
  | [am1], target =>
    if debug = true ∧ am1 < 0 then .error .debugAssert
    else if am1 = 1 then .ok ⟨[-target - 1, 1, 0], some false, !negate⟩
    else if am1 = 0 then .ok ⟨[-target, 0], some true, !negate⟩
    else if debug = true ∧ ¬ am1 > 1 then .error .debugAssert
    else .ok ⟨[-target - 1, 1, am1 - 1], negative, !negate⟩
  | am1 :: am2 :: rest, target =>
    if debug = true ∧ am1 < 0 then .error .debugAssert
    else if am1 = 1 then .ok ⟨(-target - 1) :: (am2 + 1) :: rest, negative, !negate⟩
    else if am1 = 0 then
      if am2 + target < 0 then propagate debug negative negate rest (am2 + target)
      else .ok ⟨(am2 + target) :: rest, negative, negate⟩
    else if debug = true ∧ ¬ am1 > 1 then .error .debugAssert
    else .ok ⟨(-target - 1) :: 1 :: (am1 - 1) :: am2 :: rest, negative, !negate⟩

/-- one round of the outer loop of `new` (lines 79-178). -/
def newStep (debug : Bool) (s : NewSt) (a : Int) : Res NewSt :=
  let a := if s.negate then 0 - a else a
  match s.stack with
  | [] =>
    if a < 0 then .ok ⟨[0 - a], some true, !s.negate⟩
    else .ok ⟨[a], if a = 0 then s.negative else some false, s.negate⟩
  | top :: rest =>
    if a = 0 then
      if top = 0 then .ok { s with stack := rest }
      else .ok { s with stack := a :: top :: rest }
    else if a < 0 then propagate debug s.negative s.negate (top :: rest) a
    else
      match rest with
      | am2 :: rest' =>
        if top = 0 then .ok { s with stack := (am2 + a) :: rest' }
        else .ok ⟨a :: top :: am2 :: rest', if s.negative = none then some false else s.negative, s.negate⟩
      | [] => .ok ⟨[a, top], if s.negative = none then some false else s.negative, s.negate⟩

/-- the outer loop of `new` (lines 77-183). -/
def newLoop (debug : Bool) : NewSt → List Int → Res NewSt
  | s, [] => .ok s
  | s, a :: as => do
    let s' ← newStep debug s a
    newLoop debug s' as

/-- the clean-up loop of `new` for finite fractions (lines 191-202), on the reversed list; `fuel` bounds the
number of rounds, `new` supplies the length of the list, which is enough because every round shortens it. -/
def cleanup : Nat → List Int → List Int
  | fuel + 1, x :: y :: rest =>
    if x = 0 then cleanup fuel rest
    else if x = 1 then cleanup fuel ((y + x) :: rest)
    else x :: y :: rest
  | _, l => l

/-- the sign when no coefficient has decided it (lines 209-217). -/
def finalSign (negative : Option Bool) (negate : Bool) (p : List Int) : Res Bool :=
  match negative with
  | some b => .ok b
  | none =>
    match p with
    | q :: _ => if q ≤ 0 then .error .unimplemented else .ok negate
    | [] => .ok negate

/-- `ContinuedFraction::new` (lines 62-227). -/
def new (debug : Bool) (a p : List Int) (negate : Bool) : Res CF :=
  if a.length = 0 ∧ p.length = 0 then .error .noCoeff
  else do
    let s ← newLoop debug ⟨[], none, negate⟩ a
    if s.stack.length = 0 ∧ p.length = 0 then .error .noCoeff
    else
      let s : NewSt :=
        if p.length = 0 then
          let st := cleanup s.stack.length s.stack
          ⟨st, if st = [0] then some false else s.negative, s.negate⟩
        else s
      let negative ← finalSign s.negative s.negate p
      let a' ← toUnsignedAll s.stack.reverse
      let p' ← toUnsignedAll p
      return ⟨a', p', negative⟩

/-- `FromIterator` (lines 230-234). -/
def fromIter (debug : Bool) (l : List Int) : Res CF := new debug l [] false

/-- `is_rational` (lines 47-49). -/
def isRational (c : CF) : Bool := c.p.length = 0
/-- `is_integer` (lines 52-54). -/
def isInteger (c : CF) : Bool := c.a.length = 1 && c.p.length = 0
/-- `_zero` (lines 555-561). -/
def zero : CF := ⟨[0], [], false⟩
/-- `One::one` (lines 596-602). -/
def one : CF := ⟨[1], [], false⟩
/-- `_is_zero` (lines 564-566). -/
def isZero (c : CF) : Bool := c.a = [0] && c.p.length = 0
/-- `is_one` (lines 604-606). -/
def isOne (c : CF) : Bool := c.a = [1] && c.p.length = 0

/-! ### Iterators -/

/-- `Coefficients` (lines 238-242); a slice iterator is the list of its remaining items. -/
structure CoeffIter where
  aIter : Option (List Nat)
  pRef : List Nat
  pIter : Option (List Nat)
  deriving DecidableEq, Repr

/-- restart the periodic part (lines 255-258 and 270-273): `iter()` then `next()`. -/
def CoeffIter.restart (pRef : List Nat) : Option Nat × CoeffIter :=
  match pRef with
  | [] => (none, ⟨none, pRef, some []⟩)
  | v :: vs => (some v, ⟨none, pRef, some vs⟩)

/-- `Iterator::next` for `Coefficients` (lines 247-280). -/
def CoeffIter.next (it : CoeffIter) : Option Nat × CoeffIter :=
  match it.aIter with
  | some (v :: vs) => (some v, { it with aIter := some vs })
  | some [] =>
    if it.pRef.length > 0 then CoeffIter.restart it.pRef
    else (none, { it with aIter := none })
  | none =>
    match it.pIter with
    | some (v :: vs) => (some v, { it with pIter := some vs })
    | some [] => CoeffIter.restart it.pRef
    | none => (none, it)

/-- `coeffs_unsigned` (lines 408-414). -/
def coeffsUnsigned (c : CF) : CoeffIter := ⟨some c.a, c.p, none⟩

/-- `SignedCoefficients` (lines 341-359). -/
structure SignedIter where
  coeffs : CoeffIter
  neg : Bool
  deriving DecidableEq, Repr

/-- `next` for `SignedCoefficients` (lines 352-358). -/
def SignedIter.next (it : SignedIter) : Option Int × SignedIter :=
  let (v, c) := it.coeffs.next
  (v.map fun n : Nat => if it.neg then -(n : Int) else n, { it with coeffs := c })

/-- `coeffs` (lines 427-432). -/
def coeffs (c : CF) : SignedIter := ⟨c.coeffsUnsigned, c.neg⟩

/-- `next` for `GeneralCoefficients` (lines 297-307); same fields as `SignedCoefficients`. -/
def SignedIter.nextGeneral (it : SignedIter) : Option (Int × Int) × SignedIter :=
  let (v, c) := it.coeffs.next
  (v.map fun n : Nat => ((1 : Int), if it.neg then -(n : Int) else n), { it with coeffs := c })

/-- `generalized` (lines 418-423). -/
def generalized (c : CF) : SignedIter := ⟨c.coeffsUnsigned, c.neg⟩

/-- `OwnedCoefficients` (lines 363-368). -/
structure OwnedIter where
  aIter : Option (List Nat)
  pList : List Nat
  pPos : Nat
  neg : Bool
  deriving DecidableEq, Repr

/-- `next` for `OwnedCoefficients` (lines 373-402); indexing past the end panics. -/
def OwnedIter.next (it : OwnedIter) : Res (Option Int) × OwnedIter :=
  match it.aIter with
  | some (v :: vs) => (.ok (some (if it.neg then -(v : Int) else v)), { it with aIter := some vs })
  | _ =>
    let it : OwnedIter := { it with aIter := none }
    if it.pList.length > 0 then
      match it.pList[it.pPos]? with
      | none => (.error .unwrapNone, it)
      | some v =>
        let it' := if it.pPos ≥ it.pList.length then { it with pPos := it.pPos - it.pList.length } else it
        (.ok (some (if it.neg then -(v : Int) else v)), it')
    else (.ok none, it)

/-- `into_coeffs` (lines 434-441). -/
def intoCoeffs (c : CF) : OwnedIter := ⟨some c.a, c.p, 0, c.neg⟩

/-- `Convergents` (lines 311-315). -/
structure ConvIter where
  coeffs : CoeffIter
  block : Block
  neg : Bool
  deriving DecidableEq, Repr

/-- `next` for `Convergents` (lines 325-336). -/
def ConvIter.next (w : Width) (it : ConvIter) : Res (Option Rat) × ConvIter :=
  match it.coeffs.next with
  | (none, c) => (.ok none, { it with coeffs := c })
  | (some a, c) =>
    match it.block.checkedRmove w.fits a with
    | none => (.ok none, { it with coeffs := c })
    | some (p, q) =>
      let it' : ConvIter := { it with coeffs := c, block := it.block.update p q }
      match ratioNew (w.sgn p) (w.sgn q) with
      | .error e => (.error e, it')
      | .ok r => (.ok (some (if it.neg then -r else r)), it')

/-- `convergents` (lines 452-458). -/
def convergents (c : CF) : ConvIter := ⟨c.coeffsUnsigned, Block.identity, c.neg⟩

/-- `Iterator::nth` (core): drops `n` items, then takes one; stops at the first `None`.
Called at lines 480-482. -/
def ConvIter.nth (w : Width) : Nat → ConvIter → Res (Option Rat)
  | 0, it => (it.next w).1
  | n + 1, it =>
    match it.next w with
    | (.error e, _) => .error e
    | (.ok none, _) => .ok none
    | (.ok (some _), it') => ConvIter.nth w n it'

/-- `Iterator::last` (core): the last item before the first `None`; the outer `none` means that it is still
running after `fuel` items.  Called at line 477 and surd.rs:776. -/
def ConvIter.last (w : Width) : Nat → Option Rat → ConvIter → Option (Res (Option Rat))
  | 0, _, _ => none
  | fuel + 1, acc, it =>
    match it.next w with
    | (.error e, _) => some (.error e)
    | (.ok none, _) => some (.ok acc)
    | (.ok (some r), it') => ConvIter.last w fuel (some r) it'

/-- `to_integer` (lines 462-470). -/
def toInteger (w : Width) (c : CF) : Res (Approx Int) :=
  match c.a with
  | [] => .error .unwrapNone
  | v :: _ =>
    let a := if c.neg then -(w.sgn v) else w.sgn v
    if c.isInteger then .ok (.exact a) else .ok (.approximated a)

/-- `convergents().last().unwrap()` of a finite fraction (line 477 and surd.rs:776); a finite fraction has
`a.length` coefficients, so `a.length + 1` calls of `next` reach the end. -/
def lastConvergent (w : Width) (c : CF) : Res Rat :=
  match ConvIter.last w (c.a.length + 1) none c.convergents with
  | none => .error .unreachable
  | some (.error e) => .error e
  | some (.ok none) => .error .unwrapNone
  | some (.ok (some r)) => .ok r

/-- `to_rational` (lines 475-485). -/
def toRational (w : Width) (c : CF) : Res (Approx Rat) :=
  if c.isRational then do
    let r ← c.lastConvergent w
    return .exact r
  else do
    match ← ConvIter.nth w (c.a.length + c.p.length) c.convergents with
    | some r => return .approximated r
    | none => .error .unwrapNone

/-- the `loop` of `approximated` (lines 500-511). -/
def approxLoop (w : Width) (limit : Int) : Nat → Rat → ConvIter → Option (Res (Approx Rat))
  | 0, _, _ => none
  | fuel + 1, last, it =>
    match it.next w with
    | (.error e, _) => some (.error e)
    | (.ok none, _) => some (.ok (.exact last))
    | (.ok (some v), it') =>
      if (v.den : Int) < limit then approxLoop w limit fuel v it' else some (.ok (.approximated last))

/-- `Computable::approximated` (lines 493-512); the outer `none` means still running after `fuel` rounds. -/
def approximated (w : Width) (fuel : Nat) (c : CF) (limit : Int) : Option (Res (Approx Rat)) :=
  match c.convergents.next w with
  | (.error e, _) => some (.error e)
  | (.ok none, _) => some (.error .unwrapNone)
  | (.ok (some last), it) =>
    if (last.den : Int) > limit then
      match c.a with
      | [] => some (.error .unwrapNone)
      | i :: _ => some (.ok (.approximated (w.sgn i : Int)))
    else approxLoop w limit fuel last it

/-! ### Printing -/

/-- the items after the first one, each preceded by `", "` (the `while let` loops of lines 531-533, 542-544) -/
def showRest : List Nat → String
  | [] => ""
  | v :: vs => ", " ++ toString v ++ showRest vs

/-- `Display` (lines 516-549). -/
def display (c : CF) : Res String :=
  match c.a with
  | [] => .error .unwrapNone
  | a0 :: as =>
    let sign := if c.neg then "-" else ""
    let head := sign ++ "[" ++ toString a0
    let per := match c.p with
      | [] => "]"
      | p0 :: ps => "(" ++ toString p0 ++ showRest ps ++ ")]"
    match as with
    | [] =>
      if c.p.length = 0 then .ok (head ++ "]")
      else .ok (head ++ "; " ++ per)
    | a1 :: as' =>
      let sep := if c.p.length > 0 then ", " else ""
      .ok (head ++ "; " ++ toString a1 ++ showRest as' ++ sep ++ per)

/-! ### Conversions and integer shifts -/

/-- `From<T>` (lines 611-627). -/
def ofInt (t : Int) : CF := if t < 0 then ⟨[(0 - t).toNat], [], true⟩ else ⟨[t.toNat], [], false⟩

/-- the Euclidean loop of `From<Ratio>` (lines 652-657); `fuel` bounds the rounds, `ofRat` supplies `d + 1`. -/
def euclid : Nat → Nat → Nat → List Nat
  | 0, _, _ => []
  | fuel + 1, n, d => if d = 0 then [] else n / d :: euclid fuel d (n % d)

/-- `From<Ratio<T>>` (lines 632-664). -/
def ofRat (r : Rat) : CF :=
  if r = 0 then zero
  else
    let n := r.num.natAbs
    let d := r.den
    let negative := decide (r.num < 0)
    if n < d then ⟨0 :: euclid (n + 1) d n, [], negative⟩
    else ⟨euclid (d + 1) n d, [], negative⟩

/-- `Neg` (lines 767-774). -/
def neg' (c : CF) : CF := if c.isZero then c else { c with neg := !c.neg }

/-- `Add<T>` (lines 692-747). -/
def addInt (debug : Bool) (c : CF) (rhs : Int) : Res CF :=
  match c.a with
  | [] => .error .unwrapNone
  | i :: rest =>
    let k := rhs.natAbs
    let t : Nat × Bool :=
      match c.neg, decide (rhs < 0) with
      | true, true => (k + i, false)
      | true, false => if i < k then (k - i, true) else (i - k, false)
      | false, true => if i < k then (k - i, true) else (i - k, false)
      | false, false => (i + k, false)
    if t.2 then
      new debug (-(t.1 : Int) :: List.map (fun n : Nat => (n : Int)) rest)
        (List.map (fun n : Nat => (n : Int)) c.p) c.neg
    else
      let result : CF := ⟨t.1 :: rest, c.p, c.neg⟩
      .ok (if result.isZero then { result with neg := false } else result)

/-- `Sub<T>` (lines 759-761). -/
def subInt (debug : Bool) (c : CF) (rhs : Int) : Res CF := c.addInt debug (-rhs)

end CF
end NumIrr
