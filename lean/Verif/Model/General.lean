/-
Model of /repo/src/cont_frac/general.rs.  All citations in this file are to that file.

Simplifications: the underlying iterator of pairs is a function `Nat → Option (Int × Int)` giving the result of its
`k`-th call, together with the number of calls made so far; the integer type is `Int` with a predicate `fits` telling
which integers are representable (`fun _ => true` is `BigInt`) and a wrap-around function for unchecked overflow;
loops run on fuel.
-/
import Verif.Model.Block

namespace NumIrr

/-- An integer type: the integers it holds, and what an overflowing unchecked operator gives when overflow checks
are off.  The parameter `T` of lines 20-130. -/
structure IntTy where
  fits : Int → Bool
  wrap : Int → Int

/-- arbitrary precision (`BigInt`, traits.rs:134-150) -/
def IntTy.big : IntTy := ⟨fun _ => true, fun n => n⟩

/-- `u{w}` (traits.rs:109-113) -/
def IntTy.unsigned (w : Nat) : IntTy := ⟨fun n => 0 ≤ n && n < 2 ^ w, fun n => n % 2 ^ w⟩

/-- `i{w}` (traits.rs:109-113) -/
def IntTy.signed (w : Nat) : IntTy :=
  ⟨fun n => -2 ^ (w - 1) ≤ n && n < 2 ^ (w - 1), fun n => (n + 2 ^ (w - 1)) % 2 ^ w - 2 ^ (w - 1)⟩

/-- the common shape of `Convergents`, `Simplified` and `DecimalDigits` (lines 53-71) -/
structure GIter where
  block : Block
  src : Nat → Option (Int × Int)
  pos : Nat

namespace GIter

/-- `convergents`, `simplify`, `decimals` (lines 20-45): start from the identity block. -/
def new (src : Nat → Option (Int × Int)) : GIter := ⟨Block.identity, src, 0⟩

/-- `Convergents::next` (lines 80-86); `Ratio::new` panics on a zero denominator. -/
def convNext (ty : IntTy) (s : GIter) : Res (Option Rat × GIter) :=
  match s.src s.pos with
  | none => .ok (none, { s with pos := s.pos + 1 })
  | some (a, b) =>
    match s.block.checkedGmove ty.fits a b with
    | (none, m) => .ok (none, { s with block := m, pos := s.pos + 1 })
    | (some (p, q), m) =>
      match ratioNew p q with
      | .error e => .error e
      | .ok r => .ok (some r, { s with block := m.update p q, pos := s.pos + 1 })

/-- `Simplified::next` (lines 95-105). -/
def simpNext : Nat → GIter → Option (Option Int × GIter)
  | 0, _ => none
  | fuel + 1, s =>
    match s.block.reduceRecip with
    | (some i, m) => some (some i, { s with block := m })
    | (none, m) =>
      match s.src s.pos with
      | some (a, b) => simpNext fuel { s with block := m.gmove a b, pos := s.pos + 1 }
      | none => some (none, { s with block := m, pos := s.pos + 1 })

/-- `reduce_mul` (block.rs:106-115) with base 10, with the overflow of its unchecked multiplications: a panic with
overflow checks, wrap-around without. -/
def reduceMulTy (cfg : Cfg) (ty : IntTy) (m : Block) : Res (Option Int × Block) :=
  match m.checkInteger with
  | some (i, rm1, rm2) =>
    if ty.fits (rm1 * 10) && ty.fits (rm2 * 10) then .ok (some i, ⟨rm1 * 10, rm2 * 10, m.qm1, m.qm2⟩)
    else if cfg.debug then .error .overflow
    else
      .ok (some i, ⟨if ty.fits (rm1 * 10) then rm1 * 10 else ty.wrap (rm1 * 10),
        if ty.fits (rm2 * 10) then rm2 * 10 else ty.wrap (rm2 * 10), m.qm1, m.qm2⟩)
  | none => .ok (none, m)

/-- `i.to_u8().unwrap() + b'0'` (line 121) -/
def digitChar (cfg : Cfg) (i : Int) : Res Nat :=
  if i < 0 ∨ i > 255 then .error .unwrapNone
  else if i + 48 ≤ 255 then .ok (i + 48).toNat
  else if cfg.debug then .error .overflow
  else .ok ((i + 48) % 256).toNat

/-- `DecimalDigits::next` (lines 117-131); the items are the characters as numbers. -/
def decNext (cfg : Cfg) (ty : IntTy) : Nat → GIter → Option (Res (Option Nat × GIter))
  | 0, _ => none
  | fuel + 1, s =>
    match reduceMulTy cfg ty s.block with
    | .error e => some (.error e)
    | .ok (some i, m) =>
      match digitChar cfg i with
      | .error e => some (.error e)
      | .ok ch => some (.ok (some ch, { s with block := m }))
    | .ok (none, m) =>
      match s.src s.pos with
      | none => some (.ok (none, { s with block := m, pos := s.pos + 1 }))
      | some (a, b) =>
        match m.checkedGmove ty.fits a b with
        | (none, m') => some (.ok (none, { s with block := m', pos := s.pos + 1 }))
        | (some (p, q), m') => decNext cfg ty fuel { s with block := m'.update p q, pos := s.pos + 1 }

/-- the loop of `approximated` (lines 145-156) -/
def approxLoop (ty : IntTy) (limit : Int) : Nat → GIter → Rat → Option (Res (Approx Rat))
  | 0, _, _ => none
  | fuel + 1, s, last =>
    match s.convNext ty with
    | .error e => some (.error e)
    | .ok (some v, s') =>
      if (v.den : Int) < limit then approxLoop ty limit fuel s' v else some (.ok (.approximated last))
    | .ok (none, _) => some (.ok (.exact last))

/-- `Computable::approximated` (lines 139-157). -/
def approximated (ty : IntTy) (src : Nat → Option (Int × Int)) (limit : Int) (fuel : Nat) :
    Option (Res (Approx Rat)) :=
  match (new src).convNext ty with
  | .error e => some (.error e)
  | .ok (none, _) => some (.error .unwrapNone)
  | .ok (some v, s) =>
    if (v.den : Int) > limit then some (.ok (.approximated v)) else approxLoop ty limit fuel s v

end GIter

/-- The result of the `k`-th call of `next` on an iterator: the function by which the other iterators of this model see
it.  The inputs of lines 80-130. -/
def stream {σ β : Type} (next : σ → Option β × σ) (s : σ) : Nat → Option β
  | 0 => (next s).1
  | k + 1 => stream next (next s).2 k

/-- `ExpCoefficients` (lines 166-169) -/
structure ExpCoeffs where
  exponent : Int
  i : Int
  deriving DecidableEq, Repr

namespace ExpCoeffs

/-- `exp` (lines 194-202) -/
def new (target : Int) : ExpCoeffs := ⟨target, 0⟩

/-- `ExpCoefficients::next` (lines 177-191) -/
def next (s : ExpCoeffs) : Option (Int × Int) × ExpCoeffs :=
  let result :=
    if s.i = 0 then some (1, 1)
    else if s.i = 1 then some (s.exponent, 1)
    else some (-((s.i - 1) * s.exponent), s.i + s.exponent)
  (result, { s with i := s.i + 1 })

end ExpCoeffs
end NumIrr
