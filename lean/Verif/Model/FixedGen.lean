/-
Model of the iterators on infinite and generalized continued fractions and of the coefficients of the constants over
primitive integer types, operator by operator.  The type is a `Prim`: signed or unsigned, with or without overflow checks.

An input iterator is a function giving the result of its `k`-th call, which may be a panic.  Loops run on fuel as in
Model/Infinite and Model/General.
-/
import Verif.Model.FixedSqrt
import Verif.Model.Infinite
import Verif.Model.Symbols

namespace NumIrr
namespace Prim

/-- unary `-`; e.g. symbols.rs:140 -/
def neg (t : Prim) (a : Int) : Res Int := t.ret (-a)
/-- `Integer::gcd`; see Model/Fixed for its overflow (block.rs:60, 144) -/
def gcd (t : Prim) (a b : Int) : Res Int := t.ret (igcd a b)
/-- `/` (block.rs:62-68) -/
def div (t : Prim) (a b : Int) : Res Int :=
  if b = 0 then .error .divZero else if t.ty.fits (a.tdiv b) then .ok (a.tdiv b) else .error .overflow
/-- `Integer::div_rem` (block.rs:79-80, 238-241) -/
def divRem (t : Prim) (a b : Int) : Res (Int × Int) :=
  if b = 0 then .error .divZero else if t.ty.fits (a.tdiv b) then .ok (a.tdiv b, a.tmod b) else .error .overflow

/-! ### Blocks (/repo/src/cont_frac/block.rs) -/

/-- `Block::rmove` (block.rs:50-54) -/
def rmove (t : Prim) (m : Block) (a : Int) : Res Block := do
  let t1 ← t.mul a m.pm1
  let p ← t.add t1 m.pm2
  let t2 ← t.mul a m.qm1
  let q ← t.add t2 m.qm2
  return m.update p q

/-- the end of `Block::gmove` (block.rs:62-68) -/
def gmoveEnd (t : Prim) (m : Block) (p q g : Int) : Res Block :=
  if g > 1 then do
    let pm1 ← t.div m.pm1 g
    let qm1 ← t.div m.qm1 g
    let p' ← t.div p g
    let q' ← t.div q g
    return (⟨pm1, m.pm2, qm1, m.qm2⟩ : Block).update p' q'
  else return m.update p q

/-- `Block::gmove` (block.rs:57-69) -/
def gmove (t : Prim) (m : Block) (a b : Int) : Res Block := do
  let t1 ← t.mul m.pm1 b
  let t2 ← t.mul m.pm2 a
  let p ← t.add t1 t2
  let t3 ← t.mul m.qm1 b
  let t4 ← t.mul m.qm2 a
  let q ← t.add t3 t4
  let g1 ← t.gcd p q
  let g2 ← t.gcd g1 m.pm1
  let g ← t.gcd g2 m.qm1
  t.gmoveEnd m p q g

/-- `Block::check_integer` (block.rs:74-87) -/
def checkInteger (t : Prim) (m : Block) : Res (Option (Int × Int × Int)) :=
  if m.qm1 = 0 ∨ m.qm2 = 0 then .ok none
  else do
    let d1 ← t.divRem m.pm1 m.qm1
    let d2 ← t.divRem m.pm2 m.qm2
    return (if d1.1 = d2.1 then some (d1.1, d1.2, d2.2) else none)

/-- `Block::reduce_recip` (block.rs:92-101) -/
def reduceRecip (t : Prim) (m : Block) : Res (Option Int × Block) := do
  match ← t.checkInteger m with
  | some (i, rm1, rm2) => return (some i, ⟨m.qm1, m.qm2, rm1, rm2⟩)
  | none => return (none, m)

/-- `HomographicResult::next` (infinite.rs:74-84), on the block and the number of calls of the input iterator -/
def homoNext (t : Prim) (src : Nat → Res (Option Int)) : Nat → Block → Nat → Option (Res (Option Int × Block × Nat))
  | 0, _, _ => none
  | fuel + 1, m, k =>
    match t.reduceRecip m with
    | .error e => some (.error e)
    | .ok (some i, m') => some (.ok (some i, m', k))
    | .ok (none, m') =>
      match src k with
      | .error e => some (.error e)
      | .ok none => some (.ok (none, m', k + 1))
      | .ok (some v) =>
        match t.rmove m' v with
        | .error e => some (.error e)
        | .ok m'' => t.homoNext src fuel m'' (k + 1)

/-- `Simplified::next` (general.rs:95-105) -/
def simpNext (t : Prim) (src : Nat → Res (Option (Int × Int))) :
    Nat → Block → Nat → Option (Res (Option Int × Block × Nat))
  | 0, _, _ => none
  | fuel + 1, m, k =>
    match t.reduceRecip m with
    | .error e => some (.error e)
    | .ok (some i, m') => some (.ok (some i, m', k))
    | .ok (none, m') =>
      match src k with
      | .error e => some (.error e)
      | .ok none => some (.ok (none, m', k + 1))
      | .ok (some (a, b)) =>
        match t.gmove m' a b with
        | .error e => some (.error e)
        | .ok m'' => t.simpNext src fuel m'' (k + 1)

/-! ### Dual blocks -/

/-- `DualBlock::rmove_right` (block.rs:208-214) -/
def rmoveRight (t : Prim) (m : DualBlock) (a : Int) : Res DualBlock := do
  let t1 ← t.mul a m.pm11
  let p1 ← t.add t1 m.pm21
  let t2 ← t.mul a m.qm11
  let q1 ← t.add t2 m.qm21
  let t3 ← t.mul a m.pm12
  let p2 ← t.add t3 m.pm22
  let t4 ← t.mul a m.qm12
  let q2 ← t.add t4 m.qm22
  return m.updateRight p1 q1 p2 q2

/-- `DualBlock::rmove_down` (block.rs:217-223) -/
def rmoveDown (t : Prim) (m : DualBlock) (a : Int) : Res DualBlock := do
  let t1 ← t.mul a m.pm11
  let p1 ← t.add t1 m.pm12
  let t2 ← t.mul a m.qm11
  let q1 ← t.add t2 m.qm12
  let t3 ← t.mul a m.pm21
  let p2 ← t.add t3 m.pm22
  let t4 ← t.mul a m.qm21
  let q2 ← t.add t4 m.qm22
  return m.updateDown p1 q1 p2 q2

/-- the end of `DualBlock::check_integer` (block.rs:238-247) -/
def dualCheckDiv (t : Prim) (m : DualBlock) : Res DualBlock.Check := do
  let d11 ← t.divRem m.pm11 m.qm11
  let d12 ← t.divRem m.pm12 m.qm12
  let d21 ← t.divRem m.pm21 m.qm21
  let d22 ← t.divRem m.pm22 m.qm22
  return (if d11.1 = d12.1 ∧ d11.1 = d21.1 ∧ d11.1 = d22.1 then .int d11.1 d11.2 d12.2 d21.2 d22.2
    else .move (decide (d11.1 ≠ d12.1 ∨ d21.1 ≠ d22.1)) (decide (d11.1 ≠ d21.1 ∨ d12.1 ≠ d22.1)))

/-- `DualBlock::check_integer` (block.rs:230-248) -/
def dualCheck (t : Prim) (m : DualBlock) : Res DualBlock.Check :=
  if m.qm22 = 0 then .ok (.move (decide (m.qm21 = 0)) (decide (m.qm12 = 0)))
  else if m.qm11 = 0 then .ok (.move (decide (m.qm12 = 0)) (decide (m.qm21 = 0)))
  else t.dualCheckDiv m

/-- `DualBlock::reduce_recip` (block.rs:252-263) -/
def dualReduce (t : Prim) (m : DualBlock) : Res ((Int ⊕ Bool × Bool) × DualBlock) := do
  match ← t.dualCheck m with
  | .int i r11 r12 r21 r22 => return (.inl i, ⟨m.qm11, m.qm12, m.qm21, m.qm22, r11, r12, r21, r22⟩)
  | .move r d => return (.inr (r, d), m)

/-- the state of `BihomographicResult`: the block and the numbers of calls of the two input iterators
(infinite.rs:89-93) -/
structure Bi where
  block : DualBlock
  xpos : Nat
  ypos : Nat
  deriving DecidableEq, Repr

/-- one step `if right …` (infinite.rs:107-112); the flag tells whether the loop goes on -/
def stepRight (t : Prim) (xsrc : Nat → Res (Option Int)) (s : Bi) : Res (Bool × Bi) := do
  match ← xsrc s.xpos with
  | some v => do
    let m ← t.rmoveRight s.block v
    return (true, { s with block := m, xpos := s.xpos + 1 })
  | none => return (false, { s with xpos := s.xpos + 1 })

/-- one step `if down …` (infinite.rs:113-118) -/
def stepDown (t : Prim) (ysrc : Nat → Res (Option Int)) (s : Bi) : Res (Bool × Bi) := do
  match ← ysrc s.ypos with
  | some v => do
    let m ← t.rmoveDown s.block v
    return (true, { s with block := m, ypos := s.ypos + 1 })
  | none => return (false, { s with ypos := s.ypos + 1 })

/-- the second of the two conditional steps (infinite.rs:113-118) -/
def moveDown (t : Prim) (ysrc : Nat → Res (Option Int)) (down : Bool) (r : Bool × Bi) : Res (Bool × Bi) :=
  if r.1 then (if down then t.stepDown ysrc r.2 else .ok (true, r.2)) else .ok (false, r.2)

/-- the two conditional steps (infinite.rs:106-119) -/
def moves (t : Prim) (xsrc ysrc : Nat → Res (Option Int)) (s : Bi) (right down : Bool) : Res (Bool × Bi) := do
  let r ← (if right then t.stepRight xsrc s else .ok (true, s))
  t.moveDown ysrc down r

/-- `BihomographicResult::next` (infinite.rs:102-122) -/
def bihomoNext (t : Prim) (xsrc ysrc : Nat → Res (Option Int)) : Nat → Bi → Option (Res (Option Int × Bi))
  | 0, _ => none
  | fuel + 1, s =>
    match t.dualReduce s.block with
    | .error e => some (.error e)
    | .ok (.inl i, m) => some (.ok (some i, { s with block := m }))
    | .ok (.inr (right, down), _) =>
      match t.moves xsrc ysrc s right down with
      | .error e => some (.error e)
      | .ok (true, s') => t.bihomoNext xsrc ysrc fuel s'
      | .ok (false, s') => some (.ok (none, s'))

/-! ### Coefficients (/repo/src/symbols.rs, general.rs) -/

/-- `ECoefficients::next` for `m = 2` (symbols.rs:66-68) -/
def eTurn (t : Prim) (s : ECoeffs) : Res ECoeffs := do
  let two ← t.add 1 1
  let i ← t.add two s.i
  return { m := 0, i := i }

/-- `ECoefficients::next` (symbols.rs:55-74) -/
def eNext (t : Prim) (s : ECoeffs) : Res (Option Int × ECoeffs) :=
  if s.i = 0 then do
    let i ← t.add 1 1
    let r ← t.add 1 1
    return (some r, { s with i := i })
  else do
    let s' ← (if s.m = 2 then t.eTurn s else .ok { s with m := s.m + 1 })
    return (if s.m = 1 then some s.i else some 1, s')

/-- `PiCoefficients::next` (symbols.rs:105-123) -/
def piNext (t : Prim) (s : PiCoeffs) : Res (Option (Int × Int) × PiCoeffs) := do
  let two ← t.add 1 1
  if s.a = 0 then return (some (1, 0), { s with a := 1 })
  else if s.b = 0 then do
    let b ← t.add 1 two
    let four ← t.add two two
    return (some (four, 1), { s with b := b })
  else do
    let aa ← t.mul s.a s.a
    let a ← t.add s.a 1
    let b ← t.add s.b two
    return (some (aa, s.b), ⟨a, b⟩)

/-- the item of `ExpCoefficients::next` (general.rs:178-187) -/
def expItem (t : Prim) (s : ExpCoeffs) : Res (Int × Int) :=
  if s.i = 0 then .ok (1, 1)
  else if s.i = 1 then .ok (s.exponent, 1)
  else do
    let t1 ← t.sub s.i 1
    let t2 ← t.mul t1 s.exponent
    let a ← t.neg t2
    let b ← t.add s.i s.exponent
    return (a, b)

/-- `ExpCoefficients::next` (general.rs:177-191); `T` is signed -/
def expNext (t : Prim) (s : ExpCoeffs) : Res (Option (Int × Int) × ExpCoeffs) := do
  let r ← t.expItem s
  let i ← t.add s.i 1
  return (some r, { s with i := i })

end Prim

namespace Fx

/-- `Ratio + T`: `Ratio::new(numer + denom * rhs, denom)`.  Used at symbols.rs:195. -/
def rtAddInt (x : Fx) (p : Rt) (k : Int) : Res Rt := do
  let t ← x.mul p.den k
  let n ← x.add p.num t
  x.ratio n p.den

/-- `GammaCoefficients` (symbols.rs:151-157) with the fields of its ratios -/
structure Gam where
  n : Nat
  qm1 : Int
  qm2 : Int
  sm1 : Rt
  rm1 : Rt
  deriving DecidableEq, Repr

/-- `Gamma::gfrac` (symbols.rs:130-143) -/
def gamNew (x : Fx) : Res Gam := do
  let two ← x.add 1 1
  let s ← x.rtNeg ⟨1, 1⟩
  return ⟨0, two, 1, s, ⟨1, 1⟩⟩

/-- `rho` (symbols.rs:198-203) -/
def gamRho (x : Fx) (n : Nat) (sm1 : Rt) : Res Rt :=
  if n = 1 ∨ n = 2 then .ok ⟨1, 1⟩
  else if n = 3 then .ok ⟨3, 1⟩
  else if n = 4 then .ok ⟨10, 1⟩
  else do
    let t1 ← x.mul n ((n - 1 : Nat) : Int)
    let t2 ← x.div t1 2
    x.rtMul ⟨t2, 1⟩ sm1

/-- `Ratio::to_integer`: `numer / denom`.  Called at symbols.rs:206-207. -/
def rtToInteger (x : Fx) (p : Rt) : Res Int := x.div p.num p.den

/-- `GammaCoefficients::next` from the third call on (symbols.rs:179-216), after `T::from_usize(self.n)?` -/
def gamStep (x : Fx) (st : Gam) : Res (Option (Int × Int) × Gam) := do
  let n : Int := st.n
  let nm1 : Int := ((st.n - 1 : Nat) : Int)
  let nm2 : Int := ((st.n - 2 : Nat) : Int)
  let t1 ← x.mul 2 n
  let t2 ← x.mul t1 st.qm1
  let t3 ← x.mul nm1 nm1
  let t4 ← x.mul t3 st.qm2
  let q ← x.sub t2 t4
  let t5 ← x.mul nm1 nm1
  let u1 ← x.rtMul ⟨t5, 1⟩ st.sm1
  let u2 ← x.ratio nm2 n
  let u3 ← x.rtMulInt u2 st.qm1
  let s ← x.rtAdd u1 u3
  let u4 ← x.rtNeg s
  let a ← x.rtDiv u4 st.sm1
  let t6 ← x.mul nm2 st.qm2
  let u5 ← x.ratio t6 n
  let u6 ← x.rtDiv u5 st.sm1
  let t7 ← x.mul 2 n
  let b ← x.rtAddInt u6 t7
  let rho ← x.gamRho st.n st.sm1
  let u7 ← x.rtMul rho st.rm1
  let u8 ← x.rtMul u7 a
  let astar ← x.rtToInteger u8
  let u9 ← x.rtMul rho b
  let bstar ← x.rtToInteger u9
  return (some (astar, bstar), { n := st.n + 1, qm2 := st.qm1, qm1 := q, sm1 := s, rm1 := rho })

/-- `GammaCoefficients::next` (symbols.rs:166-216); `T::from_u8` of the constants 2, 3, 10 succeeds for every type, the other
conversions only if the number fits (the two `unwrap`s are of smaller numbers) -/
def gamNext (x : Fx) (st : Gam) : Res (Option (Int × Int) × Gam) :=
  if st.n = 0 then .ok (some (1, 0), { st with n := 1 })
  else if st.n = 1 then .ok (some (1, 2), { st with n := 2 })
  else if x.fits st.n then x.gamStep st
  else .ok (none, st)

end Fx

/-- The result of the `k`-th call of an iterator whose calls may panic; after a panic there is no further call.
The inputs of general.rs:80-130 and infinite.rs:63-66, 89-93. -/
def streamR {σ β : Type} (next : σ → Res (Option β × σ)) (s : σ) : Nat → Res (Option β)
  | 0 => do
    let r ← next s
    return r.1
  | k + 1 => do
    let r ← next s
    streamR next r.2 k

end NumIrr
