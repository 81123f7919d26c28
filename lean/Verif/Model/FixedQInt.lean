/-
Model of `QuadraticInt` and `GaussianInt` over fixed-width integers (/repo/src/quadratic/integer.rs), operator by operator,
with the overflow behaviour of `Verif.Model.Fixed`.  All citations in this file are to /repo/src/quadratic/integer.rs
unless stated otherwise.

Every arithmetic operator of the source that can overflow is one line of a `do` block, in the order of the source.
`mod4d2` and `% four` only compute with remainders modulo 4 and cannot overflow on the primitive types; they are those of
`Verif.Model.QInt`, and so are the functions that only inspect fields.
-/
import Verif.Model.FixedSurd
import Verif.Model.QInt

namespace NumIrr
namespace Fx

/-- `div_rem_round` (lines 41-49). -/
def divRemRound (x : Fx) (n y : Int) : Res (Int × Int) := do
  let m ← x.abs y
  let h ← x.div m 2
  let offset ← x.mul h n.sign
  let t ← x.add n offset
  let q ← x.div t y
  let r ← x.rem t y
  let r' ← x.sub r offset
  return (q, r')

/-! ### Coefficients -/

/-- `Add<T>` (lines 68-74). -/
def qcAddInt (x : Fx) (u : QCoeffs) (k : Int) : Res QCoeffs := do
  let a ← x.add u.a k
  return ⟨a, u.b⟩

/-- `Add` (lines 75-81). -/
def qcAdd (x : Fx) (u v : QCoeffs) : Res QCoeffs := do
  let a ← x.add u.a v.a
  let b ← x.add u.b v.b
  return ⟨a, b⟩

/-- `Sub<T>` (lines 83-89). -/
def qcSubInt (x : Fx) (u : QCoeffs) (k : Int) : Res QCoeffs := do
  let a ← x.sub u.a k
  return ⟨a, u.b⟩

/-- `Sub` (lines 90-96). -/
def qcSub (x : Fx) (u v : QCoeffs) : Res QCoeffs := do
  let a ← x.sub u.a v.a
  let b ← x.sub u.b v.b
  return ⟨a, b⟩

/-- `Mul<T>` (lines 98-104). -/
def qcMulInt (x : Fx) (u : QCoeffs) (k : Int) : Res QCoeffs := do
  let a ← x.mul u.a k
  let b ← x.mul u.b k
  return ⟨a, b⟩

/-- `Div<T>` (lines 106-115). -/
def qcDivInt (x : Fx) (u : QCoeffs) (k : Int) : Res QCoeffs := do
  let p ← x.divRemRound u.a k
  let q ← x.divRemRound u.b k
  return ⟨p.1, q.1⟩

/-- `Rem<T>` (lines 116-125). -/
def qcRemInt (x : Fx) (u : QCoeffs) (k : Int) : Res QCoeffs := do
  let p ← x.divRemRound u.a k
  let q ← x.divRemRound u.b k
  return ⟨p.2, q.2⟩

/-- `norm_ref` (lines 132-147). -/
def qcNorm (x : Fx) (u : QCoeffs) (d : Int) : Res Int :=
  if d = 0 then x.mul u.a u.a
  else match mod4d2 d with
    | 0 => do
      let t1 ← x.mul u.a u.a
      let t2 ← x.mul u.a u.b
      let t3 ← x.add t1 t2
      let t4 ← x.mul u.b u.b
      let t5 ← x.sub 1 d
      let t6 ← x.div t5 4
      let t7 ← x.mul t4 t6
      x.add t3 t7
    | 1 => do
      let t1 ← x.mul u.a u.a
      let t2 ← x.mul u.b u.b
      let t3 ← x.mul t2 d
      x.sub t1 t3
    | _ => .error .unreachable

/-- `QuadraticOps::mul` (lines 187-200). -/
def qcMul (x : Fx) (u v : QCoeffs) (d : Int) : Res QCoeffs :=
  match mod4d2 d with
  | 0 => do
    let t1 ← x.mul u.a v.a
    let t2 ← x.mul u.b v.b
    let t3 ← x.sub d 1
    let t4 ← x.div t3 4
    let t5 ← x.mul t2 t4
    let a ← x.add t1 t5
    let t6 ← x.mul u.a v.b
    let t7 ← x.add v.a v.b
    let t8 ← x.mul u.b t7
    let b ← x.add t6 t8
    return ⟨a, b⟩
  | 1 => do
    let t1 ← x.mul u.a v.a
    let t2 ← x.mul u.b v.b
    let t3 ← x.mul t2 d
    let a ← x.add t1 t3
    let t4 ← x.mul u.a v.b
    let t5 ← x.mul u.b v.a
    let b ← x.add t4 t5
    return ⟨a, b⟩
  | _ => .error .unreachable

/-- the numerator `self * conj(rhs)` computed at the start of `div_rem` (lines 155-171). -/
def qcDivNumer (x : Fx) (u v : QCoeffs) (d : Int) : Res (Int × Int) :=
  match mod4d2 d with
  | 0 => do
    let t1 ← x.mul u.a v.a
    let t2 ← x.mul u.a v.b
    let t3 ← x.add t1 t2
    let t4 ← x.mul u.b v.b
    let t5 ← x.sub d 1
    let t6 ← x.div t5 4
    let t7 ← x.mul t4 t6
    let a ← x.sub t3 t7
    let t8 ← x.mul u.b v.a
    let t9 ← x.mul u.a v.b
    let b ← x.sub t8 t9
    return (a, b)
  | 1 => do
    let t1 ← x.mul u.a v.a
    let t2 ← x.mul u.b v.b
    let t3 ← x.mul t2 d
    let a ← x.sub t1 t3
    let t4 ← x.mul u.b v.a
    let t5 ← x.mul u.a v.b
    let b ← x.sub t4 t5
    return (a, b)
  | _ => .error .unreachable

/-- `div_rem` (lines 150-177). -/
def qcDivRem (x : Fx) (u v : QCoeffs) (d : Int) : Res (QCoeffs × QCoeffs) := do
  let ab ← x.qcDivNumer u v d
  let n ← x.qcNorm v d
  let p ← x.divRemRound ab.1 n
  let q ← x.divRemRound ab.2 n
  let m ← x.qcMul v ⟨p.2, q.2⟩ d
  let r ← x.qcDivInt m n
  return (⟨p.1, q.1⟩, r)

/-- `QuadraticOps::div` (lines 202-204). -/
def qcDiv (x : Fx) (u v : QCoeffs) (d : Int) : Res QCoeffs := do
  let p ← x.qcDivRem u v d
  return p.1

/-- `QuadraticOps::conj` (lines 207-221). -/
def qcConj (x : Fx) (u : QCoeffs) (d : Int) : Res QCoeffs :=
  if d = 0 then .ok u
  else match mod4d2 d with
    | 0 => do
      let a ← x.add u.a u.b
      let b ← x.neg u.b
      return ⟨a, b⟩
    | 1 => do
      let b ← x.neg u.b
      return ⟨u.a, b⟩
    | _ => .error .unreachable

/-! ### `QuadraticInt` -/

/-- the test for a square discriminant in `from_coeffs` (lines 286-296). -/
def qSquare (x : Fx) (c : QCoeffs) (d : Int) : Res (Int × Int × Int) := do
  let m ← x.abs d
  let root ← sqrtR m
  let sq ← x.mul root root
  if sq = d then
    if d < 0 then do
      let b ← x.mul c.b root
      let r ← x.neg 1
      return (c.a, b, r)
    else do
      let t ← x.mul c.b root
      let a ← x.add c.a t
      return (a, 0, 0)
  else return (c.a, c.b, d)

/-- `from_coeffs` (lines 273-308). -/
def qFromCoeffs (x : Fx) (cfg : Cfg) (c : QCoeffs) (d : Int) : Res QInt :=
  if cfg.complex = false ∧ d < 0 then .error .negRoot
  else if d.tmod 4 = 0 then .error .discrMod4
  else do
    let t ← x.qSquare c d
    if t.2.1 = 0 ∨ t.2.2 = 0 then return ⟨t.1, 0, 0⟩
    else return ⟨t.1, t.2.1, t.2.2⟩

/-- the loop removing factors 4 in `new` (lines 252-257), on a positive `r`; `fuel` bounds the number of rounds and
`qStrip` supplies `r` rounds. -/
def qStrip4 (x : Fx) : Nat → Int → Int → Res (Int × Int)
  | 0, b, r => .ok (b, r)
  | fuel + 1, b, r =>
    if r.tmod 4 = 0 then do
      let r' ← x.div r 4
      let b' ← x.add b b
      x.qStrip4 fuel b' r'
    else .ok (b, r)

/-- the removal of factors 4 in `new` (lines 251-257). -/
def qStrip (x : Fx) (b r : Int) : Res (Int × Int) := if 0 < r then x.qStrip4 r.toNat b r else .ok (b, r)

/-- `new` (lines 248-267). -/
def qNew (x : Fx) (cfg : Cfg) (a b r : Int) : Res QInt := do
  let br ← x.qStrip b r
  match mod4d2 br.2 with
  | 0 => do
    let y ← x.add br.1 br.1
    let z ← x.sub a br.1
    x.qFromCoeffs cfg ⟨z, y⟩ br.2
  | 1 => x.qFromCoeffs cfg ⟨a, br.1⟩ br.2
  | _ => .error .unreachable

/-- `conj` (lines 311-316). -/
def qConj (x : Fx) (u : QInt) : Res QInt := do
  let c ← x.qcConj u.coeffs u.d
  return .mk' c u.d

/-- `norm` (lines 318-320). -/
def qNorm (x : Fx) (u : QInt) : Res Int := x.qcNorm u.coeffs u.d

/-- `is_pure` (lines 326-332). -/
def qIsPure (x : Fx) (u : QInt) : Res Bool :=
  match mod4d2 u.d with
  | 0 => do
    let t ← x.add u.a u.a
    let t' ← x.add t u.b
    return t' = 0
  | 1 => .ok (u.b = 0)
  | _ => .error .unreachable

/-- `parts_doubled` (lines 343-350). -/
def qPartsDoubled (x : Fx) (u : QInt) : Res (Int × Int) :=
  match mod4d2 u.d with
  | 0 => do
    let t ← x.add u.a u.a
    let a ← x.add t u.b
    return (a, u.b)
  | 1 => do
    let a ← x.add u.a u.a
    let b ← x.add u.b u.b
    return (a, b)
  | _ => .error .unreachable

/-- `reduce_root_hinted` (lines 358-385). -/
def qReduceRootHinted (x : Fx) (cfg : Cfg) (u : QInt) (hint : Int) : Res QInt := do
  let hint ← x.abs hint
  if hint = 0 ∨ hint = 1 ∨ hint < 0 then return u
  else do
    let quo ← x.div u.d hint
    let rem ← x.rem u.d hint
    if rem = 0 then do
      let root ← sqrtR hint
      let sq ← x.mul root root
      if sq = hint then
        match mod4d2 u.d with
        | 0 => do
          let t ← x.sub root 1
          let scale ← x.div t 2
          let t2 ← x.mul u.b scale
          let a ← x.sub u.a t2
          let b ← x.mul u.b root
          x.qFromCoeffs cfg ⟨a, b⟩ quo
        | 1 => do
          let b ← x.mul u.b root
          x.qFromCoeffs cfg ⟨u.a, b⟩ quo
        | _ => .error .unreachable
      else return u
    else return u

/-- `Neg` (lines 388-396). -/
def qNeg (x : Fx) (u : QInt) : Res QInt := do
  let a ← x.neg u.a
  let b ← x.neg u.b
  return ⟨a, b, u.d⟩

/-- the reduced operands, if their discriminants agree (lines 424-428, 453-457) -/
def qMatch (p : QInt × QInt) : Option (QInt × QInt) := if p.1.d = p.2.d then some p else none

/-- `reduce_bin_op` (lines 401-458, both `cfg` variants). -/
def qReduceBinOp (x : Fx) (cfg : Cfg) (u v : QInt) : Res (Option (QInt × QInt)) :=
  if cfg.complex then
    if (decide (u.d < 0)) ^^ (decide (v.d < 0)) then .ok none
    else do
      let l ← x.abs u.d
      let r ← x.abs v.d
      if l > r then do
        let hint ← x.div u.d v.d
        let u' ← x.qReduceRootHinted cfg u hint
        return qMatch (u', v)
      else if r > l then do
        let hint ← x.div v.d u.d
        let v' ← x.qReduceRootHinted cfg v hint
        return qMatch (u, v')
      else return qMatch (u, v)
  else if cfg.debug = true ∧ (u.d = 0 ∨ v.d = 0) then .error .debugAssert
  else if u.d > v.d then do
    let hint ← x.div u.d v.d
    let u' ← x.qReduceRootHinted cfg u hint
    return qMatch (u', v)
  else if v.d > u.d then do
    let hint ← x.div v.d u.d
    let v' ← x.qReduceRootHinted cfg v hint
    return qMatch (u, v')
  else return qMatch (u, v)

/-- `reduce_bin_op_unwrap` (lines 461-469). -/
def qReduceBinOpUnwrap (x : Fx) (cfg : Cfg) (u v : QInt) : Res (QInt × QInt) := do
  match ← x.qReduceBinOp cfg u v with
  | some p => return p
  | none => .error .incompatible

/-- `PartialEq::eq` (lines 475-488). -/
def qEq (x : Fx) (u v : QInt) : Res Bool :=
  if u.d = v.d then .ok (decide (u.a = v.a ∧ u.b = v.b))
  else if u.d = 0 ∨ v.d = 0 then .ok false
  else do
    let l ← x.qPartsDoubled u
    let r ← x.qPartsDoubled v
    if l.1 = r.1 then do
      let t1 ← x.mul l.2 l.2
      let t2 ← x.mul t1 u.d
      let t3 ← x.mul r.2 r.2
      let t4 ← x.mul t3 v.d
      return decide (t2 = t4)
    else return false

/-- `Add<T>` (lines 493-501). -/
def qAddInt (x : Fx) (u : QInt) (k : Int) : Res QInt := do
  let c ← x.qcAddInt u.coeffs k
  return .mk' c u.d

/-- `Add` (lines 508-518). -/
def qAdd (x : Fx) (cfg : Cfg) (u v : QInt) : Res QInt :=
  if v.isRational then x.qAddInt u v.a
  else if u.isRational then x.qAddInt v u.a
  else do
    let p ← x.qReduceBinOpUnwrap cfg u v
    let c ← x.qcAdd p.1.coeffs p.2.coeffs
    x.qFromCoeffs cfg c p.2.d

/-- `Sub<T>` (lines 521-529). -/
def qSubInt (x : Fx) (u : QInt) (k : Int) : Res QInt := do
  let c ← x.qcSubInt u.coeffs k
  return .mk' c u.d

/-- `Sub` (lines 536-546). -/
def qSub (x : Fx) (cfg : Cfg) (u v : QInt) : Res QInt :=
  if v.isRational then x.qSubInt u v.a
  else if u.isRational then do
    let t ← x.qSubInt v u.a
    x.qNeg t
  else do
    let p ← x.qReduceBinOpUnwrap cfg u v
    let c ← x.qcSub p.1.coeffs p.2.coeffs
    x.qFromCoeffs cfg c p.2.d

/-- `Mul<T>` (lines 555-564). -/
def qMulInt (x : Fx) (u : QInt) (k : Int) : Res QInt :=
  if k = 0 then .ok .zero
  else do
    let c ← x.qcMulInt u.coeffs k
    return .mk' c u.d

/-- `Mul` (lines 572-588). -/
def qMul (x : Fx) (cfg : Cfg) (u v : QInt) : Res QInt :=
  if v.isRational then x.qMulInt u v.a
  else if u.isRational then x.qMulInt v u.a
  else do
    let p ← x.qReduceBinOpUnwrap cfg u v
    let c ← x.qcMul p.1.coeffs p.2.coeffs p.1.d
    x.qFromCoeffs cfg c p.2.d

/-- `Div<T>` (lines 597-602). -/
def qDivInt (x : Fx) (u : QInt) (k : Int) : Res QInt := do
  let c ← x.qcDivInt u.coeffs k
  return .mk' c u.d

/-- `Div` (lines 610-627). -/
def qDiv (x : Fx) (cfg : Cfg) (u v : QInt) : Res QInt :=
  if v.isRational then x.qDivInt u v.a
  else if u.isRational then do
    let c ← x.qcDiv u.coeffs v.coeffs v.d
    x.qFromCoeffs cfg c v.d
  else do
    let p ← x.qReduceBinOpUnwrap cfg u v
    let c ← x.qcDiv p.1.coeffs p.2.coeffs p.1.d
    x.qFromCoeffs cfg c p.2.d

/-- `Rem<T>` (lines 636-641). -/
def qRemInt (x : Fx) (u : QInt) (k : Int) : Res QInt := do
  let c ← x.qcRemInt u.coeffs k
  return .mk' c u.d

/-- `Rem` (lines 649-656; line 651 divides where a remainder is expected). -/
def qRem (x : Fx) (cfg : Cfg) (u v : QInt) : Res QInt :=
  if v.isRational then x.qDivInt u v.a
  else do
    let p ← x.qReduceBinOpUnwrap cfg u v
    let c ← x.qcDivRem p.1.coeffs p.2.coeffs p.1.d
    x.qFromCoeffs cfg c.2 p.2.d

/-! ### `GaussianInt` -/

/-- `conj` (lines 702-705). -/
def gConj (x : Fx) (u : GInt) : Res GInt := do
  let b ← x.neg u.im
  return ⟨u.re, b⟩

/-- `norm`/`norm_ref` (lines 712-718). -/
def gNorm (x : Fx) (u : GInt) : Res Int := do
  let t1 ← x.mul u.re u.re
  let t2 ← x.mul u.im u.im
  x.add t1 t2

/-- `Add` (lines 721-730). -/
def gAdd (x : Fx) (u v : GInt) : Res GInt := do
  let c ← x.qcAdd u.coeffs v.coeffs
  return .ofCoeffs c

/-- `Sub` (lines 732-741). -/
def gSub (x : Fx) (u v : GInt) : Res GInt := do
  let c ← x.qcSub u.coeffs v.coeffs
  return .ofCoeffs c

/-- `Mul` (lines 743-752). -/
def gMul (x : Fx) (u v : GInt) : Res GInt := do
  let d ← x.neg 1
  let c ← x.qcMul u.coeffs v.coeffs d
  return .ofCoeffs c

/-- `Div` (lines 754-763). -/
def gDiv (x : Fx) (u v : GInt) : Res GInt := do
  let d ← x.neg 1
  let c ← x.qcDiv u.coeffs v.coeffs d
  return .ofCoeffs c

/-- `Rem` (lines 765-774). -/
def gRem (x : Fx) (u v : GInt) : Res GInt := do
  let d ← x.neg 1
  let c ← x.qcDivRem u.coeffs v.coeffs d
  return .ofCoeffs c.2

/-! ### Conversions from surds -/

/-- `to_gaussint` (surd.rs:555-565). -/
def toGaussint (x : Fx) (cfg : Cfg) (s : Surd) : Res (Approx GInt) :=
  if s.isGaussint then .ok (.exact ⟨s.a, s.b⟩)
  else do
    let t ← x.trunc cfg s
    return .approximated ⟨t.a, t.b⟩

/-- `to_quadint` (surd.rs:569-576). -/
def toQuadint (x : Fx) (cfg : Cfg) (s : Surd) : Res (Approx QInt) :=
  if s.isQuadint then do
    let q ← x.qNew cfg s.a s.b s.r
    return .exact q
  else do
    let a ← x.div s.a s.c
    let b ← x.div s.b s.c
    let q ← x.qNew cfg a b s.r
    return .approximated q

end Fx
end NumIrr
