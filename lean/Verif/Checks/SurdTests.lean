import Verif.Model.FixedSurd
import Verif.Model.FixedSqrt
import Verif.Model.FixedCFSurd
import Verif.Model.SurdDisplay
import Verif.Model.CFEq

/-! The unit tests of `/repo/src/quadratic/surd.rs` (lines 1548-1910), evaluated on the model over `i32` with overflow
checks and debug assertions.  They are tests of the model against the authors' expectations, not proofs: no claim of
`MANIFEST.json` rests on them. -/

namespace NumIrr.SurdTests

/-- `i32` in a debug build. -/
def X : Fx := ⟨32, true⟩
/-- Without and with the feature `complex`. -/
def cfgs : List Cfg := [⟨false, true⟩, ⟨true, true⟩]

/-- `assert_eq!` on surds, with the `PartialEq` of the crate. -/
def eqS (u v : Res Surd) : Bool := decide ((do X.eq (← u) (← v)) = Except.ok true)
/-- The fields agree. -/
def same (u : Res Surd) (v : Surd) : Bool := decide (u = .ok v)
def zero (u : Res Surd) : Bool := decide (u.map Surd.isZero = .ok true)
def one (u : Res Surd) : Bool := decide (u.map Surd.isOne = .ok true)
def rt (n d : Int) : Rt := ⟨n, d⟩

def PHI : Surd := ⟨1, 1, 2, 5⟩
def PHI_R : Surd := ⟨-1, 1, 2, 5⟩
def N_PHI : Surd := ⟨-1, -1, 2, 5⟩
def N_PHI_R : Surd := ⟨1, -1, 2, 5⟩
def PHI_SQ : Surd := ⟨3, 1, 2, 5⟩
def PHI45 : Surd := ⟨3, 1, 6, 45⟩
def PHI45_R : Surd := ⟨-3, 1, 6, 45⟩
def SQ5 : Surd := ⟨0, 1, 1, 5⟩
def N_SQ5 : Surd := ⟨0, -1, 1, 5⟩

/-- `creation_test` -/
example : (cfgs.all fun cfg => [
    same (X.surdNew cfg 2 6 2 5) ⟨1, 3, 1, 5⟩,
    same (X.surdNew cfg 2 1 2 18) ⟨2, 1, 2, 18⟩,
    same (X.surdNew cfg 3 1 3 18) ⟨1, 1, 1, 2⟩,
    same (X.surdNew cfg 3 1 3 9) ⟨2, 0, 1, 0⟩].all id) = true := by decide +kernel

/-- `conversion_test (all but the floating point lines)` -/
example : (cfgs.all fun cfg => [
    decide ((do X.toPrim cfg (IntTy.signed 32).fits (← X.floor cfg PHI)) = .ok (some (1))),
    decide (X.toInteger cfg PHI = .ok (.approximated (1))),
    decide ((do X.toPrim cfg (IntTy.signed 32).fits (← X.floor cfg PHI_R)) = .ok (some (0))),
    decide (X.toInteger cfg PHI_R = .ok (.approximated (0))),
    decide ((do X.toPrim cfg (IntTy.signed 32).fits (← X.floor cfg N_PHI)) = .ok (some (-2))),
    decide (X.toInteger cfg N_PHI = .ok (.approximated (-1))),
    decide ((do X.toPrim cfg (IntTy.signed 32).fits (← X.floor cfg N_PHI_R)) = .ok (some (-1))),
    decide (X.toInteger cfg N_PHI_R = .ok (.approximated (0)))].all id) = true := by decide +kernel

/-- `from_xxx_test` -/
example : (cfgs.all fun cfg => [
    eqS (X.fromRationals cfg (rt 1 2) (rt 1 2) (rt 5 1)) (.ok PHI),
    eqS (X.fromRationals cfg (rt (-1) 2) (rt 1 2) (rt 5 1)) (.ok PHI_R),
    decide (X.fromSqrtInt cfg 5 = .ok (some ⟨0, 1, 1, 5⟩)),
    match X.fromSqrtSurd cfg PHI with | .ok (.error _) => true | _ => false,
    match (do X.fromSqrtSurd cfg (← X.surdMul cfg PHI PHI)) with | .ok (.ok v) => eqS (.ok v) (.ok PHI) | _ => false,
    match X.fromEquation cfg (rt 1 1) (rt (-1) 1) (rt (-1) 1) with | .ok (some v) => eqS (.ok v) (.ok PHI) | _ => false].all id) = true := by decide +kernel

/-- `property_test` -/
example : (cfgs.all fun cfg => [
    eqS (X.recip cfg PHI) (.ok PHI_R),
    eqS (X.recip cfg N_PHI) (.ok N_PHI_R),
    eqS (X.conj PHI) (.ok N_PHI_R),
    eqS (X.conj PHI_R) (.ok N_PHI),
    !PHI.isPure,
    SQ5.isPure].all id) = true := by decide +kernel

/-- `arithmic_test` -/
example : (cfgs.all fun cfg => [
    eqS (do X.surdAddInt cfg PHI_R 1) (.ok PHI),
    eqS (do X.surdAddInt cfg PHI45_R 1) (.ok PHI45),
    eqS (do X.surdAddInt cfg N_PHI 1) (.ok N_PHI_R),
    eqS (do X.surdAddRat cfg PHI_R (rt 1 1)) (.ok PHI),
    eqS (do X.surdAddRat cfg PHI45_R (rt 1 1)) (.ok PHI45),
    eqS (do X.surdAddRat cfg N_PHI (rt 1 1)) (.ok N_PHI_R),
    eqS (do X.surdAdd cfg PHI PHI_R) (.ok SQ5),
    eqS (do X.surdAdd cfg N_PHI N_PHI_R) (.ok N_SQ5),
    zero (do X.surdAdd cfg PHI N_PHI),
    one (do X.surdAdd cfg PHI N_PHI_R),
    eqS (do X.surdSubInt cfg PHI 1) (.ok PHI_R),
    eqS (do X.surdSubInt cfg PHI45 1) (.ok PHI45_R),
    eqS (do X.surdSubInt cfg N_PHI_R 1) (.ok N_PHI),
    eqS (do X.surdSubRat cfg PHI (rt 1 1)) (.ok PHI_R),
    eqS (do X.surdSubRat cfg PHI45 (rt 1 1)) (.ok PHI45_R),
    eqS (do X.surdSubRat cfg N_PHI_R (rt 1 1)) (.ok N_PHI),
    zero (do X.surdSub cfg PHI PHI),
    one (do X.surdSub cfg PHI PHI_R),
    one (do X.surdSub cfg N_PHI_R N_PHI),
    eqS (do X.surdSub cfg PHI N_PHI_R) (.ok SQ5),
    eqS (do X.surdSub cfg N_PHI PHI_R) (do X.surdNeg SQ5),
    eqS (do X.surdMulInt cfg PHI 1) (.ok PHI),
    eqS (do X.surdMulInt cfg PHI (-1)) (.ok N_PHI),
    eqS (do X.surdMulRat cfg PHI (rt 1 1)) (.ok PHI),
    eqS (do X.surdMulRat cfg PHI (rt (-1) 1)) (.ok N_PHI),
    one (do X.surdMul cfg PHI PHI_R),
    one (do X.surdMul cfg N_PHI N_PHI_R),
    eqS (do X.surdMul cfg PHI PHI) (.ok PHI_SQ),
    eqS (do X.surdMul cfg N_PHI N_PHI) (.ok PHI_SQ),
    eqS (do X.surdDivInt cfg PHI 1) (.ok PHI),
    eqS (do X.surdDivInt cfg PHI (-1)) (.ok N_PHI),
    eqS (do X.surdDivRat cfg PHI (rt 1 1)) (.ok PHI),
    eqS (do X.surdDivRat cfg PHI (rt (-1) 1)) (.ok N_PHI),
    one (do X.surdDiv cfg PHI PHI),
    one (do X.surdDiv cfg N_PHI N_PHI),
    eqS (do X.surdDiv cfg PHI PHI_R) (.ok PHI_SQ),
    eqS (do X.surdDiv cfg N_PHI N_PHI_R) (.ok PHI_SQ),
    eqS (do X.surdSub cfg (← (do X.surdAddInt cfg PHI 5)) PHI) (.ok (Surd.ofInt 5)),
    eqS (do X.surdSub cfg (← (do X.surdAddRat cfg PHI (rt 3 2))) PHI) (.ok (Fx.surdOfRt (rt 3 2))),
    eqS (do X.surdSub cfg (← (do X.surdAdd cfg PHI SQ5)) PHI) (.ok SQ5),
    eqS (do X.surdSub cfg (← (do X.surdAddInt cfg PHI 5)) PHI45) (.ok (Surd.ofInt 5)),
    eqS (do X.surdSub cfg (← (do X.surdAddRat cfg PHI (rt 3 2))) PHI45) (.ok (Fx.surdOfRt (rt 3 2))),
    eqS (do X.surdDiv cfg (← (do X.surdMulInt cfg PHI 5)) PHI45) (.ok (Surd.ofInt 5)),
    eqS (do X.surdDiv cfg (← (do X.surdMulRat cfg PHI (rt 3 2))) PHI45) (.ok (Fx.surdOfRt (rt 3 2))),
    eqS (do X.surdSubInt cfg (← (do X.surdMulInt cfg PHI 2)) 1) (.ok SQ5),
    eqS (do X.surdAddInt cfg (← (do X.surdMulInt cfg PHI_R 2)) 1) (.ok SQ5),
    eqS (do X.surdSubInt cfg (← (do X.surdDivRat cfg PHI (rt (1) 2))) 1) (.ok SQ5),
    eqS (do X.surdMulInt cfg (← (do X.surdSubRat cfg PHI (rt (1) 2))) 2) (.ok SQ5)].all id) = true := by decide +kernel

def a (cfg : Cfg) : Res Surd := X.surdNew cfg 0 2 3 2
def b (cfg : Cfg) : Res Surd := X.surdNew cfg 0 3 4 3
def c (cfg : Cfg) : Res Surd := X.surdNew cfg 0 1 2 6

/-- `arithmic_test_diff_base` -/
example : (cfgs.all fun cfg => [
    eqS (do X.surdAdd cfg PHI45 PHI_R) (.ok SQ5),
    eqS (do X.surdAdd cfg PHI PHI45_R) (.ok SQ5),
    zero (do X.surdSub cfg PHI PHI45),
    one (do X.surdSub cfg PHI PHI45_R),
    one (do X.surdMul cfg PHI45 PHI_R),
    one (do X.surdMul cfg PHI PHI45_R),
    one (do X.surdDiv cfg PHI45 PHI),
    one (do X.surdDiv cfg PHI PHI45),
    eqS (do X.surdSub cfg (← (do X.surdAdd cfg PHI SQ5)) PHI45) (.ok SQ5),
    eqS (do X.surdDiv cfg (← (do X.surdMul cfg PHI SQ5)) PHI45) (.ok SQ5),
    eqS (do X.surdMul cfg (← a cfg) (← b cfg)) (c cfg),
    eqS (do X.surdDiv cfg (← c cfg) (← a cfg)) (b cfg),
    eqS (do X.surdDiv cfg (← c cfg) (← b cfg)) (a cfg)].all id) = true := by decide +kernel

/-- `conversion_between_contfrac` -/
example : (cfgs.all fun cfg => [
    eqS (do X.toSurd cfg (← X.prim.new true [1] [1] false)) (.ok PHI),
    match (Except.ok PHI : Res Surd), X.prim.new true [1] [1] false with
      | .ok s, .ok f => (match X.toContfrac cfg 50 s with | some (.ok (some g)) => g.eq f | _ => false)
      | _, _ => false,
    eqS (do X.toSurd cfg (← X.prim.new true [1] [2] false)) (X.surdNew cfg 0 1 1 2),
    match (X.surdNew cfg 0 1 1 2), X.prim.new true [1] [2] false with
      | .ok s, .ok f => (match X.toContfrac cfg 50 s with | some (.ok (some g)) => g.eq f | _ => false)
      | _, _ => false,
    eqS (do X.toSurd cfg (← X.prim.new true [1] [2] true)) (X.surdNew cfg 0 (-1) 1 2),
    match (X.surdNew cfg 0 (-1) 1 2), X.prim.new true [1] [2] true with
      | .ok s, .ok f => (match X.toContfrac cfg 50 s with | some (.ok (some g)) => g.eq f | _ => false)
      | _, _ => false,
    eqS (do X.toSurd cfg (← X.prim.new true [0, 4] [1, 18, 1, 8] false)) (X.surdNew cfg 0 1 7 2),
    match (X.surdNew cfg 0 1 7 2), X.prim.new true [0, 4] [1, 18, 1, 8] false with
      | .ok s, .ok f => (match X.toContfrac cfg 50 s with | some (.ok (some g)) => g.eq f | _ => false)
      | _, _ => false,
    eqS (do X.toSurd cfg (← X.prim.new true [1, 4] [2] false)) (X.surdNew cfg 10 (-1) 7 2),
    match (X.surdNew cfg 10 (-1) 7 2), X.prim.new true [1, 4] [2] false with
      | .ok s, .ok f => (match X.toContfrac cfg 50 s with | some (.ok (some g)) => g.eq f | _ => false)
      | _, _ => false].all id) = true := by decide +kernel

/-- The text of a surd. -/
def disp (alt : Bool) (u : Res Surd) (t : String) : Bool := decide (u.map (Surd.display alt) = .ok t)
/-- `from_sqrt(k).unwrap()` -/
def sq (cfg : Cfg) (k : Int) : Res Surd := do
  match ← X.fromSqrtInt cfg k with
  | some s => return s
  | none => throw .unwrapNone

/-- `formatting_test` -/
example : (cfgs.all fun cfg => [
    disp false (.ok Surd.zero) "0",
    disp false (.ok Surd.one) "1",
    disp false (sq cfg (5)) "√5",
    disp false (X.surdNew cfg 1 1 1 5) "1+√5",
    disp false (X.surdNew cfg 1 (-1) 1 5) "1-√5",
    disp false (X.surdNew cfg (-1) 1 1 5) "-1+√5",
    disp false (X.surdNew cfg (-1) (-1) 1 5) "-1-√5",
    disp false (X.surdNew cfg 1 2 1 5) "1+2√5",
    disp false (X.surdNew cfg 1 (-2) 1 5) "1-2√5",
    disp false (X.surdNew cfg (-1) 2 1 5) "-1+2√5",
    disp false (X.surdNew cfg (-1) (-2) 1 5) "-1-2√5",
    disp false (X.surdNew cfg 1 0 2 5) "1/2",
    disp false (X.surdNew cfg (-1) 0 2 5) "-1/2",
    disp false (X.surdNew cfg 1 1 2 5) "(1+√5)/2",
    disp false (X.surdNew cfg 1 (-1) 2 5) "(1-√5)/2",
    disp false (X.surdNew cfg (-1) 1 2 5) "(-1+√5)/2",
    disp false (X.surdNew cfg (-1) (-1) 2 5) "(-1-√5)/2",
    disp false (X.surdNew cfg 1 2 2 5) "(1+2√5)/2",
    disp false (X.surdNew cfg 1 (-2) 2 5) "(1-2√5)/2",
    disp false (X.surdNew cfg (-1) 2 2 5) "(-1+2√5)/2",
    disp false (X.surdNew cfg (-1) (-2) 2 5) "(-1-2√5)/2"].all id) = true := by decide +kernel

/-- `trunc_frac_test` -/
example : (cfgs.all fun cfg => [
    eqS (X.trunc cfg PHI) (.ok (Surd.ofInt (1))),
    eqS (X.fract cfg PHI) (.ok PHI_R),
    eqS (X.trunc cfg PHI_R) (.ok Surd.zero),
    eqS (X.fract cfg PHI_R) (.ok PHI_R),
    eqS (X.trunc cfg N_PHI) (.ok (Surd.ofInt (-1))),
    eqS (X.fract cfg N_PHI) (.ok N_PHI_R),
    eqS (X.trunc cfg N_PHI_R) (.ok (Surd.ofInt (0))),
    eqS (X.fract cfg N_PHI_R) (.ok N_PHI_R),
    eqS (X.trunc cfg PHI_SQ) (.ok (Surd.ofInt (2))),
    eqS (X.fract cfg PHI_SQ) (.ok PHI_R),
    eqS (X.trunc cfg PHI45) (.ok (Surd.ofInt (1))),
    eqS (X.fract cfg PHI45) (.ok PHI_R),
    eqS (X.trunc cfg PHI45_R) (.ok (Surd.ofInt (0))),
    eqS (X.fract cfg PHI45_R) (.ok PHI_R),
    eqS (X.trunc cfg SQ5) (.ok (Surd.ofInt (2))),
    eqS (X.fract cfg SQ5) (X.surdNew cfg (-2) (1) (1) (5)),
    eqS (X.trunc cfg N_SQ5) (.ok (Surd.ofInt (-2))),
    eqS (X.fract cfg N_SQ5) (X.surdNew cfg (2) (-1) (1) (5))].all id) = true := by decide +kernel

/-- `from_sqrt_test` -/
example : (cfgs.all fun cfg => [
    eqS (sq cfg 5) (.ok ⟨0, 1, 1, 5⟩),
    match (do X.fromSqrtSurd cfg (← X.surdNew cfg 3 2 1 2)) with | .ok (.ok v) => eqS (.ok v) (.ok ⟨1, 1, 1, 2⟩) | _ => false].all id) = true := by decide +kernel

/-- `from_sqrt_test`, the part without the feature `complex` -/
example : X.fromSqrtInt ⟨false, true⟩ (-2) = .ok none ∧
    X.fromSqrtRat ⟨false, true⟩ (rt (-1) 2) = .ok (.error ⟨rt (-1) 2, .complex⟩) ∧
    X.surdNew ⟨false, true⟩ (-2) 1 1 2 = .ok ⟨-2, 1, 1, 2⟩ ∧
    X.fromSqrtSurd ⟨false, true⟩ ⟨-2, 1, 1, 2⟩ = .ok (.error ⟨⟨-2, 1, 1, 2⟩, .complex⟩) := by decide +kernel

def C : Cfg := ⟨true, true⟩
def OMEGA : Surd := ⟨-1, 1, 2, -3⟩
def OMEGA3 : Surd := ⟨-3, 3, 2, -3⟩

/-- `complex_tests::trunc_frac_test` -/
example : eqS (X.trunc C OMEGA) (.ok Surd.zero) ∧ eqS (X.trunc C OMEGA3) (X.surdNew C (-1) 2 1 (-1)) := by decide +kernel

/-- `from_sqrt` of a surd, unwrapped. -/
def sqS (u : Res Surd) : Res Surd := do
  match ← X.fromSqrtSurd C (← u) with
  | .ok s => return s
  | .error _ => throw .unwrapNone
/-- `from_sqrt` of a ratio, unwrapped. -/
def sqR (q : Rt) : Res Surd := do
  match ← X.fromSqrtRat C q with
  | .ok s => return s
  | .error _ => throw .unwrapNone

/-- `complex_tests::from_sqrt_test` -/
example : (sq C (-2)).isOk = true ∧ (sqR (rt (-1) 2)).isOk = true ∧ (sqS (.ok (Surd.ofInt (-1)))).isOk = true ∧
    eqS (do X.surdMulInt C (← sqR (rt (-1) 2)) 2) (sq C (-2)) ∧
    eqS (do X.surdMul C (← sq C (-2)) (← sqS (.ok (Surd.ofInt (-1))))) (sq C 2) ∧
    eqS (sqS (X.surdNew C (-3) 4 1 (-1))) (.ok ⟨1, 2, 1, -1⟩) := by decide +kernel

/-- `complex_tests::formatting_test` -/
example : [
    disp true (sq C (-1)) "i",
    disp true (X.surdNew C 1 1 1 (-1)) "1+i",
    disp true (X.surdNew C 1 (-1) 1 (-1)) "1-i",
    disp true (X.surdNew C (-1) 1 1 (-1)) "-1+i",
    disp true (X.surdNew C (-1) (-1) 1 (-1)) "-1-i",
    disp true (X.surdNew C 1 2 1 (-1)) "1+2i",
    disp true (X.surdNew C 1 (-2) 1 (-1)) "1-2i",
    disp true (X.surdNew C (-1) 2 1 (-1)) "-1+2i",
    disp true (X.surdNew C (-1) (-2) 1 (-1)) "-1-2i",
    disp true (X.surdNew C 1 0 2 (-1)) "1/2",
    disp true (X.surdNew C (-1) 0 2 (-1)) "-1/2",
    disp true (X.surdNew C 1 1 2 (-1)) "(1+i)/2",
    disp true (X.surdNew C 1 (-1) 2 (-1)) "(1-i)/2",
    disp true (X.surdNew C (-1) 1 2 (-1)) "(-1+i)/2",
    disp true (X.surdNew C (-1) (-1) 2 (-1)) "(-1-i)/2",
    disp true (X.surdNew C 1 2 2 (-1)) "(1+2i)/2",
    disp true (X.surdNew C 1 (-2) 2 (-1)) "(1-2i)/2",
    disp true (X.surdNew C (-1) 2 2 (-1)) "(-1+2i)/2",
    disp true (sq C (-3)) "√3i",
    disp true (X.surdNew C 1 1 1 (-3)) "1+√3i",
    disp true (X.surdNew C 1 (-1) 1 (-3)) "1-√3i",
    disp true (X.surdNew C (-1) 1 1 (-3)) "-1+√3i",
    disp true (X.surdNew C (-1) (-1) 1 (-3)) "-1-√3i",
    disp true (X.surdNew C 1 2 1 (-3)) "1+2√3i",
    disp true (X.surdNew C 1 (-2) 1 (-3)) "1-2√3i",
    disp true (X.surdNew C (-1) 2 1 (-3)) "-1+2√3i",
    disp true (X.surdNew C (-1) (-2) 1 (-3)) "-1-2√3i",
    disp true (X.surdNew C 1 0 2 (-3)) "1/2",
    disp true (X.surdNew C (-1) 0 2 (-3)) "-1/2",
    disp true (X.surdNew C 1 1 2 (-3)) "(1+√3i)/2",
    disp true (X.surdNew C 1 (-1) 2 (-3)) "(1-√3i)/2",
    disp true (X.surdNew C (-1) 1 2 (-3)) "(-1+√3i)/2",
    disp true (X.surdNew C (-1) (-1) 2 (-3)) "(-1-√3i)/2",
    disp true (X.surdNew C 1 2 2 (-3)) "(1+2√3i)/2",
    disp true (X.surdNew C 1 (-2) 2 (-3)) "(1-2√3i)/2",
    disp true (X.surdNew C (-1) 2 2 (-3)) "(-1+2√3i)/2"].all id = true := by decide +kernel

end NumIrr.SurdTests
