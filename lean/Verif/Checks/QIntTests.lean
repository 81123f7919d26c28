import Verif.Model.FixedQInt

/-! The unit tests of `/repo/src/quadratic/integer.rs` (lines 788-984), evaluated on the model over `i32` with overflow
checks and debug assertions.  They are tests of the model against the authors' expectations, not proofs: no claim of
`MANIFEST.json` rests on them. -/

namespace NumIrr.QIntTests

/-- `i32` in a debug build. -/
def X : Fx := ⟨32, true⟩
/-- Without and with the feature `complex`. -/
def cfgs : List Cfg := [⟨false, true⟩, ⟨true, true⟩]
/-- With the feature `complex`. -/
def C : Cfg := ⟨true, true⟩

/-- `assert_eq!` on quadratic integers, with the `PartialEq` of the crate. -/
def eqQ (u v : Res QInt) : Bool := decide ((do X.qEq (← u) (← v)) = Except.ok true)

/-- `div_rem_round_test`, over `i8` -/
example : ([
    (-4,4,-1,0), (-3,4,-1,1), (-2,4,-1,2), (-1,4,0,-1), (0,4,0,0), (1,4,0,1), (2,4,1,-2), (3,4,1,-1), (4,4,1,0), (-4,-4,1,0), (-3,-4,1,1), (-2,-4,1,2), (-1,-4,0,-1), (0,-4,0,0), (1,-4,0,1), (2,-4,-1,-2), (3,-4,-1,-1), (4,-4,-1,0)].all fun (t : Int × Int × Int × Int) =>
    decide ((⟨8, true⟩ : Fx).divRemRound t.1 t.2.1 = .ok (t.2.2.1, t.2.2.2))) = true := by decide +kernel

/-- The numbers `a + b √r` of `test_ops_unit`. -/
def u (cfg : Cfg) (r : Int) (n : String) : Res QInt :=
  match n with
  | "e1" => X.qNew cfg 1 0 r | "e2" => X.qNew cfg 0 1 r | "e3" => X.qNew cfg (-1) 0 r | "e4" => X.qNew cfg 0 (-1) r
  | "m12" => X.qNew cfg 1 1 r | "m34" => X.qNew cfg (-1) (-1) r | _ => X.qNew cfg 0 0 r

/-- `test_ops_unit`, the first part -/
example : (cfgs.all fun cfg => [
    eqQ (do X.qAdd cfg (← u cfg 2 "e1") (← u cfg 2 "zero")) (u cfg 2 "e1"),
    eqQ (do X.qSub cfg (← u cfg 2 "e1") (← u cfg 2 "zero")) (u cfg 2 "e1"),
    eqQ (do X.qMul cfg (← u cfg 2 "e1") (← u cfg 2 "zero")) (u cfg 2 "zero"),
    eqQ (do X.qDiv cfg (← u cfg 2 "zero") (← u cfg 2 "e1")) (u cfg 2 "zero"),
    eqQ (do X.qAdd cfg (← u cfg 2 "e1") (← u cfg 2 "e2")) (u cfg 2 "m12"),
    eqQ (do X.qAdd cfg (← u cfg 2 "e3") (← u cfg 2 "e4")) (u cfg 2 "m34"),
    eqQ (do X.qSub cfg (← u cfg 2 "m12") (← u cfg 2 "e1")) (u cfg 2 "e2"),
    eqQ (do X.qSub cfg (← u cfg 2 "m34") (← u cfg 2 "e3")) (u cfg 2 "e4"),
    eqQ (do X.qMul cfg (← u cfg 2 "e1") (← u cfg 2 "e2")) (u cfg 2 "e2"),
    eqQ (do X.qDiv cfg (← u cfg 2 "e2") (← u cfg 2 "e1")) (u cfg 2 "e2"),
    eqQ (do X.qMul cfg (← u cfg 2 "e2") (← u cfg 2 "e3")) (u cfg 2 "e4"),
    eqQ (do X.qDiv cfg (← u cfg 2 "e4") (← u cfg 2 "e2")) (u cfg 2 "e3"),
    eqQ (do X.qMul cfg (← u cfg 2 "e3") (← u cfg 2 "e4")) (u cfg 2 "e2"),
    eqQ (do X.qDiv cfg (← u cfg 2 "e2") (← u cfg 2 "e3")) (u cfg 2 "e4"),
    eqQ (do X.qMul cfg (← u cfg 2 "e4") (← u cfg 2 "e1")) (u cfg 2 "e4"),
    eqQ (do X.qDiv cfg (← u cfg 2 "e4") (← u cfg 2 "e1")) (u cfg 2 "e4")].all id) = true := by decide +kernel

/-- `test_ops_unit`, the complex part -/
example : [
    eqQ (do X.qAdd C (← u C (-1) "e1") (← u C (-1) "zero")) (u C (-1) "e1"),
    eqQ (do X.qSub C (← u C (-1) "e1") (← u C (-1) "zero")) (u C (-1) "e1"),
    eqQ (do X.qMul C (← u C (-1) "e1") (← u C (-1) "zero")) (u C (-1) "zero"),
    eqQ (do X.qDiv C (← u C (-1) "zero") (← u C (-1) "e1")) (u C (-1) "zero"),
    eqQ (do X.qAdd C (← u C (-1) "e1") (← u C (-1) "e2")) (u C (-1) "m12"),
    eqQ (do X.qAdd C (← u C (-1) "e3") (← u C (-1) "e4")) (u C (-1) "m34"),
    eqQ (do X.qSub C (← u C (-1) "m12") (← u C (-1) "e1")) (u C (-1) "e2"),
    eqQ (do X.qSub C (← u C (-1) "m34") (← u C (-1) "e3")) (u C (-1) "e4"),
    eqQ (do X.qMul C (← u C (-1) "e1") (← u C (-1) "e2")) (u C (-1) "e2"),
    eqQ (do X.qDiv C (← u C (-1) "e2") (← u C (-1) "e1")) (u C (-1) "e2"),
    eqQ (do X.qMul C (← u C (-1) "e2") (← u C (-1) "e3")) (u C (-1) "e4"),
    eqQ (do X.qDiv C (← u C (-1) "e4") (← u C (-1) "e2")) (u C (-1) "e3"),
    eqQ (do X.qMul C (← u C (-1) "e3") (← u C (-1) "e4")) (u C (-1) "e2"),
    eqQ (do X.qDiv C (← u C (-1) "e2") (← u C (-1) "e3")) (u C (-1) "e4"),
    eqQ (do X.qMul C (← u C (-1) "e4") (← u C (-1) "e1")) (u C (-1) "e4"),
    eqQ (do X.qDiv C (← u C (-1) "e4") (← u C (-1) "e1")) (u C (-1) "e4"),
    decide ((do X.qNorm (← u C (-1) "e1")) = .ok 1),
    decide ((do X.qNorm (← u C (-1) "e2")) = .ok 1),
    decide ((do X.qNorm (← u C (-1) "e3")) = .ok 1),
    decide ((do X.qNorm (← u C (-1) "e4")) = .ok 1),
    eqQ (do X.qConj (← u C (-1) "e1")) (u C (-1) "e1"),
    eqQ (do X.qConj (← u C (-1) "e2")) (u C (-1) "e4"),
    eqQ (do X.qConj (← u C (-1) "e3")) (u C (-1) "e3"),
    eqQ (do X.qConj (← u C (-1) "e4")) (u C (-1) "e2")].all id = true := by decide +kernel

/-- `test_ops` -/
example : (cfgs.all fun cfg => [
    eqQ (do X.qAdd cfg (← X.qNew cfg 1 3 2) (← X.qNew cfg (-2) (-1) 2)) (X.qNew cfg (-1) (2) (2)),
    eqQ (do X.qSub cfg (← X.qNew cfg 1 3 2) (← X.qNew cfg (-2) (-1) 2)) (X.qNew cfg (3) (4) (2)),
    eqQ (do X.qMul cfg (← X.qNew cfg 1 3 2) (← X.qNew cfg (-2) (-1) 2)) (X.qNew cfg (-8) (-7) (2)),
    eqQ (do X.qDiv cfg (← X.qNew cfg 1 3 2) (← X.qNew cfg (-2) (-1) 2)) (X.qNew cfg (2) (-3) (2)),
    eqQ (do X.qRem cfg (← X.qNew cfg 1 3 2) (← X.qNew cfg (-2) (-1) 2)) (X.qNew cfg (-1) (-1) (2)),
    eqQ (do X.qAdd cfg (← X.qNew cfg (-2) (-1) 2) (← X.qNew cfg (-1) 2 2)) (X.qNew cfg (-3) (1) (2)),
    eqQ (do X.qSub cfg (← X.qNew cfg (-2) (-1) 2) (← X.qNew cfg (-1) 2 2)) (X.qNew cfg (-1) (-3) (2)),
    eqQ (do X.qMul cfg (← X.qNew cfg (-2) (-1) 2) (← X.qNew cfg (-1) 2 2)) (X.qNew cfg (-2) (-3) (2)),
    eqQ (do X.qDiv cfg (← X.qNew cfg (-2) (-1) 2) (← X.qNew cfg (-1) 2 2)) (X.qNew cfg (-1) (-1) (2)),
    eqQ (do X.qRem cfg (← X.qNew cfg (-2) (-1) 2) (← X.qNew cfg (-1) 2 2)) (X.qNew cfg (1) (0) (2))].all id) = true := by decide +kernel

/-- `test_different_bases` -/
example : (cfgs.all fun cfg => [
    eqQ (X.qNew cfg 1 6 5) (X.qNew cfg 1 3 20),
    eqQ (X.qNew cfg 1 6 5) (X.qNew cfg 1 2 45),
    eqQ (do X.qAdd cfg (← X.qNew cfg 1 6 5) (← X.qNew cfg 1 3 20)) (do X.qAdd cfg (← X.qNew cfg 1 6 5) (← X.qNew cfg 1 6 5)),
    eqQ (do X.qAdd cfg (← X.qNew cfg 1 6 5) (← X.qNew cfg 1 2 45)) (do X.qAdd cfg (← X.qNew cfg 1 6 5) (← X.qNew cfg 1 6 5)),
    eqQ (do X.qSub cfg (← X.qNew cfg 1 6 5) (← X.qNew cfg 1 3 20)) (.ok QInt.zero),
    eqQ (do X.qSub cfg (← X.qNew cfg 1 6 5) (← X.qNew cfg 1 2 45)) (.ok QInt.zero),
    eqQ (do X.qMul cfg (← X.qNew cfg 1 6 5) (← X.qNew cfg 1 3 20)) (do X.qMul cfg (← X.qNew cfg 1 6 5) (← X.qNew cfg 1 6 5)),
    eqQ (do X.qMul cfg (← X.qNew cfg 1 6 5) (← X.qNew cfg 1 2 45)) (do X.qMul cfg (← X.qNew cfg 1 6 5) (← X.qNew cfg 1 6 5)),
    eqQ (do X.qDiv cfg (← X.qNew cfg 1 6 5) (← X.qNew cfg 1 3 20)) (.ok QInt.one),
    eqQ (do X.qDiv cfg (← X.qNew cfg 1 6 5) (← X.qNew cfg 1 2 45)) (.ok QInt.one),
    eqQ (do X.qRem cfg (← X.qNew cfg 1 6 5) (← X.qNew cfg 1 3 20)) (.ok QInt.zero),
    eqQ (do X.qRem cfg (← X.qNew cfg 1 6 5) (← X.qNew cfg 1 2 45)) (.ok QInt.zero)].all id) = true := by decide +kernel

def gs : List GInt := [⟨1, 2⟩, ⟨-1, 2⟩, ⟨1, -2⟩, ⟨2, 3⟩, ⟨-2, 3⟩, ⟨2, -3⟩]

/-- `test_gaussian` -/
example : X.gConj ⟨1, 2⟩ = .ok ⟨1, -2⟩ ∧ X.gConj ⟨2, 3⟩ = .ok ⟨2, -3⟩ ∧ X.gNorm ⟨1, 2⟩ = .ok 5 ∧ X.gNorm ⟨2, 3⟩ = .ok 13 ∧
    (gs.all fun v => gs.all fun w => decide ((do X.gSub (← X.gAdd v w) v) = .ok w) &&
      decide ((do X.gDiv (← X.gMul v w) v) = .ok w)) = true := by decide +kernel

def es : List QCoeffs := [⟨1, 2⟩, ⟨-1, 2⟩, ⟨3, -2⟩, ⟨2, 3⟩, ⟨-2, 3⟩, ⟨5, -3⟩]
def eis (c : QCoeffs) : Res QInt := X.qFromCoeffs C c (-3)

/-- `test_eisenstein` -/
example : [
    eqQ (do X.qConj (← eis ⟨1, 2⟩)) (eis ⟨3, -2⟩),
    eqQ (do X.qConj (← eis ⟨2, 3⟩)) (eis ⟨5, -3⟩),
    decide ((do X.qNorm (← eis ⟨1, 2⟩)) = .ok 7),
    decide ((do X.qNorm (← eis ⟨2, 3⟩)) = .ok 19),
    eqQ (do X.qMul C (← eis ⟨1, 2⟩) (← eis ⟨1, 2⟩)) (X.qFromCoeffs C ⟨-3, 8⟩ (-3)),
    (es.all fun v => es.all fun w =>
      eqQ (do X.qSub C (← X.qAdd C (← eis v) (← eis w)) (← eis v)) (eis w) &&
      eqQ (do X.qDiv C (← X.qMul C (← eis v) (← eis w)) (← eis v)) (eis w))].all id = true := by decide +kernel

end NumIrr.QIntTests
