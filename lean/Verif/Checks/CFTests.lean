import Verif.Model.FixedCFSurd
import Verif.Model.FixedGen
import Verif.Model.CFEq
import Verif.Model.General
import Verif.Spec.Iter

/-! The unit tests of `/repo/src/cont_frac/simple.rs` (lines 885-1075), `/repo/src/cont_frac/infinite.rs` (lines 132-160),
`/repo/src/cont_frac/general.rs` (lines 213-245) and `/repo/src/symbols.rs` (lines 225-260), evaluated on the model over
the primitive integers of the tests, with overflow checks and debug assertions.  They are tests of the model against the
authors' expectations, not proofs: no claim of `MANIFEST.json` rests on them. -/

namespace NumIrr.CFTests
open CF

/-- `i32` and `u32` in a debug build. -/
def X : Fx := ⟨32, true⟩
/-- `new` with coefficients of type `i32`. -/
def new (a p : List Int) (n : Bool) : Res CF := X.prim.new true a p n
/-- `new` with coefficients of type `u32`. -/
def newU (a p : List Int) (n : Bool) : Res CF := X.uns.new true a p n
/-- `assert_eq!` on continued fractions. -/
def eqC (c d : Res CF) : Bool := decide ((do return (← c).eq (← d)) = Except.ok true)

/-- `creation_test` -/
example : [eqC (new [0, 1, 2] [3, 4] false) (new [0, 1, 0, 0, 2] [3, 4] false),
    eqC (new [0, 1, 2] [3, 4] false) (new [0, 1, 1, 0, 1] [3, 4] false),
    eqC (new [2, 3, 4] [] true) (new [2, 1, 0, 2, 4] [] true),
    eqC (new [2, 3, 4] [] true) (new [3, -1, -2, -4] [] true),
    eqC (new [2, 3, 4] [] true) (new [-3, 1, 2, 4] [] false)].all id = true := by decide +kernel

/-- The first `n` results of `coeffs()`. -/
def coeffsOf (c : CF) (n : Nat) : List (Res (Option Int)) := (List.range n).map fun k => itemAt X.signedNext k c.coeffs
/-- The first `n` results of `into_coeffs()`. -/
def ownedOf (c : CF) (n : Nat) : List (Res (Option Int)) := (List.range n).map fun k => itemAt X.ownedNext k c.intoCoeffs
/-- The first `n` results of `convergents()`. -/
def convOf (c : CF) (n : Nat) : List (Res (Option Rt)) := (List.range n).map fun k => itemAt X.convNext k c.convergents
/-- The items, and `None` behind them. -/
def ends {α : Type} (l : List α) : List (Res (Option α)) := l.map (fun v => .ok (some v)) ++ [.ok none]

/-- `iter_test`, the finite fractions -/
example : new [1] [] false = .ok ⟨[1], [], false⟩ ∧ coeffsOf ⟨[1], [], false⟩ 2 = ends [1] ∧
    ownedOf ⟨[1], [], false⟩ 2 = ends [1] ∧ convOf ⟨[1], [], false⟩ 2 = ends [⟨1, 1⟩] ∧
    new [1] [] true = .ok ⟨[1], [], true⟩ ∧ coeffsOf ⟨[1], [], true⟩ 2 = ends [-1] ∧
    ownedOf ⟨[1], [], true⟩ 2 = ends [-1] ∧ convOf ⟨[1], [], true⟩ 2 = ends [⟨-1, 1⟩] := by decide +kernel

/-- `iter_test`, the periodic fractions -/
example : new [1] [2] false = .ok ⟨[1], [2], false⟩ ∧ new [1] [2] true = .ok ⟨[1], [2], true⟩ ∧
    coeffsOf ⟨[1], [2], false⟩ 5 = [1, 2, 2, 2, 2].map (fun v => .ok (some v)) ∧
    ownedOf ⟨[1], [2], false⟩ 5 = [1, 2, 2, 2, 2].map (fun v => .ok (some v)) ∧
    convOf ⟨[1], [2], false⟩ 5 = [⟨1, 1⟩, ⟨3, 2⟩, ⟨7, 5⟩, ⟨17, 12⟩, ⟨41, 29⟩].map (fun v => .ok (some v)) ∧
    coeffsOf ⟨[1], [2], true⟩ 5 = [-1, -2, -2, -2, -2].map (fun v => .ok (some v)) ∧
    ownedOf ⟨[1], [2], true⟩ 5 = [-1, -2, -2, -2, -2].map (fun v => .ok (some v)) ∧
    convOf ⟨[1], [2], true⟩ 5 = [⟨-1, 1⟩, ⟨-3, 2⟩, ⟨-7, 5⟩, ⟨-17, 12⟩, ⟨-41, 29⟩].map (fun v => .ok (some v)) := by
  decide +kernel

/-- `ContinuedFraction::from(Ratio)` against `new`. -/
def fromRatio (n d : Int) (c : Res CF) : Bool :=
  match X.ofRat 50 ⟨n, d⟩ with
  | some r => eqC r c
  | none => false

/-- `conversion_test` -/
example : [fromRatio 3 1 (newU [3] [] false), fromRatio 22 7 (newU [3, 7] [] false), fromRatio (-22) 7 (new [3, 7] [] true),
    fromRatio 7 22 (newU [0, 3, 7] [] false), fromRatio (-7) 22 (new [0, 3, 7] [] true),
    fromRatio 355 113 (newU [3, 7, 16] [] false)].all id = true := by decide +kernel

/-- `fmt_test` -/
example : (do display (← new [1] [] false)) = .ok "[1]" ∧ (do display (← new [1, 2, 3] [] false)) = .ok "[1; 2, 3]" ∧
    (do display (← new [1] [2] false)) = .ok "[1; (2)]" ∧
    (do display (← new [1, 2, 3] [3, 2] false)) = .ok "[1; 2, 3, (3, 2)]" := by decide +kernel

def one : Res CF := .ok CF.one
def nOne : Res CF := new [1] [] true
def sq2 : Res CF := new [1] [2] false
def nSq2 : Res CF := new [1] [2] true
/-- `c + k` -/
def add (c : Res CF) (k : Int) : Res CF := do X.addInt true (← c) k
/-- `c * k` against another fraction, with and without the feature `complex`. -/
def mul (c : Res CF) (k : Int) (d : Res CF) : Bool :=
  [true, false].all fun f =>
    match c with
    | .error _ => false
    | .ok c =>
      match X.cfMulInt ⟨f, true⟩ 100 c k with
      | some r => eqC r d
      | none => false

/-- `arithmetic_test` -/
example : [eqC (add one 1) (X.prim.ofInt 2), eqC (add one (-1)) (.ok CF.zero), eqC (add nOne 1) (.ok CF.zero),
    eqC (add nOne (-1)) (X.prim.ofInt (-2)), eqC (add sq2 1) (newU [2] [2] false), eqC (add sq2 (-1)) (newU [0] [2] false),
    eqC (add nSq2 1) (new [0] [2] true), eqC (add nSq2 (-1)) (new [2] [2] true),
    mul one 2 (X.prim.ofInt 2), mul one (-2) (X.prim.ofInt (-2)), mul nOne 2 (X.prim.ofInt (-2)),
    mul nOne (-2) (X.prim.ofInt 2), mul sq2 2 (newU [2] [1, 4] false), mul sq2 (-2) (new [2] [1, 4] true),
    mul nSq2 2 (new [2] [1, 4] true), mul nSq2 (-2) (newU [2] [1, 4] false)].all id = true := by decide +kernel

/-! `infinite.rs` -/

/-- The first `n` outputs of `homo`. -/
def homoRun (t : Prim) (src : Nat → Res (Option Int)) : Nat → Block → Nat → List Int
  | 0, _, _ => []
  | n + 1, m, k =>
    match t.homoNext src 50 m k with
    | some (.ok (some v, m, k)) => v :: homoRun t src n m k
    | _ => []

def i32 : Prim := ⟨32, true, true⟩
def eI32 : Nat → Res (Option Int) := streamR i32.eNext .new

/-- `arithmetic_test` of `infinite.rs` -/
example :
    eqC (new (homoRun i32 eI32 5 (Block.new 1 (-2) 0 1) 0) [] false) (new [0, 1, 2, 2] [] false) ∧
    eqC (new (homoRun i32 eI32 5 (Block.new 1 (-3) 0 1) 0) [] false) (new [0, 3, 1, 1, 4] [] true) ∧
    homoRun i32 eI32 5 (Block.new 1 1 0 1) 0 = [3, 1, 2, 1, 1] ∧
    homoRun i32 (fun k => itemAt X.signedNext k (coeffs ⟨[1], [2], false⟩)) 5 (Block.new 1 1 0 1) 0 = [2, 2, 2, 2, 2] ∧
    add sq2 1 = .ok ⟨[2], [2], false⟩ ∧ coeffsOf ⟨[2], [2], false⟩ 5 = [2, 2, 2, 2, 2].map (fun v => .ok (some v)) := by
  decide +kernel

/-! `general.rs` and `symbols.rs` -/

/-- The first `n` outputs of `simplify`. -/
def simpRun (t : Prim) (src : Nat → Res (Option (Int × Int))) : Nat → Block → Nat → List Int
  | 0, _, _ => []
  | n + 1, m, k =>
    match t.simpNext src 100 m k with
    | some (.ok (some v, m, k)) => v :: simpRun t src n m k
    | _ => []

def u64 : Prim := ⟨64, false, true⟩
def i64 : Fx := ⟨64, true⟩

/-- The first `n` outputs of `decimals`. -/
def decRun (ty : IntTy) : Nat → GIter → List Nat
  | 0, _ => []
  | n + 1, s =>
    match s.decNext ⟨false, true⟩ ty 50 with
    | some (.ok (some v, s)) => v :: decRun ty n s
    | _ => []

/-- The first `n` outputs of `convergents`. -/
def convRun (ty : IntTy) : Nat → GIter → List Rat
  | 0, _ => []
  | n + 1, s =>
    match s.convNext ty with
    | .ok (some v, s) => v :: convRun ty n s
    | _ => []

/-- `general_conf_frac_test`, without the first line -/
example : (convRun (IntTy.signed 32) 6 (GIter.new (stream PiCoeffs.next .new))).drop 1 = [4, 3, 19 / 6, 160 / 51, 1744 / 555] ∧
    simpRun u64 (streamR u64.piNext .new) 6 Block.identity 0 = [3, 7, 15, 1, 292, 1] ∧
    decRun (IntTy.unsigned 32) 20 (GIter.new (stream PiCoeffs.next .new)) = [51, 49, 52, 49, 53, 57, 50, 54] := by
  decide +kernel

/-- `general_conf_frac_test`, the first line: the regular expansions of `e` and of `exp(1)` over `i32` -/
example : (List.range 10).map eI32 = (simpRun i32 (streamR i32.expNext (.new 1)) 10 Block.identity 0).map fun v => .ok (some v) := by
  decide +kernel

/-- `functions_test` -/
example : (List.range 5).map (streamR i32.expNext (.new 1)) =
    [(1, 1), (1, 1), (-1, 3), (-2, 4), (-3, 5)].map fun v => .ok (some v) := by decide +kernel

/-- The first results of the coefficients of Euler's constant. -/
def gam (x : Fx) (k : Nat) : Res (Option (Int × Int)) := do streamR x.gamNext (← x.gamNew) k

/-- `cfrac_test` of `symbols.rs` -/
example : (List.range 10).map (streamR (⟨32, false, true⟩ : Prim).eNext .new) =
      [2, 1, 2, 1, 1, 4, 1, 1, 6, 1].map (fun v => .ok (some v)) ∧
    (List.range 5).map (streamR (⟨32, false, true⟩ : Prim).piNext .new) =
      [(1, 0), (4, 1), (1, 3), (4, 5), (9, 7)].map (fun v => .ok (some v)) ∧
    simpRun u64 (streamR u64.piNext .new) 10 Block.identity 0 = [3, 7, 15, 1, 292, 1, 1, 1, 2, 1] ∧
    (List.range 6).map (gam X) = [(1, 0), (1, 2), (-1, 4), (-5, 16), (36, 59), (-15740, 404)].map (fun v => .ok (some v)) ∧
    simpRun i64.prim (gam i64) 8 Block.identity 0 = [0, 1, 1, 2, 1, 2, 1, 3] := by decide +kernel

end NumIrr.CFTests
