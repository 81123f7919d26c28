/-
Programs with variables, branches and loops over Gaussian integers: what they do with the library, and what they would do
with complex numbers.
-/
import Mathlib.Analysis.Complex.Basic
import Verif.Model.FixedQInt
import Verif.Spec.Fixed
import Verif.Spec.QInt

namespace NumIrr
namespace GProg

/-- operations on two numbers -/
inductive Op2 where
  | add | sub | mul | div | rem

inductive Expr where
  | var (i : Nat)
  | lit (re im : Int)
  | conj (e : Expr)
  | op2 (o : Op2) (e f : Expr)

/-- what a branch may ask: `==`, or whether the norm of one number is less than that of another -/
inductive Test where
  | equal (e f : Expr)
  | less (e f : Expr)
  | not (t : Test)
  | and (t u : Test)

inductive Prog where
  | skip
  | assign (i : Nat) (e : Expr)
  | seq (p q : Prog)
  | ite (t : Test) (p q : Prog)
  | while (t : Test) (p : Prog)

/-! ### with complex numbers -/

/-- the nearest integer, halves away from zero -/
noncomputable def nearest (r : ℝ) : ℤ := if 0 ≤ r then ⌊r + 1 / 2⌋ else ⌈r - 1 / 2⌉

/-- both parts rounded -/
noncomputable def round (z : ℂ) : ℂ := nearest z.re + nearest z.im * Complex.I

noncomputable def Op2.num : Op2 → ℂ → ℂ → ℂ
  | .add, z, w => z + w
  | .sub, z, w => z - w
  | .mul, z, w => z * w
  | .div, z, w => round (z / w)
  | .rem, z, w => z - round (z / w) * w

def Op2.Defined : Op2 → ℂ → Prop
  | .div, w | .rem, w => w ≠ 0
  | _, _ => True

namespace Expr

noncomputable def num (ρ : Nat → ℂ) : Expr → ℂ
  | var i => ρ i
  | lit a b => a + b * Complex.I
  | conj e => (starRingEnd ℂ) (e.num ρ)
  | op2 o e f => o.num (e.num ρ) (f.num ρ)

def Defined (ρ : Nat → ℂ) : Expr → Prop
  | var _ | lit _ _ => True
  | conj e => e.Defined ρ
  | op2 o e f => e.Defined ρ ∧ f.Defined ρ ∧ o.Defined (f.num ρ)

end Expr

namespace Test

def Holds (ρ : Nat → ℂ) : Test → Prop
  | equal e f => e.num ρ = f.num ρ
  | less e f => ‖e.num ρ‖ < ‖f.num ρ‖
  | not t => ¬ t.Holds ρ
  | and t u => t.Holds ρ ∧ u.Holds ρ

/-- the second half of a conjunction is looked at only if the first one holds -/
def Defined (ρ : Nat → ℂ) : Test → Prop
  | equal e f | less e f => e.Defined ρ ∧ f.Defined ρ
  | not t => t.Defined ρ
  | and t u => t.Defined ρ ∧ (t.Holds ρ → u.Defined ρ)

end Test

/-- with complex numbers the program can be run from one state to its end in another -/
inductive Prog.Runs : Prog → (Nat → ℂ) → (Nat → ℂ) → Prop
  | skip (ρ) : Runs .skip ρ ρ
  | assign (i e ρ) (h : e.Defined ρ) : Runs (.assign i e) ρ (Function.update ρ i (e.num ρ))
  | seq {p q ρ ρ' ρ''} (h1 : Runs p ρ ρ') (h2 : Runs q ρ' ρ'') : Runs (.seq p q) ρ ρ''
  | iteTrue {t p q ρ ρ'} (hd : t.Defined ρ) (ht : t.Holds ρ) (h : Runs p ρ ρ') : Runs (.ite t p q) ρ ρ'
  | iteFalse {t p q ρ ρ'} (hd : t.Defined ρ) (ht : ¬ t.Holds ρ) (h : Runs q ρ ρ') : Runs (.ite t p q) ρ ρ'
  | whileTrue {t p ρ ρ' ρ''} (hd : t.Defined ρ) (ht : t.Holds ρ) (h1 : Runs p ρ ρ') (h2 : Runs (.while t p) ρ' ρ'') :
      Runs (.while t p) ρ ρ''
  | whileFalse {t p ρ} (hd : t.Defined ρ) (ht : ¬ t.Holds ρ) : Runs (.while t p) ρ ρ

/-! ### with the library -/

def Op2.run : Op2 → GInt → GInt → Res GInt
  | .add, x, y => pure (x.add y)
  | .sub, x, y => pure (x.sub y)
  | .mul, x, y => x.mul y
  | .div, x, y => x.div y
  | .rem, x, y => x.rem y

def Expr.run (σ : Nat → GInt) : Expr → Res GInt
  | var i => pure (σ i)
  | lit a b => pure ⟨a, b⟩
  | conj e => do pure (← e.run σ).conj
  | op2 o e f => do o.run (← e.run σ) (← f.run σ)

def Test.run (σ : Nat → GInt) : Test → Res Bool
  | equal e f => do pure (decide ((← e.run σ) = (← f.run σ)))
  | less e f => do pure (decide ((← e.run σ).norm < (← f.run σ).norm))
  | not t => do pure (!(← t.run σ))
  | and t u => do if (← t.run σ) then u.run σ else pure false

/-- `none`: not finished after `fuel` nested steps -/
def Prog.run : Nat → Prog → (Nat → GInt) → Option (Res (Nat → GInt))
  | 0, _, _ => none
  | _ + 1, .skip, σ => some (.ok σ)
  | _ + 1, .assign i e, σ =>
    match e.run σ with
    | .error p => some (.error p)
    | .ok s => some (.ok (Function.update σ i s))
  | n + 1, .seq p q, σ =>
    match run n p σ with
    | some (.ok σ') => run n q σ'
    | r => r
  | n + 1, .ite t p q, σ =>
    match t.run σ with
    | .error p => some (.error p)
    | .ok true => run n p σ
    | .ok false => run n q σ
  | n + 1, .while t p, σ =>
    match t.run σ with
    | .error p => some (.error p)
    | .ok false => some (.ok σ)
    | .ok true =>
      match run n p σ with
      | some (.ok σ') => run n (.while t p) σ'
      | r => r

/-! ### with the library over a primitive integer type -/

def Op2.runFx (x : Fx) : Op2 → GInt → GInt → Res GInt
  | .add, u, v => x.gAdd u v
  | .sub, u, v => x.gSub u v
  | .mul, u, v => x.gMul u v
  | .div, u, v => x.gDiv u v
  | .rem, u, v => x.gRem u v

def Expr.runFx (x : Fx) (σ : Nat → GInt) : Expr → Res GInt
  | var i => pure (σ i)
  | lit a b => pure ⟨a, b⟩
  | conj e => do x.gConj (← e.runFx x σ)
  | op2 o e f => do o.runFx x (← e.runFx x σ) (← f.runFx x σ)

def Test.runFx (x : Fx) (σ : Nat → GInt) : Test → Res Bool
  | equal e f => do pure (decide ((← e.runFx x σ) = (← f.runFx x σ)))
  | less e f => do
    let u ← e.runFx x σ
    let v ← f.runFx x σ
    let m ← x.gNorm u
    let n ← x.gNorm v
    pure (decide (m < n))
  | not t => do pure (!(← t.runFx x σ))
  | and t u => do if (← t.runFx x σ) then u.runFx x σ else pure false

/-- `none`: not finished after `fuel` nested steps -/
def Prog.runFx (x : Fx) : Nat → Prog → (Nat → GInt) → Option (Res (Nat → GInt))
  | 0, _, _ => none
  | _ + 1, .skip, σ => some (.ok σ)
  | _ + 1, .assign i e, σ =>
    match e.runFx x σ with
    | .error p => some (.error p)
    | .ok s => some (.ok (Function.update σ i s))
  | n + 1, .seq p q, σ =>
    match runFx x n p σ with
    | some (.ok σ') => runFx x n q σ'
    | r => r
  | n + 1, .ite t p q, σ =>
    match t.runFx x σ with
    | .error p => some (.error p)
    | .ok true => runFx x n p σ
    | .ok false => runFx x n q σ
  | n + 1, .while t p, σ =>
    match t.runFx x σ with
    | .error p => some (.error p)
    | .ok false => some (.ok σ)
    | .ok true =>
      match runFx x n p σ with
      | some (.ok σ') => runFx x n (.while t p) σ'
      | r => r

end GProg
end NumIrr
