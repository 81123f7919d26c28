/-
Programs with variables, branches and loops over quadratic numbers: what they do with the library, and what they would do
with real numbers.
-/
import Verif.Model.Surd
import Verif.Model.FixedSurd
import Verif.Spec.Surd
import Mathlib.NumberTheory.Real.Irrational
import Mathlib.Algebra.Squarefree.Basic

namespace NumIrr
namespace SProg

/-- operations on one number -/
inductive Op1 where
  | neg | recip | floor
  | addI (k : Int) | subI (k : Int) | mulI (k : Int) | divI (k : Int)
  | addR (q : Rat) | subR (q : Rat) | mulR (q : Rat) | divR (q : Rat)

/-- operations on two numbers -/
inductive Op2 where
  | add | sub | mul | div

inductive Expr where
  | var (i : Nat)
  | lit (a b c r : Int)
  | op1 (o : Op1) (e : Expr)
  | op2 (o : Op2) (e f : Expr)

/-- what a branch may ask -/
inductive Test where
  | positive (e : Expr) | negative (e : Expr) | zero (e : Expr) | one (e : Expr)
  | rational (e : Expr) | integer (e : Expr)
  | equal (e f : Expr)
  | not (t : Test)
  | and (t u : Test)

inductive Prog where
  | skip
  | assign (i : Nat) (e : Expr)
  | seq (p q : Prog)
  | ite (t : Test) (p q : Prog)
  | while (t : Test) (p : Prog)

/-! ### with real numbers -/

noncomputable def Op1.real : Op1 → ℝ → ℝ
  | .neg, x => -x
  | .recip, x => 1 / x
  | .floor, x => ⌊x⌋
  | .addI k, x => x + k
  | .subI k, x => x - k
  | .mulI k, x => x * k
  | .divI k, x => x / k
  | .addR q, x => x + q
  | .subR q, x => x - q
  | .mulR q, x => x * q
  | .divR q, x => x / q

def Op1.Defined : Op1 → ℝ → Prop
  | .recip, x => x ≠ 0
  | .divI k, _ => k ≠ 0
  | .divR q, _ => q ≠ 0
  | _, _ => True

noncomputable def Op2.real : Op2 → ℝ → ℝ → ℝ
  | .add, x, y => x + y
  | .sub, x, y => x - y
  | .mul, x, y => x * y
  | .div, x, y => x / y

/-- no division by zero; and, as the library panics there (C07), no division of zero by an irrational number -/
def Op2.Defined : Op2 → ℝ → ℝ → Prop
  | .div, x, y => y ≠ 0 ∧ (x = 0 → ¬ Irrational y)
  | _, _, _ => True

namespace Expr

noncomputable def real (ρ : Nat → ℝ) : Expr → ℝ
  | var i => ρ i
  | lit a b c r => (a + b * Real.sqrt r) / c
  | op1 o e => o.real (e.real ρ)
  | op2 o e f => o.real (e.real ρ) (f.real ρ)

def Defined (ρ : Nat → ℝ) : Expr → Prop
  | var _ => True
  | lit _ _ c r => c ≠ 0 ∧ 0 ≤ r
  | op1 o e => e.Defined ρ ∧ o.Defined (e.real ρ)
  | op2 o e f => e.Defined ρ ∧ f.Defined ρ ∧ o.Defined (e.real ρ) (f.real ρ)

/-- all roots written in it are `√d` -/
def Over (d : Int) : Expr → Prop
  | var _ => True
  | lit _ _ _ r => r = d
  | op1 _ e => e.Over d
  | op2 _ e f => e.Over d ∧ f.Over d

end Expr

namespace Test

def Holds (ρ : Nat → ℝ) : Test → Prop
  | positive e => 0 < e.real ρ
  | negative e => e.real ρ < 0
  | zero e => e.real ρ = 0
  | one e => e.real ρ = 1
  | rational e => ¬ Irrational (e.real ρ)
  | integer e => ∃ k : ℤ, e.real ρ = k
  | equal e f => e.real ρ = f.real ρ
  | not t => ¬ t.Holds ρ
  | and t u => t.Holds ρ ∧ u.Holds ρ

/-- the second half of a conjunction is looked at only if the first one holds -/
def Defined (ρ : Nat → ℝ) : Test → Prop
  | positive e | negative e | zero e | one e | rational e | integer e => e.Defined ρ
  | equal e f => e.Defined ρ ∧ f.Defined ρ
  | not t => t.Defined ρ
  | and t u => t.Defined ρ ∧ (t.Holds ρ → u.Defined ρ)

def Over (d : Int) : Test → Prop
  | positive e | negative e | zero e | one e | rational e | integer e => e.Over d
  | equal e f => e.Over d ∧ f.Over d
  | not t => t.Over d
  | and t u => t.Over d ∧ u.Over d

/-- it does not use `==` -/
def NoEq : Test → Prop
  | equal _ _ => False
  | not t => t.NoEq
  | and t u => t.NoEq ∧ u.NoEq
  | _ => True

end Test

namespace Prog

def Over (d : Int) : Prog → Prop
  | skip => True
  | assign _ e => e.Over d
  | seq p q => p.Over d ∧ q.Over d
  | ite t p q => t.Over d ∧ p.Over d ∧ q.Over d
  | .while t p => t.Over d ∧ p.Over d

def NoEq : Prog → Prop
  | skip => True
  | assign _ _ => True
  | seq p q => p.NoEq ∧ q.NoEq
  | ite t p q => t.NoEq ∧ p.NoEq ∧ q.NoEq
  | .while t p => t.NoEq ∧ p.NoEq

/-- with real numbers the program can be run from one state to its end in another -/
inductive Runs : Prog → (Nat → ℝ) → (Nat → ℝ) → Prop
  | skip (ρ) : Runs .skip ρ ρ
  | assign (i e ρ) (h : e.Defined ρ) : Runs (.assign i e) ρ (Function.update ρ i (e.real ρ))
  | seq {p q ρ ρ' ρ''} (h1 : Runs p ρ ρ') (h2 : Runs q ρ' ρ'') : Runs (.seq p q) ρ ρ''
  | iteTrue {t p q ρ ρ'} (hd : t.Defined ρ) (ht : t.Holds ρ) (h : Runs p ρ ρ') : Runs (.ite t p q) ρ ρ'
  | iteFalse {t p q ρ ρ'} (hd : t.Defined ρ) (ht : ¬ t.Holds ρ) (h : Runs q ρ ρ') : Runs (.ite t p q) ρ ρ'
  | whileTrue {t p ρ ρ' ρ''} (hd : t.Defined ρ) (ht : t.Holds ρ) (h1 : Runs p ρ ρ') (h2 : Runs (.while t p) ρ' ρ'') :
      Runs (.while t p) ρ ρ''
  | whileFalse {t p ρ} (hd : t.Defined ρ) (ht : ¬ t.Holds ρ) : Runs (.while t p) ρ ρ

end Prog

/-! ### with the library -/

def Op1.run (cfg : Cfg) : Op1 → Surd → Res Surd
  | .neg, s => pure s.neg
  | .recip, s => s.recip cfg
  | .floor, s => s.floor cfg
  | .addI k, s => s.addInt cfg k
  | .subI k, s => s.subInt cfg k
  | .mulI k, s => s.mulInt cfg k
  | .divI k, s => s.divInt cfg k
  | .addR q, s => s.addRat cfg q
  | .subR q, s => s.subRat cfg q
  | .mulR q, s => s.mulRat cfg q
  | .divR q, s => s.divRat cfg q

def Op2.run (cfg : Cfg) : Op2 → Surd → Surd → Res Surd
  | .add, s, t => s.add cfg t
  | .sub, s, t => s.sub cfg t
  | .mul, s, t => s.mul cfg t
  | .div, s, t => s.div cfg t

def Expr.run (cfg : Cfg) (σ : Nat → Surd) : Expr → Res Surd
  | var i => pure (σ i)
  | lit a b c r => Surd.new cfg a b c r
  | op1 o e => do o.run cfg (← e.run cfg σ)
  | op2 o e f => do o.run cfg (← e.run cfg σ) (← f.run cfg σ)

def Test.run (cfg : Cfg) (σ : Nat → Surd) : Test → Res Bool
  | positive e => do (← e.run cfg σ).isPositive cfg
  | negative e => do (← e.run cfg σ).isNegative cfg
  | zero e => do pure (← e.run cfg σ).isZero
  | one e => do pure (← e.run cfg σ).isOne
  | rational e => do pure (← e.run cfg σ).isRational
  | integer e => do pure (← e.run cfg σ).isInteger
  | equal e f => do pure (Surd.eq (← e.run cfg σ) (← f.run cfg σ))
  | not t => do pure (!(← t.run cfg σ))
  | and t u => do if (← t.run cfg σ) then u.run cfg σ else pure false

/-- `none`: not finished after `fuel` nested steps -/
def Prog.run (cfg : Cfg) : Nat → Prog → (Nat → Surd) → Option (Res (Nat → Surd))
  | 0, _, _ => none
  | _ + 1, .skip, σ => some (.ok σ)
  | _ + 1, .assign i e, σ =>
    match e.run cfg σ with
    | .error p => some (.error p)
    | .ok s => some (.ok (Function.update σ i s))
  | n + 1, .seq p q, σ =>
    match run cfg n p σ with
    | some (.ok σ') => run cfg n q σ'
    | r => r
  | n + 1, .ite t p q, σ =>
    match t.run cfg σ with
    | .error p => some (.error p)
    | .ok true => run cfg n p σ
    | .ok false => run cfg n q σ
  | n + 1, .while t p, σ =>
    match t.run cfg σ with
    | .error p => some (.error p)
    | .ok false => some (.ok σ)
    | .ok true =>
      match run cfg n p σ with
      | some (.ok σ') => run cfg n (.while t p) σ'
      | r => r

/-! ### with the library over a primitive integer type -/

def Op1.runFx (x : Fx) (cfg : Cfg) : Op1 → Surd → Res Surd
  | .neg, s => x.surdNeg s
  | .recip, s => x.recip cfg s
  | .floor, s => x.floor cfg s
  | .addI k, s => x.surdAddInt cfg s k
  | .subI k, s => x.surdSubInt cfg s k
  | .mulI k, s => x.surdMulInt cfg s k
  | .divI k, s => x.surdDivInt cfg s k
  | .addR q, s => x.surdAddRat cfg s (.of q)
  | .subR q, s => x.surdSubRat cfg s (.of q)
  | .mulR q, s => x.surdMulRat cfg s (.of q)
  | .divR q, s => x.surdDivRat cfg s (.of q)

def Op2.runFx (x : Fx) (cfg : Cfg) : Op2 → Surd → Surd → Res Surd
  | .add, s, t => x.surdAdd cfg s t
  | .sub, s, t => x.surdSub cfg s t
  | .mul, s, t => x.surdMul cfg s t
  | .div, s, t => x.surdDiv cfg s t

def Expr.runFx (x : Fx) (cfg : Cfg) (σ : Nat → Surd) : Expr → Res Surd
  | var i => pure (σ i)
  | lit a b c r => x.surdNew cfg a b c r
  | op1 o e => do o.runFx x cfg (← e.runFx x cfg σ)
  | op2 o e f => do o.runFx x cfg (← e.runFx x cfg σ) (← f.runFx x cfg σ)

def Test.runFx (x : Fx) (cfg : Cfg) (σ : Nat → Surd) : Test → Res Bool
  | positive e => do x.isPositive cfg (← e.runFx x cfg σ)
  | negative e => do x.isNegative cfg (← e.runFx x cfg σ)
  | zero e => do pure (← e.runFx x cfg σ).isZero
  | one e => do pure (← e.runFx x cfg σ).isOne
  | rational e => do pure (← e.runFx x cfg σ).isRational
  | integer e => do pure (← e.runFx x cfg σ).isInteger
  | equal e f => do x.eq (← e.runFx x cfg σ) (← f.runFx x cfg σ)
  | not t => do pure (!(← t.runFx x cfg σ))
  | and t u => do if (← t.runFx x cfg σ) then u.runFx x cfg σ else pure false

def Prog.runFx (x : Fx) (cfg : Cfg) : Nat → Prog → (Nat → Surd) → Option (Res (Nat → Surd))
  | 0, _, _ => none
  | _ + 1, .skip, σ => some (.ok σ)
  | _ + 1, .assign i e, σ =>
    match e.runFx x cfg σ with
    | .error p => some (.error p)
    | .ok s => some (.ok (Function.update σ i s))
  | n + 1, .seq p q, σ =>
    match runFx x cfg n p σ with
    | some (.ok σ') => runFx x cfg n q σ'
    | r => r
  | n + 1, .ite t p q, σ =>
    match t.runFx x cfg σ with
    | .error p => some (.error p)
    | .ok true => runFx x cfg n p σ
    | .ok false => runFx x cfg n q σ
  | n + 1, .while t p, σ =>
    match t.runFx x cfg σ with
    | .error p => some (.error p)
    | .ok false => some (.ok σ)
    | .ok true =>
      match runFx x cfg n p σ with
      | some (.ok σ') => runFx x cfg n (.while t p) σ'
      | r => r

end SProg
end NumIrr
