/-
Programs with variables, branches and loops over quadratic integers of one ring: what they do with the library, and what
they would do with complex numbers.
-/
import Verif.Model.QInt
import Verif.Spec.QIntRing

namespace NumIrr
namespace QProg

/-- operations on one number -/
inductive Op1 where
  | neg | conj | addI (k : Int) | subI (k : Int) | mulI (k : Int)

/-- operations on two numbers -/
inductive Op2 where
  | add | sub | mul | div

inductive Expr where
  | var (i : Nat)
  | lit (a b : Int)
  | op1 (o : Op1) (e : Expr)
  | op2 (o : Op2) (e f : Expr)

/-- what a branch may ask -/
inductive Test where
  | zero (e : Expr) | rational (e : Expr)
  | equal (e f : Expr)
  | not (t : Test)
  | and (t u : Test)

inductive Prog where
  | skip
  | assign (i : Nat) (e : Expr)
  | seq (p q : Prog)
  | ite (t : Test) (p q : Prog)
  | while (t : Test) (p : Prog)

/-! ### with complex numbers -/

open Classical in
/-- the rational numbers `u`, `v` with `z = u + vθ` -/
noncomputable def coords (θ z : ℂ) : ℚ × ℚ := if h : ∃ p : ℚ × ℚ, z = p.1 + p.2 * θ then h.choose else 0

/-- the nearest integer, halves away from zero -/
def nearest (q : ℚ) : ℤ := if 0 ≤ q then ⌊q + 1 / 2⌋ else ⌈q - 1 / 2⌉

noncomputable def Op1.num (D : ℤ) : Op1 → ℂ → ℂ
  | .neg, z => -z
  | .conj, z => (coords (rootC D) z).1 - (coords (rootC D) z).2 * rootC D
  | .addI k, z => z + k
  | .subI k, z => z - k
  | .mulI k, z => z * k

/-- the quotient has both coordinates rounded -/
noncomputable def Op2.num (D : ℤ) : Op2 → ℂ → ℂ → ℂ
  | .add, z, w => z + w
  | .sub, z, w => z - w
  | .mul, z, w => z * w
  | .div, z, w => nearest (coords (omegaC D) (z / w)).1 + nearest (coords (omegaC D) (z / w)).2 * omegaC D

def Op2.Defined : Op2 → ℂ → Prop
  | .div, w => w ≠ 0
  | _, _ => True

namespace Expr

noncomputable def num (D : ℤ) (ρ : Nat → ℂ) : Expr → ℂ
  | var i => ρ i
  | lit a b => a + b * omegaC D
  | op1 o e => o.num D (e.num D ρ)
  | op2 o e f => o.num D (e.num D ρ) (f.num D ρ)

def Defined (D : ℤ) (ρ : Nat → ℂ) : Expr → Prop
  | var _ | lit _ _ => True
  | op1 _ e => e.Defined D ρ
  | op2 o e f => e.Defined D ρ ∧ f.Defined D ρ ∧ o.Defined (f.num D ρ)

/-- it does not divide -/
def NoDiv : Expr → Prop
  | var _ | lit _ _ => True
  | op1 _ e => e.NoDiv
  | op2 o e f => o ≠ .div ∧ e.NoDiv ∧ f.NoDiv

end Expr

namespace Test

def Holds (D : ℤ) (ρ : Nat → ℂ) : Test → Prop
  | zero e => e.num D ρ = 0
  | rational e => ∃ q : ℚ, e.num D ρ = q
  | equal e f => e.num D ρ = f.num D ρ
  | not t => ¬ t.Holds D ρ
  | and t u => t.Holds D ρ ∧ u.Holds D ρ

/-- the second half of a conjunction is looked at only if the first one holds -/
def Defined (D : ℤ) (ρ : Nat → ℂ) : Test → Prop
  | zero e | rational e => e.Defined D ρ
  | equal e f => e.Defined D ρ ∧ f.Defined D ρ
  | not t => t.Defined D ρ
  | and t u => t.Defined D ρ ∧ (t.Holds D ρ → u.Defined D ρ)

def NoDiv : Test → Prop
  | zero e | rational e => e.NoDiv
  | equal e f => e.NoDiv ∧ f.NoDiv
  | not t => t.NoDiv
  | and t u => t.NoDiv ∧ u.NoDiv

/-- it does not use `==` -/
def NoEq : Test → Prop
  | equal _ _ => False
  | not t => t.NoEq
  | and t u => t.NoEq ∧ u.NoEq
  | _ => True

end Test

namespace Prog

def NoDiv : Prog → Prop
  | skip => True
  | assign _ e => e.NoDiv
  | seq p q => p.NoDiv ∧ q.NoDiv
  | ite t p q => t.NoDiv ∧ p.NoDiv ∧ q.NoDiv
  | .while t p => t.NoDiv ∧ p.NoDiv

def NoEq : Prog → Prop
  | skip => True
  | assign _ _ => True
  | seq p q => p.NoEq ∧ q.NoEq
  | ite t p q => t.NoEq ∧ p.NoEq ∧ q.NoEq
  | .while t p => t.NoEq ∧ p.NoEq

/-- with complex numbers the program can be run from one state to its end in another -/
inductive Runs (D : ℤ) : Prog → (Nat → ℂ) → (Nat → ℂ) → Prop
  | skip (ρ) : Runs D .skip ρ ρ
  | assign (i e ρ) (h : e.Defined D ρ) : Runs D (.assign i e) ρ (Function.update ρ i (e.num D ρ))
  | seq {p q ρ ρ' ρ''} (h1 : Runs D p ρ ρ') (h2 : Runs D q ρ' ρ'') : Runs D (.seq p q) ρ ρ''
  | iteTrue {t p q ρ ρ'} (hd : t.Defined D ρ) (ht : t.Holds D ρ) (h : Runs D p ρ ρ') : Runs D (.ite t p q) ρ ρ'
  | iteFalse {t p q ρ ρ'} (hd : t.Defined D ρ) (ht : ¬ t.Holds D ρ) (h : Runs D q ρ ρ') : Runs D (.ite t p q) ρ ρ'
  | whileTrue {t p ρ ρ' ρ''} (hd : t.Defined D ρ) (ht : t.Holds D ρ) (h1 : Runs D p ρ ρ')
      (h2 : Runs D (.while t p) ρ' ρ'') : Runs D (.while t p) ρ ρ''
  | whileFalse {t p ρ} (hd : t.Defined D ρ) (ht : ¬ t.Holds D ρ) : Runs D (.while t p) ρ ρ

end Prog

/-! ### with the library -/

def Op1.run : Op1 → QInt → Res QInt
  | .neg, x => pure x.neg
  | .conj, x => x.conj
  | .addI k, x => pure (x.addInt k)
  | .subI k, x => pure (x.subInt k)
  | .mulI k, x => pure (x.mulInt k)

def Op2.run (cfg : Cfg) : Op2 → QInt → QInt → Res QInt
  | .add, x, y => x.add cfg y
  | .sub, x, y => x.sub cfg y
  | .mul, x, y => x.mul cfg y
  | .div, x, y => x.div cfg y

/-- literals are made by `QuadraticInt::from_coeffs` with the discriminant `D` -/
def Expr.run (cfg : Cfg) (D : ℤ) (σ : Nat → QInt) : Expr → Res QInt
  | var i => pure (σ i)
  | lit a b => QInt.fromCoeffs cfg ⟨a, b⟩ D
  | op1 o e => do o.run (← e.run cfg D σ)
  | op2 o e f => do o.run cfg (← e.run cfg D σ) (← f.run cfg D σ)

def Test.run (cfg : Cfg) (D : ℤ) (σ : Nat → QInt) : Test → Res Bool
  | zero e => do pure (← e.run cfg D σ).isZero
  | rational e => do pure (← e.run cfg D σ).isRational
  | equal e f => do QInt.eq (← e.run cfg D σ) (← f.run cfg D σ)
  | not t => do pure (!(← t.run cfg D σ))
  | and t u => do if (← t.run cfg D σ) then u.run cfg D σ else pure false

/-- `none`: not finished after `fuel` nested steps -/
def Prog.run (cfg : Cfg) (D : ℤ) : Nat → Prog → (Nat → QInt) → Option (Res (Nat → QInt))
  | 0, _, _ => none
  | _ + 1, .skip, σ => some (.ok σ)
  | _ + 1, .assign i e, σ =>
    match e.run cfg D σ with
    | .error p => some (.error p)
    | .ok s => some (.ok (Function.update σ i s))
  | n + 1, .seq p q, σ =>
    match run cfg D n p σ with
    | some (.ok σ') => run cfg D n q σ'
    | r => r
  | n + 1, .ite t p q, σ =>
    match t.run cfg D σ with
    | .error p => some (.error p)
    | .ok true => run cfg D n p σ
    | .ok false => run cfg D n q σ
  | n + 1, .while t p, σ =>
    match t.run cfg D σ with
    | .error p => some (.error p)
    | .ok false => some (.ok σ)
    | .ok true =>
      match run cfg D n p σ with
      | some (.ok σ') => run cfg D n (.while t p) σ'
      | r => r

end QProg
end NumIrr
