/-
Programs over quadratic integers with primitive integers.
-/
import Verif.Model.FixedQInt
import Verif.Spec.QIntProg
import Verif.Spec.Fixed

namespace NumIrr
namespace QProg

def Op1.runFx (x : Fx) : Op1 → QInt → Res QInt
  | .neg, u => x.qNeg u
  | .conj, u => x.qConj u
  | .addI k, u => x.qAddInt u k
  | .subI k, u => x.qSubInt u k
  | .mulI k, u => x.qMulInt u k

def Op2.runFx (x : Fx) (cfg : Cfg) : Op2 → QInt → QInt → Res QInt
  | .add, u, v => x.qAdd cfg u v
  | .sub, u, v => x.qSub cfg u v
  | .mul, u, v => x.qMul cfg u v
  | .div, u, v => x.qDiv cfg u v

def Expr.runFx (x : Fx) (cfg : Cfg) (D : ℤ) (σ : Nat → QInt) : Expr → Res QInt
  | var i => pure (σ i)
  | lit a b => x.qFromCoeffs cfg ⟨a, b⟩ D
  | op1 o e => do o.runFx x (← e.runFx x cfg D σ)
  | op2 o e f => do o.runFx x cfg (← e.runFx x cfg D σ) (← f.runFx x cfg D σ)

def Test.runFx (x : Fx) (cfg : Cfg) (D : ℤ) (σ : Nat → QInt) : Test → Res Bool
  | zero e => do pure (← e.runFx x cfg D σ).isZero
  | rational e => do pure (← e.runFx x cfg D σ).isRational
  | equal e f => do x.qEq (← e.runFx x cfg D σ) (← f.runFx x cfg D σ)
  | not t => do pure (!(← t.runFx x cfg D σ))
  | and t u => do if (← t.runFx x cfg D σ) then u.runFx x cfg D σ else pure false

/-- `none`: not finished after `fuel` nested steps -/
def Prog.runFx (x : Fx) (cfg : Cfg) (D : ℤ) : Nat → Prog → (Nat → QInt) → Option (Res (Nat → QInt))
  | 0, _, _ => none
  | _ + 1, .skip, σ => some (.ok σ)
  | _ + 1, .assign i e, σ =>
    match e.runFx x cfg D σ with
    | .error p => some (.error p)
    | .ok s => some (.ok (Function.update σ i s))
  | n + 1, .seq p q, σ =>
    match runFx x cfg D n p σ with
    | some (.ok σ') => runFx x cfg D n q σ'
    | r => r
  | n + 1, .ite t p q, σ =>
    match t.runFx x cfg D σ with
    | .error p => some (.error p)
    | .ok true => runFx x cfg D n p σ
    | .ok false => runFx x cfg D n q σ
  | n + 1, .while t p, σ =>
    match t.runFx x cfg D σ with
    | .error p => some (.error p)
    | .ok false => some (.ok σ)
    | .ok true =>
      match runFx x cfg D n p σ with
      | some (.ok σ') => runFx x cfg D n (.while t p) σ'
      | r => r

end QProg
end NumIrr
