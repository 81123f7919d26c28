/-
Programs over quadratic integers (Spec/QIntProg.lean) that stay in a range: all numbers on the way have fields of at most `B`
in absolute value.
-/
import Verif.Spec.QIntProg
import Verif.Spec.Fixed

namespace NumIrr
namespace QProg

def Op1.Within (B : Int) : Op1 → Prop
  | .addI k | .subI k | .mulI k => |k| ≤ B
  | _ => True

def Expr.Within (cfg : Cfg) (D B : Int) (σ : Nat → QInt) : Expr → Prop
  | var _ => True
  | lit a b => |a| ≤ B ∧ |b| ≤ B
  | op1 o e => o.Within B ∧ e.Within cfg D B σ ∧ ∀ v, (op1 o e).run cfg D σ = .ok v → v.Small B
  | op2 o e f => e.Within cfg D B σ ∧ f.Within cfg D B σ ∧ ∀ v, (op2 o e f).run cfg D σ = .ok v → v.Small B

def Test.Within (cfg : Cfg) (D B : Int) (σ : Nat → QInt) : Test → Prop
  | zero e | rational e => e.Within cfg D B σ
  | equal e f => e.Within cfg D B σ ∧ f.Within cfg D B σ
  | not t => t.Within cfg D B σ
  | and t u => t.Within cfg D B σ ∧ (t.run cfg D σ = .ok true → u.Within cfg D B σ)

/-- only what the run comes by counts -/
def Prog.Within (cfg : Cfg) (D B : Int) : Nat → Prog → (Nat → QInt) → Prop
  | 0, _, _ => True
  | _ + 1, .skip, _ => True
  | _ + 1, .assign _ e, σ => e.Within cfg D B σ
  | n + 1, .seq p q, σ => Within cfg D B n p σ ∧ ∀ σ', p.run cfg D n σ = some (.ok σ') → Within cfg D B n q σ'
  | n + 1, .ite t p q, σ => t.Within cfg D B σ ∧ (t.run cfg D σ = .ok true → Within cfg D B n p σ) ∧
      (t.run cfg D σ = .ok false → Within cfg D B n q σ)
  | n + 1, .while t p, σ => t.Within cfg D B σ ∧ (t.run cfg D σ = .ok true → Within cfg D B n p σ ∧
      ∀ σ', p.run cfg D n σ = some (.ok σ') → Within cfg D B n (.while t p) σ')

end QProg
end NumIrr
