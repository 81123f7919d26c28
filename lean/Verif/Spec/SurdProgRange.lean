/-
Programs over quadratic numbers (Spec/SurdProg.lean) that stay in a range: all numbers on the way have fields of at most `B`
in absolute value.
-/
import Verif.Spec.SurdProg
import Verif.Spec.Fixed

namespace NumIrr
namespace SProg

def Op1.Within (B : Int) : Op1 → Prop
  | .addI k | .subI k | .mulI k | .divI k => |k| ≤ B
  | .addR q | .subR q | .mulR q | .divR q => |q.num| ≤ B ∧ (q.den : Int) ≤ B
  | _ => True

def Expr.Within (cfg : Cfg) (B : Int) (σ : Nat → Surd) : Expr → Prop
  | var _ => True
  | lit a b c r => (Surd.mk a b c r).Small B ∧ ∀ v, (lit a b c r).run cfg σ = .ok v → v.Small B
  | op1 o e => o.Within B ∧ e.Within cfg B σ ∧ ∀ v, (op1 o e).run cfg σ = .ok v → v.Small B
  | op2 o e f => e.Within cfg B σ ∧ f.Within cfg B σ ∧ ∀ v, (op2 o e f).run cfg σ = .ok v → v.Small B

def Test.Within (cfg : Cfg) (B : Int) (σ : Nat → Surd) : Test → Prop
  | positive e | negative e | zero e | one e | rational e | integer e => e.Within cfg B σ
  | equal e f => e.Within cfg B σ ∧ f.Within cfg B σ
  | not t => t.Within cfg B σ
  | and t u => t.Within cfg B σ ∧ (t.run cfg σ = .ok true → u.Within cfg B σ)

/-- only what the run comes by counts -/
def Prog.Within (cfg : Cfg) (B : Int) : Nat → Prog → (Nat → Surd) → Prop
  | 0, _, _ => True
  | _ + 1, .skip, _ => True
  | _ + 1, .assign _ e, σ => e.Within cfg B σ
  | n + 1, .seq p q, σ => Within cfg B n p σ ∧ ∀ σ', p.run cfg n σ = some (.ok σ') → Within cfg B n q σ'
  | n + 1, .ite t p q, σ => t.Within cfg B σ ∧ (t.run cfg σ = .ok true → Within cfg B n p σ) ∧
      (t.run cfg σ = .ok false → Within cfg B n q σ)
  | n + 1, .while t p, σ => t.Within cfg B σ ∧ (t.run cfg σ = .ok true → Within cfg B n p σ ∧
      ∀ σ', p.run cfg n σ = some (.ok σ') → Within cfg B n (.while t p) σ')

end SProg
end NumIrr
