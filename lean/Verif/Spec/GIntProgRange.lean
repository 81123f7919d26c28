/-
Programs over Gaussian integers (Spec/GIntProg.lean) that stay in a range: all numbers on the way have parts of at most `B`
in absolute value.
-/
import Verif.Spec.GIntProg

namespace NumIrr
namespace GProg

def Expr.Within (B : Int) (σ : Nat → GInt) : Expr → Prop
  | var _ => True
  | lit a b => |a| ≤ B ∧ |b| ≤ B
  | conj e => e.Within B σ
  | op2 o e f => e.Within B σ ∧ f.Within B σ ∧ ∀ v, (op2 o e f).run σ = .ok v → |v.re| ≤ B ∧ |v.im| ≤ B

def Test.Within (B : Int) (σ : Nat → GInt) : Test → Prop
  | equal e f | less e f => e.Within B σ ∧ f.Within B σ
  | not t => t.Within B σ
  | and t u => t.Within B σ ∧ (t.run σ = .ok true → u.Within B σ)

/-- only what the run comes by counts -/
def Prog.Within (B : Int) : Nat → Prog → (Nat → GInt) → Prop
  | 0, _, _ => True
  | _ + 1, .skip, _ => True
  | _ + 1, .assign _ e, σ => e.Within B σ
  | n + 1, .seq p q, σ => Within B n p σ ∧ ∀ σ', p.run n σ = some (.ok σ') → Within B n q σ'
  | n + 1, .ite t p q, σ => t.Within B σ ∧ (t.run σ = .ok true → Within B n p σ) ∧ (t.run σ = .ok false → Within B n q σ)
  | n + 1, .while t p, σ => t.Within B σ ∧ (t.run σ = .ok true → Within B n p σ ∧
      ∀ σ', p.run n σ = some (.ok σ') → Within B n (.while t p) σ')

end GProg
end NumIrr
