/-
Programs over finite continued fractions (Spec/CFProg.lean) of primitive integers.
-/
import Verif.Spec.CFProg

namespace NumIrr
namespace CFProg

def Expr.runFx (x : Fx) (cfg : Cfg) (fuel : Nat) (σ : Nat → CF) : Expr → Option (Res CF)
  | var i => some (.ok (σ i))
  | lit q => x.ofRat fuel (.of q)
  | neg e => andThen (e.runFx x cfg fuel σ) fun c => some (.ok c.neg')
  | num o e => andThen (e.runFx x cfg fuel σ) fun c => o.runFx x cfg fuel c
  | bin o e f => andThen (e.runFx x cfg fuel σ) fun c => andThen (f.runFx x cfg fuel σ) fun d => o.runFx x cfg fuel c d
  | addI k e => andThen (e.runFx x cfg fuel σ) fun c => some (x.addInt cfg.debug c k)
  | subI k e => andThen (e.runFx x cfg fuel σ) fun c => some (x.subInt cfg.debug c k)

/-- the questions themselves calculate nothing -/
def Test.runFx (x : Fx) (cfg : Cfg) (fuel : Nat) (σ : Nat → CF) : Test → Option (Res Bool)
  | zero e => andThen (e.runFx x cfg fuel σ) fun c => some (.ok c.isZero)
  | one e => andThen (e.runFx x cfg fuel σ) fun c => some (.ok c.isOne)
  | negative e => andThen (e.runFx x cfg fuel σ) fun c => some (.ok c.neg)
  | integer e => andThen (e.runFx x cfg fuel σ) fun c => some (.ok c.isInteger)
  | equal e f => andThen (e.runFx x cfg fuel σ) fun c => andThen (f.runFx x cfg fuel σ) fun d => some (.ok (c.eq d))
  | not t => andThen (t.runFx x cfg fuel σ) fun b => some (.ok !b)
  | and t u => andThen (t.runFx x cfg fuel σ) fun b => if b then u.runFx x cfg fuel σ else some (.ok false)

def Prog.runFx (x : Fx) (cfg : Cfg) (fuel : Nat) : Nat → Prog → (Nat → CF) → Option (Res (Nat → CF))
  | 0, _, _ => none
  | _ + 1, .skip, σ => some (.ok σ)
  | _ + 1, .assign i e, σ => andThen (e.runFx x cfg fuel σ) fun c => some (.ok (Function.update σ i c))
  | n + 1, .seq p q, σ => andThen (runFx x cfg fuel n p σ) fun σ' => runFx x cfg fuel n q σ'
  | n + 1, .ite t p q, σ => andThen (t.runFx x cfg fuel σ) fun b =>
      if b then runFx x cfg fuel n p σ else runFx x cfg fuel n q σ
  | n + 1, .while t p, σ => andThen (t.runFx x cfg fuel σ) fun b =>
      if b then andThen (runFx x cfg fuel n p σ) fun σ' => runFx x cfg fuel n (.while t p) σ' else some (.ok σ)

/-- both parts of the number can be written in a signed type of `w` bits -/
def FitsQ (w : Nat) (q : Rat) : Prop := -2 ^ (w - 1) ≤ q.num ∧ q.num < 2 ^ (w - 1) ∧ (q.den : Int) < 2 ^ (w - 1)

/-- the numbers written in the program can be written in the type (operands of a `NumOp` of the type always do, so
nothing is asked of them) -/
def Expr.Fits (w : Nat) : Expr → Prop
  | var _ => True
  | lit q => FitsQ w q
  | neg e | num _ e | addI _ e | subI _ e => e.Fits w
  | bin _ e f => e.Fits w ∧ f.Fits w

def Test.Fits (w : Nat) : Test → Prop
  | zero e | one e | negative e | integer e => e.Fits w
  | equal e f => e.Fits w ∧ f.Fits w
  | not t => t.Fits w
  | and t u => t.Fits w ∧ u.Fits w

def Prog.Fits (w : Nat) : Prog → Prop
  | skip => True
  | assign _ e => e.Fits w
  | seq p q => p.Fits w ∧ q.Fits w
  | ite t p q => t.Fits w ∧ p.Fits w ∧ q.Fits w
  | .while t p => t.Fits w ∧ p.Fits w

/-! ### programs that stay in a range: all numbers on the way have parts of at most `B` in absolute value -/

def Expr.Within (B : Int) (ρ : Nat → Rat) : Expr → Prop
  | var _ => True
  | lit q => RatSmall B q
  | neg e => e.Within B ρ
  | num o e => e.Within B ρ ∧ o.Small B ∧ ∀ v, (num o e).val .right ρ = some v → RatSmall B v
  | bin o e f => e.Within B ρ ∧ f.Within B ρ ∧ ∀ v, (bin o e f).val .right ρ = some v → RatSmall B v
  | addI _ e | subI _ e => e.Within B ρ

def Test.Within (B : Int) (ρ : Nat → Rat) : Test → Prop
  | zero e | one e | negative e | integer e => e.Within B ρ
  | equal e f => e.Within B ρ ∧ f.Within B ρ
  | not t => t.Within B ρ
  | and t u => t.Within B ρ ∧ (t.val .right ρ = some true → u.Within B ρ)

/-- only what the run comes by counts -/
def Prog.Within (B : Int) : Nat → Prog → (Nat → Rat) → Prop
  | 0, _, _ => True
  | _ + 1, .skip, _ => True
  | _ + 1, .assign _ e, ρ => e.Within B ρ
  | n + 1, .seq p q, ρ => Within B n p ρ ∧ ∀ ρ', p.val .right n ρ = some (some ρ') → Within B n q ρ'
  | n + 1, .ite t p q, ρ => t.Within B ρ ∧ (t.val .right ρ = some true → Within B n p ρ) ∧
      (t.val .right ρ = some false → Within B n q ρ)
  | n + 1, .while t p, ρ => t.Within B ρ ∧ (t.val .right ρ = some true → Within B n p ρ ∧
      ∀ ρ', p.val .right n ρ = some (some ρ') → Within B n (.while t p) ρ')

end CFProg
end NumIrr
