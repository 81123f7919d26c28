/-
What programs over quadratic integers (Spec/QIntProg.lean) do exactly, `/` and `==` together included: they work with complex
numbers that carry a mark, and `==` looks at the mark.
-/
import Verif.Spec.QIntProg

namespace NumIrr
namespace QProg
open Classical

/-- a number, and whether it still carries the discriminant -/
abbrev Num := ℂ × Bool

noncomputable def irr (z : ℂ) : Bool := decide (¬ ∃ q : ℚ, z = q)

/-- an operation with one number leaves the mark alone, but for a product with 0 -/
noncomputable def Op1.exact (D : ℤ) (o : Op1) (z : Num) : Num :=
  (o.num D z.1, z.2 && decide (∀ k, o = .mulI k → k ≠ 0))

/-- an irrational second operand renews the mark, a rational one leaves that of the first operand alone -/
noncomputable def Op2.exact (D : ℤ) (o : Op2) (z w : Num) : Res Num :=
  if o.Defined w.1 then
    .ok (o.num D z.1 w.1, if irr w.1 then irr (o.num D z.1 w.1) else z.2 && decide (o = .mul → w.1 ≠ 0))
  else .error .divZero

noncomputable def Expr.exact (D : ℤ) (ρ : Nat → Num) : Expr → Res Num
  | var i => .ok (ρ i)
  | lit a b => .ok (a + b * omegaC D, decide (b ≠ 0))
  | op1 o e => do pure (o.exact D (← e.exact D ρ))
  | op2 o e f => do o.exact D (← e.exact D ρ) (← f.exact D ρ)

noncomputable def Test.exact (D : ℤ) (ρ : Nat → Num) : Test → Res Bool
  | zero e => do pure (decide ((← e.exact D ρ).1 = 0))
  | rational e => do pure (!irr (← e.exact D ρ).1)
  | equal e f => do pure (decide ((← e.exact D ρ) = (← f.exact D ρ)))
  | not t => do pure (!(← t.exact D ρ))
  | and t u => do if (← t.exact D ρ) then u.exact D ρ else pure false

noncomputable def Prog.exact (D : ℤ) : Nat → Prog → (Nat → Num) → Option (Res (Nat → Num))
  | 0, _, _ => none
  | _ + 1, .skip, ρ => some (.ok ρ)
  | _ + 1, .assign i e, ρ =>
    match e.exact D ρ with
    | .error p => some (.error p)
    | .ok s => some (.ok (Function.update ρ i s))
  | n + 1, .seq p q, ρ =>
    match exact D n p ρ with
    | some (.ok ρ') => exact D n q ρ'
    | r => r
  | n + 1, .ite t p q, ρ =>
    match t.exact D ρ with
    | .error p => some (.error p)
    | .ok true => exact D n p ρ
    | .ok false => exact D n q ρ
  | n + 1, .while t p, ρ =>
    match t.exact D ρ with
    | .error p => some (.error p)
    | .ok false => some (.ok ρ)
    | .ok true =>
      match exact D n p ρ with
      | some (.ok ρ') => exact D n (.while t p) ρ'
      | r => r

end QProg
end NumIrr
