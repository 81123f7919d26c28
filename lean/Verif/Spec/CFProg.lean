/-
Programs with variables, branches and loops over finite continued fractions: what they do with the library, and what they
would do with rational numbers.
-/
import Verif.Spec.CFFormula
import Verif.Model.CFEq

namespace NumIrr
namespace CFProg

inductive Expr where
  | var (i : Nat)
  | lit (q : Rat)
  | neg (e : Expr)
  | num (o : NumOp) (e : Expr)
  | bin (o : BinOp) (e f : Expr)
  | addI (k : Int) (e : Expr)
  | subI (k : Int) (e : Expr)

/-- what a branch may ask -/
inductive Test where
  | zero (e : Expr) | one (e : Expr) | negative (e : Expr) | integer (e : Expr)
  | equal (e f : Expr)
  | not (t : Test)
  | and (t u : Test)

inductive Prog where
  | skip
  | assign (i : Nat) (e : Expr)
  | seq (p q : Prog)
  | ite (t : Test) (p q : Prog)
  | while (t : Test) (p : Prog)

/-! ### with rational numbers; the inner `none` is a division by zero -/

def quot (x y : Rat) : Option Rat := if y = 0 then none else some (x / y)

def numVal : NumOp → Rat → Option Rat
  | .mulInt k, x => some (x * k)
  | .divInt k, x => quot x k
  | .addRat k, x => some (x + k)
  | .subRat k, x => some (x - k)
  | .mulRat k, x => some (x * k)
  | .divRat k, x => quot x k

def binVal : BinOp → Rat → Rat → Option Rat
  | .add, x, y => some (x + y)
  | .sub, x, y => some (x - y)
  | .mul, x, y => some (x * y)
  | .div, x, y => quot x y

/-- how integers are added, and which numbers count as one -/
structure Rules where
  shift : Rat → Int → Rat
  one : Rat → Bool

/-- as they should be -/
def Rules.right : Rules := ⟨fun q k => q + k, fun q => decide (q = 1)⟩

/-- as they are: a positive number which becomes one between -1 and 0 loses its sign, and -1 counts as one -/
def Rules.actual : Rules :=
  ⟨fun q k => if 0 < q ∧ -1 < q + k ∧ q + k < 0 then -(q + k) else q + k, fun q => decide (q = 1 ∨ q = -1)⟩

def Expr.val (R : Rules) (ρ : Nat → Rat) : Expr → Option Rat
  | var i => some (ρ i)
  | lit q => some q
  | neg e => do return -(← e.val R ρ)
  | num o e => do numVal o (← e.val R ρ)
  | bin o e f => do binVal o (← e.val R ρ) (← f.val R ρ)
  | addI k e => do return R.shift (← e.val R ρ) k
  | subI k e => do return R.shift (← e.val R ρ) (-k)

def Test.val (R : Rules) (ρ : Nat → Rat) : Test → Option Bool
  | zero e => do return decide ((← e.val R ρ) = 0)
  | one e => do return R.one (← e.val R ρ)
  | negative e => do return decide ((← e.val R ρ) < 0)
  | integer e => do return decide ((← e.val R ρ).den = 1)
  | equal e f => do return decide ((← e.val R ρ) = (← f.val R ρ))
  | not t => do return !(← t.val R ρ)
  | and t u => do if (← t.val R ρ) then u.val R ρ else return false

/-- the outer `none`: not finished after `fuel` nested steps -/
def Prog.val (R : Rules) : Nat → Prog → (Nat → Rat) → Option (Option (Nat → Rat))
  | 0, _, _ => none
  | _ + 1, .skip, ρ => some (some ρ)
  | _ + 1, .assign i e, ρ =>
    match e.val R ρ with
    | none => some none
    | some q => some (some (Function.update ρ i q))
  | n + 1, .seq p q, ρ =>
    match val R n p ρ with
    | some (some ρ') => val R n q ρ'
    | r => r
  | n + 1, .ite t p q, ρ =>
    match t.val R ρ with
    | none => some none
    | some true => val R n p ρ
    | some false => val R n q ρ
  | n + 1, .while t p, ρ =>
    match t.val R ρ with
    | none => some none
    | some false => some (some ρ)
    | some true =>
      match val R n p ρ with
      | some (some ρ') => val R n (.while t p) ρ'
      | r => r

/-! ### programs without integers added or subtracted, and without `is_one` -/

def Expr.Plain : Expr → Prop
  | var _ | lit _ => True
  | neg e | num _ e => e.Plain
  | bin _ e f => e.Plain ∧ f.Plain
  | addI _ _ | subI _ _ => False

def Test.Plain : Test → Prop
  | zero e | negative e | integer e => e.Plain
  | one _ => False
  | equal e f => e.Plain ∧ f.Plain
  | not t => t.Plain
  | and t u => t.Plain ∧ u.Plain

def Prog.Plain : Prog → Prop
  | skip => True
  | assign _ e => e.Plain
  | seq p q => p.Plain ∧ q.Plain
  | ite t p q => t.Plain ∧ p.Plain ∧ q.Plain
  | .while t p => t.Plain ∧ p.Plain

/-! ### with the library -/

/-- one step after another, each of which may panic or not end -/
def andThen {α β : Type} (r : Option (Res α)) (k : α → Option (Res β)) : Option (Res β) :=
  match r with
  | none => none
  | some (.error e) => some (.error e)
  | some (.ok c) => k c

/-- literals are made by `From<Ratio>` -/
def Expr.run (cfg : Cfg) (fuel : Nat) (σ : Nat → CF) : Expr → Option (Res CF)
  | var i => some (.ok (σ i))
  | lit q => some (.ok (CF.ofRat q))
  | neg e => andThen (e.run cfg fuel σ) fun c => some (.ok c.neg')
  | num o e => andThen (e.run cfg fuel σ) fun c => o.run cfg fuel c
  | bin o e f => andThen (e.run cfg fuel σ) fun c => andThen (f.run cfg fuel σ) fun d => o.run cfg fuel c d
  | addI k e => andThen (e.run cfg fuel σ) fun c => some (c.addInt cfg.debug k)
  | subI k e => andThen (e.run cfg fuel σ) fun c => some (c.subInt cfg.debug k)

/-- `is_negative` (simple.rs:42-44) reads the flag -/
def Test.run (cfg : Cfg) (fuel : Nat) (σ : Nat → CF) : Test → Option (Res Bool)
  | zero e => andThen (e.run cfg fuel σ) fun c => some (.ok c.isZero)
  | one e => andThen (e.run cfg fuel σ) fun c => some (.ok c.isOne)
  | negative e => andThen (e.run cfg fuel σ) fun c => some (.ok c.neg)
  | integer e => andThen (e.run cfg fuel σ) fun c => some (.ok c.isInteger)
  | equal e f => andThen (e.run cfg fuel σ) fun c => andThen (f.run cfg fuel σ) fun d => some (.ok (c.eq d))
  | not t => andThen (t.run cfg fuel σ) fun b => some (.ok !b)
  | and t u => andThen (t.run cfg fuel σ) fun b => if b then u.run cfg fuel σ else some (.ok false)

/-- `none`: not finished after `n` nested steps, or one of them did not end within `fuel` rounds -/
def Prog.run (cfg : Cfg) (fuel : Nat) : Nat → Prog → (Nat → CF) → Option (Res (Nat → CF))
  | 0, _, _ => none
  | _ + 1, .skip, σ => some (.ok σ)
  | _ + 1, .assign i e, σ => andThen (e.run cfg fuel σ) fun c => some (.ok (Function.update σ i c))
  | n + 1, .seq p q, σ => andThen (run cfg fuel n p σ) fun σ' => run cfg fuel n q σ'
  | n + 1, .ite t p q, σ => andThen (t.run cfg fuel σ) fun b => if b then run cfg fuel n p σ else run cfg fuel n q σ
  | n + 1, .while t p, σ => andThen (t.run cfg fuel σ) fun b =>
      if b then andThen (run cfg fuel n p σ) fun σ' => run cfg fuel n (.while t p) σ' else some (.ok σ)

end CFProg
end NumIrr
