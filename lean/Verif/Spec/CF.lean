/-
What continued fractions denote, independently of the model's algorithms.
-/
import Mathlib.Data.Rat.Defs
import Mathlib.Data.Real.Basic
import Verif.Model.CF

namespace NumIrr

/-- The value of the finite continued fraction `[a₀; a₁, …]`; `none` stands for infinity.
The empty fraction is infinity, `a + 1/∞ = a`, `a + 1/0 = ∞`. -/
def cfVal : List Int → Option Rat
  | [] => none
  | a :: l =>
    match cfVal l with
    | none => some a
    | some y => if y = 0 then none else some (a + 1 / y)

/-- The `n`-th coefficient of the fraction with aperiodic part `a` and period `p`; `0` past the end. -/
def coeffAt {α : Type} [Zero α] (a p : List α) (n : Nat) : α :=
  if n < a.length then a.getD n 0 else p.getD ((n - a.length) % p.length) 0

/-- The first `n` coefficients of an infinite fraction. -/
def truncTo {α : Type} [Zero α] (a p : List α) (n : Nat) : List α := (List.range n).map (coeffAt a p)

/-- `x` is the value of the fraction `[a; (p)]`: the finite value if there is no period, otherwise the limit of
the values of its truncations. -/
def ValOf (a p : List Int) (x : ℝ) : Prop :=
  if p = [] then ∃ q : Rat, cfVal a = some q ∧ x = (q : ℝ)
  else ∀ ε : ℝ, 0 < ε → ∃ N : Nat, ∀ n, N ≤ n → ∃ q : Rat, cfVal (truncTo a p n) = some q ∧ |(q : ℝ) - x| < ε

/-- a list of naturals as integers -/
def toInts (l : List Nat) : List Int := List.map (fun n : Nat => (n : Int)) l

/-- negation according to a sign flag -/
def signed {α : Type} [Neg α] (neg : Bool) (x : α) : α := if neg then -x else x

/-- `x` is the value of the fraction `c`. -/
def CF.HasVal (c : CF) (x : ℝ) : Prop := ∃ y : ℝ, ValOf (toInts c.a) (toInts c.p) y ∧ x = signed c.neg y

/-- The value of a finite fraction (its period is ignored); `none` stands for infinity. -/
def CF.valQ (c : CF) : Option Rat := (cfVal (toInts c.a)).map (signed c.neg)

/-- A finite fraction in canonical form: there is a first coefficient, the others are positive, the last one is
not `1` unless it is the first, and zero has no sign. -/
def CF.Canonical (c : CF) : Prop :=
  c.p = [] ∧ c.a ≠ [] ∧ (∀ v ∈ c.a.tail, 1 ≤ v) ∧ (c.a.tail ≠ [] → c.a.getLastD 0 ≠ 1) ∧
  (c.a = [0] → c.neg = false)

/-- There is an `n`-th coefficient (counting from `0`). -/
def CF.HasCoeff (c : CF) (n : Nat) : Prop := c.p ≠ [] ∨ n < c.a.length

instance (c : CF) (n : Nat) : Decidable (c.HasCoeff n) := by unfold CF.HasCoeff; infer_instance

/-- A well-formed fraction, finite or periodic: there is a first coefficient and all later ones are positive. -/
def CF.Wf (c : CF) : Prop :=
  c.a ≠ [] ∧ (∀ v ∈ c.a.tail, 1 ≤ v) ∧ (∀ v ∈ c.p, 1 ≤ v)

/-- The true `n`-th convergent (counting from `0`): the value of the fraction cut after `n + 1` coefficients. -/
def CF.conv (c : CF) (n : Nat) : Option Rat :=
  (cfVal (truncTo (toInts c.a) (toInts c.p) (n + 1))).map (signed c.neg)

/-- A fraction in standard form: well-formed, and canonical if it is finite. -/
def CF.Std (c : CF) : Prop := c.Wf ∧ (c.p = [] → c.Canonical)

end NumIrr
