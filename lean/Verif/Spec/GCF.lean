/-
Generalized continued fractions `b₁ + a₂/(b₂ + a₃/(b₃ + …))`, given by the sequence of pairs `(aₖ, bₖ)`; their
finite nested fractions, their values, and sequences of outputs of an iterator.
-/
import Mathlib.Topology.Instances.Real.Lemmas

namespace NumIrr

open Filter Topology

/-- drop the first pair -/
def shiftG (g : ℕ → ℤ × ℤ) : ℕ → ℤ × ℤ := fun k => g (k + 1)

/-- the nested fraction `b₀ + a₁/(b₁ + a₂/(… + aₙ/bₙ))`; `none` if one of the divisors is zero -/
def nest : (ℕ → ℤ × ℤ) → ℕ → Option ℚ
  | g, 0 => some ((g 0).2 : ℚ)
  | g, n + 1 =>
    match nest (shiftG g) n with
    | none => none
    | some t => if t = 0 then none else some ((g 0).2 + (g 1).1 / t)

/-- all partial numerators and denominators are positive, except that `b₀` may be `0`; `a₀ = 1` as the documentation
of the library demands -/
def PosG (g : ℕ → ℤ × ℤ) : Prop :=
  (g 0).1 = 1 ∧ 0 ≤ (g 0).2 ∧ ∀ k, 1 ≤ (g (k + 1)).1 ∧ 1 ≤ (g (k + 1)).2

/-- the generalized continued fraction converges to `x` -/
def GVal (g : ℕ → ℤ × ℤ) (x : ℝ) : Prop :=
  ∃ v : ℕ → ℚ, (∀ᶠ n in atTop, nest g n = some (v n)) ∧ Tendsto (fun n => (v n : ℝ)) atTop (𝓝 x)

/-- `[i₀; i₁, …, iₙ₋₁, z]` -/
noncomputable def nestVal : List ℤ → ℝ → ℝ
  | [], z => z
  | i :: l, z => i + 1 / nestVal l z

/-- the same in homogeneous coordinates: `[i₀; i₁, …, iₙ₋₁, u/v]` as a pair (numerator, denominator) -/
def nestPair : List ℤ → ℝ × ℝ → ℝ × ℝ
  | [], v => v
  | i :: l, v => (i * (nestPair l v).1 + (nestPair l v).2, (nestPair l v).1)

/-- `Outs step s l s'`: starting from `s`, successive calls yield the items `l` and lead to the state `s'` -/
inductive Outs {σ β : Type} (step : σ → β → σ → Prop) : σ → List β → σ → Prop
  | nil (s : σ) : Outs step s [] s
  | snoc {s s' s'' : σ} {l : List β} {i : β} : Outs step s l s' → step s' i s'' → Outs step s (l ++ [i]) s''

end NumIrr
