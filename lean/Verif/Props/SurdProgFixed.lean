/-
C131: programs over surds with primitive integers, step by step.
-/
import Verif.Props.SurdProg

namespace NumIrr
namespace SProg
open Surd Fx

private theorem bind_ref {α β : Type} {r a : Res α} {f g : α → Res β} (h : Refines r a) (k : ∀ v, Refines (f v) (g v)) :
    Refines (r >>= f) (a >>= g) := by
  rcases h with h | h
  · rw [h]
    cases a with
    | ok v => exact k v
    | error e => exact .inl rfl
  · rw [h]; exact .inr rfl

private theorem expr_fixed_ref (x : Fx) (hc : x.checks = true) (cfg : Cfg) (σ : Nat → Surd) (e : Expr) :
    Refines (e.runFx x cfg σ) (e.run cfg σ) := by
  induction e with
  | var i => exact .inl rfl
  | lit a b c r => exact surdNew_ref hc cfg a b c r
  | op1 o e ih =>
    refine bind_ref ih fun s => ?_
    cases o with
    | neg => exact surdNeg_ref hc s
    | recip => exact recip_ref hc cfg s
    | floor => exact floor_ref hc cfg s
    | addI k => exact surdAddInt_ref hc cfg s k
    | subI k => exact surdSubInt_ref hc cfg s k
    | mulI k => exact surdMulInt_ref hc cfg s k
    | divI k => exact surdDivInt_ref hc cfg s k
    | addR k => exact surdAddRat_ref hc cfg s k
    | subR k => exact surdSubRat_ref hc cfg s k
    | mulR k => exact surdMulRat_ref hc cfg s k
    | divR k => exact surdDivRat_ref hc cfg s k
  | op2 o e f ihe ihf =>
    refine bind_ref ihe fun s => bind_ref ihf fun t => ?_
    cases o with
    | add => exact surdAdd_ref hc cfg s t
    | sub => exact surdSub_ref hc cfg s t
    | mul => exact surdMul_ref hc cfg s t
    | div => exact surdDiv_ref hc cfg s t

private theorem test_fixed_ref (x : Fx) (hc : x.checks = true) (cfg : Cfg) (σ : Nat → Surd) (t : Test) :
    Refines (t.runFx x cfg σ) (t.run cfg σ) := by
  induction t with
  | positive e => exact bind_ref (expr_fixed_ref x hc cfg σ e) fun s => isPositive_ref hc cfg s
  | negative e => exact bind_ref (expr_fixed_ref x hc cfg σ e) fun s => isNegative_ref hc cfg s
  | zero e => exact bind_ref (expr_fixed_ref x hc cfg σ e) fun _ => .inl rfl
  | one e => exact bind_ref (expr_fixed_ref x hc cfg σ e) fun _ => .inl rfl
  | rational e => exact bind_ref (expr_fixed_ref x hc cfg σ e) fun _ => .inl rfl
  | integer e => exact bind_ref (expr_fixed_ref x hc cfg σ e) fun _ => .inl rfl
  | equal e f => exact bind_ref (expr_fixed_ref x hc cfg σ e) fun u => bind_ref (expr_fixed_ref x hc cfg σ f) fun v => eq_ref hc u v
  | not t ih => exact bind_ref ih fun _ => .inl rfl
  | and t u iht ihu =>
    refine bind_ref iht fun b => ?_
    cases b with
    | true => exact ihu
    | false => exact .inl rfl

/-- **C131** (primitive integers) With overflow checks a program over a primitive integer type does, step by step, what it
does with arbitrary precision (the same panics included), or panics with an overflow; in particular it does not run on
where arbitrary precision would have stopped. -/
theorem prog_fixed_refines (x : Fx) (hc : x.checks = true) (cfg : Cfg) (n : Nat) (p : Prog) (σ : Nat → Surd) :
    RefinesO (p.runFx x cfg n σ) (p.run cfg n σ) := by
  induction n generalizing p σ with
  | zero => exact .inl rfl
  | succ n ih =>
    cases p with
    | skip => exact .inl rfl
    | assign i e =>
      simp only [Prog.run, Prog.runFx]
      rcases expr_fixed_ref x hc cfg σ e with h | h
      · rw [h]; exact .inl rfl
      · rw [h]; exact .inr rfl
    | seq p q =>
      simp only [Prog.run, Prog.runFx]
      rcases ih p σ with h | h
      · rw [h]
        cases p.run cfg n σ with
        | none => exact .inl rfl
        | some r =>
          cases r with
          | error e => exact .inl rfl
          | ok σ1 => exact ih q σ1
      · rw [h]; exact .inr rfl
    | ite t p q =>
      simp only [Prog.run, Prog.runFx]
      rcases test_fixed_ref x hc cfg σ t with h | h
      · rw [h]
        cases t.run cfg σ with
        | error e => exact .inl rfl
        | ok b =>
          cases b with
          | true => exact ih p σ
          | false => exact ih q σ
      · rw [h]; exact .inr rfl
    | «while» t p =>
      simp only [Prog.run, Prog.runFx]
      rcases test_fixed_ref x hc cfg σ t with h | h
      · rw [h]
        cases t.run cfg σ with
        | error e => exact .inl rfl
        | ok b =>
          cases b with
          | false => exact .inl rfl
          | true =>
            simp only
            rcases ih p σ with h | h
            · rw [h]
              cases p.run cfg n σ with
              | none => exact .inl rfl
              | some r =>
                cases r with
                | error e => exact .inl rfl
                | ok σ1 => exact ih _ σ1
            · rw [h]; exact .inr rfl
      · rw [h]; exact .inr rfl


example : let p : Prog := .seq (.assign 0 (.lit 1 9 2 7)) (.while (.not (.rational (.var 0)))
      (.assign 0 (.op2 .mul (.var 0) (.op1 (.subI 1) (.var 0)))))
    look (p.runFx ⟨16, true⟩ ⟨false, true⟩ 9 fun _ => Surd.zero) 0 = look (p.run ⟨false, true⟩ 9 fun _ => Surd.zero) 0 ∧
    look (p.run ⟨false, true⟩ 9 fun _ => Surd.zero) 0 = some (.ok ⟨283, 0, 2, 0⟩) ∧
    look (p.runFx ⟨8, true⟩ ⟨false, true⟩ 9 fun _ => Surd.zero) 0 = some (.error .overflow) := by
  decide +kernel

end SProg
end NumIrr
