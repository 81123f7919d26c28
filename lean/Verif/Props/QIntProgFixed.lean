/-
C149: programs over quadratic integers with primitive integers.
-/
import Verif.Lemmas.FixedQRef
import Verif.Props.QIntProg
import Verif.Spec.QIntProgFixed

namespace NumIrr
namespace QProg
open Fx

private theorem bind_ref {α β : Type} {r a : Res α} {f g : α → Res β} (h : Refines r a) (k : ∀ v, Refines (f v) (g v)) :
    Refines (r >>= f) (a >>= g) := by
  rcases h with h | h
  · rw [h]
    cases a with
    | ok v => exact k v
    | error e => exact .inl rfl
  · rw [h]; exact .inr rfl

private theorem expr_fixed (x : Fx) (hc : x.checks = true) (cfg : Cfg) (D : ℤ) (σ : Nat → QInt) (e : Expr) :
    Refines (e.runFx x cfg D σ) (e.run cfg D σ) := by
  induction e with
  | var i => exact .inl rfl
  | lit a b => exact qFromCoeffs_ref hc cfg _ _
  | op1 o e ih =>
    refine bind_ref ih fun u => ?_
    cases o with
    | neg => exact qNeg_ref hc u
    | conj => exact qConj_ref hc u
    | addI k => exact qAddInt_ref hc u k
    | subI k => exact qSubInt_ref hc u k
    | mulI k => exact qMulInt_ref hc u k
  | op2 o e f ihe ihf =>
    refine bind_ref ihe fun u => bind_ref ihf fun v => ?_
    cases o with
    | add => exact qAdd_ref hc cfg u v
    | sub => exact qSub_ref hc cfg u v
    | mul => exact qMul_ref hc cfg u v
    | div => exact qDiv_ref hc cfg u v

private theorem test_fixed (x : Fx) (hc : x.checks = true) (cfg : Cfg) (D : ℤ) (σ : Nat → QInt) (t : Test) :
    Refines (t.runFx x cfg D σ) (t.run cfg D σ) := by
  induction t with
  | zero e => exact bind_ref (expr_fixed x hc cfg D σ e) fun _ => .inl rfl
  | rational e => exact bind_ref (expr_fixed x hc cfg D σ e) fun _ => .inl rfl
  | equal e f => exact bind_ref (expr_fixed x hc cfg D σ e) fun u => bind_ref (expr_fixed x hc cfg D σ f) fun v => qEq_ref hc u v
  | not t ih => exact bind_ref ih fun _ => .inl rfl
  | and t u iht ihu =>
    refine bind_ref iht fun b => ?_
    cases b with
    | true => exact ihu
    | false => exact .inl rfl

/-- **C149** (primitive integers) With overflow checks a program over a primitive integer type does, step by step, what it
does with arbitrary precision, or panics with an overflow. -/
theorem fixed_qint_prog (x : Fx) (hc : x.checks = true) (cfg : Cfg) (D : ℤ) (n : Nat) (p : Prog) (σ : Nat → QInt) :
    RefinesO (p.runFx x cfg D n σ) (p.run cfg D n σ) := by
  induction n generalizing p σ with
  | zero => exact .inl rfl
  | succ n ih =>
    cases p with
    | skip => exact .inl rfl
    | assign i e =>
      simp only [Prog.run, Prog.runFx]
      rcases expr_fixed x hc cfg D σ e with h | h
      · rw [h]; exact .inl rfl
      · rw [h]; exact .inr rfl
    | seq p q =>
      simp only [Prog.run, Prog.runFx]
      rcases ih p σ with h | h
      · rw [h]
        cases p.run cfg D n σ with
        | none => exact .inl rfl
        | some r =>
          cases r with
          | error e => exact .inl rfl
          | ok σ1 => exact ih q σ1
      · rw [h]; exact .inr rfl
    | ite t p q =>
      simp only [Prog.run, Prog.runFx]
      rcases test_fixed x hc cfg D σ t with h | h
      · rw [h]
        cases t.run cfg D σ with
        | error e => exact .inl rfl
        | ok b =>
          cases b with
          | true => exact ih p σ
          | false => exact ih q σ
      · rw [h]; exact .inr rfl
    | «while» t p =>
      simp only [Prog.run, Prog.runFx]
      rcases test_fixed x hc cfg D σ t with h | h
      · rw [h]
        cases t.run cfg D σ with
        | error e => exact .inl rfl
        | ok b =>
          cases b with
          | false => exact .inl rfl
          | true =>
            simp only
            rcases ih p σ with h | h
            · rw [h]
              cases p.run cfg D n σ with
              | none => exact .inl rfl
              | some r =>
                cases r with
                | error e => exact .inl rfl
                | ok σ1 => exact ih _ σ1
            · rw [h]; exact .inr rfl
      · rw [h]; exact .inr rfl

/-- **C149** (primitive integers) partial: with overflow checks, a program over one ring that does not use both `/` and `==`
and finishes has done what it would have done with complex numbers.
Missing from the full claim: programs that use both, and programs that overflow. -/
theorem fixed_qint_prog_value_partial (x : Fx) (hc : x.checks = true) (cfg : Cfg) (D : ℤ) (hD : Usable cfg D) (p : Prog)
    (hp : p.NoDiv ∨ p.NoEq) (σ σ' : Nat → QInt) (hσ : ∀ i, (σ i).InRing cfg D) (n : Nat)
    (h : p.runFx x cfg D n σ = some (.ok σ')) : p.Runs D (vals σ) (vals σ') := by
  rcases fixed_qint_prog x hc cfg D n p σ with h' | h'
  · rw [h] at h'
    exact (qint_prog_partial cfg D hD p hp σ hσ _).2 ⟨σ', rfl, n, fun k hk => run_mono cfg D n p σ _ h'.symm k hk⟩
  · rw [h] at h'; cases h'

example : look (gcdOf.runFx ⟨16, true⟩ ⟨true, true⟩ (-3) 20 fun _ => QInt.zero) 0 = some (.ok ⟨-1, 1, -3⟩) ∧
    look (orderProg.runFx ⟨8, true⟩ ⟨true, true⟩ (-3) 20 fun _ => QInt.zero) 1 = some (.ok ⟨6, 0, 0⟩) := by
  decide +kernel

/-- the first power of `1 + ω` over the discriminant 5 that is rational: there is none -/
def powProg : Prog :=
  .seq (.assign 0 (.lit 1 1)) (.while (.not (.rational (.var 0))) (.assign 0 (.op2 .mul (.var 0) (.lit 1 1))))

private theorem pow_runs (t : Test) (q : Prog) (ht : t = .not (.rational (.var 0)))
    (hq : q = .assign 0 (.op2 .mul (.var 0) (.lit 1 1))) (p : Prog) (hp : p = .while t q) (ρ ρ' : Nat → ℂ)
    (h : p.Runs 5 ρ ρ') (hρ : ∃ a b : ℤ, 0 < a ∧ 0 < b ∧ ρ 0 = a + b * omegaC 5) : False := by
  have h5 : ¬ IsSquare (5 : ℤ) := by decide +kernel
  induction h with
  | skip => cases hp
  | assign => cases hp
  | seq => cases hp
  | iteTrue => cases hp
  | iteFalse => cases hp
  | whileTrue td th h1 h2 ih1 ih2 =>
    cases hp
    refine ih2 rfl ?_
    subst hq
    cases h1
    obtain ⟨a, b, ha, hb, e⟩ := hρ
    refine ⟨a + b, a + 2 * b, by omega, by omega, ?_⟩
    have hw : omegaC 5 * omegaC 5 = omegaC 5 + 1 := by
      have := omegaC_sq 5
      rw [if_pos (by decide)] at this
      rw [this]; norm_num; ring
    simp only [Function.update_self, Expr.num, Op2.num, e]
    push_cast
    linear_combination (b : ℂ) * hw
  | whileFalse td th =>
    cases hp
    subst ht
    obtain ⟨a, b, ha, hb, e⟩ := hρ
    refine th fun ⟨q, hq⟩ => ?_
    have hq : ((a : ℚ) : ℂ) + ((b : ℚ) : ℂ) * omegaC 5 = ((q : ℚ) : ℂ) + ((0 : ℚ) : ℂ) * omegaC 5 := by
      have : (a : ℂ) + b * omegaC 5 = q := by rw [← e]; exact hq
      push_cast; rw [this]; ring
    have := (omega_coeff_eq h5 hq).2
    have : b = 0 := by exact_mod_cast this
    omega

/-- **C149** (primitive integers) is false without overflow checks: no power of `1 + ω` over the discriminant 5 is rational,
but over `i8` the powers wrap around and the loop ends with the "rational" power -127; with checks it panics. -/
theorem fixed_qint_prog_refuted :
    look (powProg.runFx ⟨8, false⟩ ⟨false, false⟩ 5 100 fun _ => QInt.zero) 0 = some (.ok ⟨-127, 0, 0⟩) ∧
    look (powProg.runFx ⟨8, true⟩ ⟨false, true⟩ 5 100 fun _ => QInt.zero) 0 = some (.error .overflow) ∧
    ∀ ρ ρ', ¬ powProg.Runs 5 ρ ρ' := by
  refine ⟨by decide +kernel, by decide +kernel, fun ρ ρ' h => ?_⟩
  cases h with
  | seq h1 h2 =>
    cases h1
    exact pow_runs _ _ rfl rfl _ rfl _ _ h2 ⟨1, 1, by norm_num, by norm_num, by simp [Expr.num]⟩

end QProg
end NumIrr
