/-
C131 over primitive integers, in a range: no overflow, in both kinds of build.
-/
import Verif.Spec.SurdProgRange
import Verif.Props.SurdProg
import Verif.Props.FixedSurd
import Verif.Lemmas.SurdReach

namespace NumIrr
namespace SProg
open Surd

/-- in the range, and stored as the library stores its numbers -/
def OkAll (cfg : Cfg) (B : ℤ) (σ : Nat → Surd) : Prop := ∀ i, (σ i).Small B ∧ (σ i).Ok cfg

private theorem expr_ok (cfg : Cfg) (σ : Nat → Surd) (hσ : ∀ i, (σ i).Ok cfg) (e : Expr) {s : Surd} (h : e.run cfg σ = .ok s) :
    s.Ok cfg := by
  induction e generalizing s with
  | var i => cases h; exact hσ i
  | lit a b c r => exact (new_good h).ok
  | op1 o e ih =>
    obtain ⟨u, hu, h⟩ := bind_ok_inv h
    cases o with
    | neg => cases h; exact neg_ok (ih hu)
    | recip => exact (recip_good h).ok
    | floor => exact (floor_good h).ok
    | addI k => exact (fromCoeffs_good h).ok
    | subI k => exact (fromCoeffs_good h).ok
    | mulI k => exact (fromCoeffs_good h).ok
    | divI k => exact (fromCoeffs_good h).ok
    | addR k => exact (fromCoeffs_good h).ok
    | subR k => exact (fromCoeffs_good h).ok
    | mulR k => exact (fromCoeffs_good h).ok
    | divR k => exact (fromCoeffs_good h).ok
  | op2 o e f ihe ihf =>
    obtain ⟨u, -, h⟩ := bind_ok_inv h
    obtain ⟨v, -, h⟩ := bind_ok_inv h
    cases o with
    | add => exact (add_good h).ok
    | sub => exact (sub_good h).ok
    | mul => exact (mul_good h).ok
    | div => exact (div_good h).ok

section
variable {x : Fx} {cfg : Cfg} {B : ℤ} (hB : 1 ≤ B) (hx : 5 * B ^ 10 < 2 ^ (x.w - 1))
include hB hx

private theorem bounds : B < 2 ^ (x.w - 1) ∧ 2 * B ^ 2 < 2 ^ (x.w - 1) ∧ 5 * B ^ 3 < 2 ^ (x.w - 1) ∧
    B ^ 3 < 2 ^ (x.w - 1) ∧ 4 * B ^ 4 < 2 ^ (x.w - 1) ∧ B ^ 5 < 2 ^ (x.w - 1) ∧ 4 * B ^ 6 < 2 ^ (x.w - 1) := by
  have h (k : ℕ) (hk : k ≤ 10) : B ^ k ≤ B ^ 10 := pow_le_pow_right₀ hB hk
  have h1 := h 1 (by norm_num)
  rw [pow_one] at h1
  have h0 : 0 < B ^ 10 := by positivity
  refine ⟨?_, ?_, ?_, ?_, ?_, ?_, ?_⟩ <;>
    linarith [h 2 (by norm_num), h 3 (by norm_num), h 4 (by norm_num), h 5 (by norm_num), h 6 (by norm_num)]

private theorem op1_range (o : Op1) (ho : o.Within B) {s : Surd} (hs : s.Small B) : o.runFx x cfg s = o.run cfg s := by
  obtain ⟨h1, h2, -, h4, -⟩ := fixed_unary_safe x cfg s B hB hs
  obtain ⟨b1, -, b3, -, b4, -, b6⟩ := bounds hB hx
  cases o with
  | neg => exact (h2 b1).2
  | recip => exact h1 b6
  | floor => exact h4 b3
  | addI k => exact (fixed_int_safe x cfg s k B hB hs ho b4).1
  | subI k => exact (fixed_int_safe x cfg s k B hB hs ho b4).2.1
  | mulI k => exact (fixed_int_safe x cfg s k B hB hs ho b4).2.2.1
  | divI k => exact (fixed_int_safe x cfg s k B hB hs ho b4).2.2.2
  | addR q => exact (fixed_rat_safe x cfg s q B hB hs ho.1 ho.2 b4).1
  | subR q => exact (fixed_rat_safe x cfg s q B hB hs ho.1 ho.2 b4).2.1
  | mulR q => exact (fixed_rat_safe x cfg s q B hB hs ho.1 ho.2 b4).2.2.1
  | divR q => exact (fixed_rat_safe x cfg s q B hB hs ho.1 ho.2 b4).2.2.2

private theorem op2_range (o : Op2) {u v : Surd} (hu : u.Small B) (hv : v.Small B) (gv : v.Ok cfg) :
    o.runFx x cfg u v = o.run cfg u v := by
  obtain ⟨-, -, -, -, b4, -, -⟩ := bounds hB hx
  obtain ⟨h1, h2, h3⟩ := fixed_arith_safe x cfg u v B hB hu hv b4
  cases o with
  | add => exact h1
  | sub => exact h2
  | mul => exact h3
  | div => exact fixed_div_safe x cfg u v B hB hu hv gv (by have : 0 < B ^ 10 := by positivity
                                                            linarith)

private theorem expr_range (σ : Nat → Surd) (hσ : OkAll cfg B σ) (e : Expr) (he : e.Within cfg B σ) :
    e.runFx x cfg σ = e.run cfg σ ∧ ∀ v, e.run cfg σ = .ok v → v.Small B := by
  induction e with
  | var i => exact ⟨rfl, fun v h => by cases h; exact (hσ i).1⟩
  | lit a b c r => exact ⟨fixed_new_safe x cfg a b c r B hB he.1 (bounds hB hx).2.1, he.2⟩
  | op1 o e ih =>
    obtain ⟨h1, h2⟩ := ih he.2.1
    refine ⟨?_, he.2.2⟩
    simp only [Expr.runFx, Expr.run, h1]
    cases hu : e.run cfg σ with
    | error p => rfl
    | ok u => exact op1_range hB hx o he.1 (h2 u hu)
  | op2 o e f ihe ihf =>
    obtain ⟨h1, h2⟩ := ihe he.1
    obtain ⟨k1, k2⟩ := ihf he.2.1
    refine ⟨?_, he.2.2⟩
    simp only [Expr.runFx, Expr.run, h1, k1]
    cases hu : e.run cfg σ with
    | error p => rfl
    | ok u =>
      cases hv : f.run cfg σ with
      | error p => rfl
      | ok v => exact op2_range hB hx o (h2 u hu) (k2 v hv) (expr_ok cfg σ (fun i => (hσ i).2) f hv)

private theorem test_range (σ : Nat → Surd) (hσ : OkAll cfg B σ) (t : Test) (ht : t.Within cfg B σ) :
    t.runFx x cfg σ = t.run cfg σ := by
  induction t with
  | positive e =>
    obtain ⟨h1, h2⟩ := expr_range hB hx σ hσ e ht
    simp only [Test.runFx, Test.run, h1]
    cases hu : e.run cfg σ with
    | error p => rfl
    | ok u => exact ((fixed_unary_safe x cfg u B hB (h2 u hu)).2.2.2.2.2 (bounds hB hx).2.2.2.1).1
  | negative e =>
    obtain ⟨h1, h2⟩ := expr_range hB hx σ hσ e ht
    simp only [Test.runFx, Test.run, h1]
    cases hu : e.run cfg σ with
    | error p => rfl
    | ok u => exact ((fixed_unary_safe x cfg u B hB (h2 u hu)).2.2.2.2.2 (bounds hB hx).2.2.2.1).2
  | zero e => simp only [Test.runFx, Test.run, (expr_range hB hx σ hσ e ht).1]
  | one e => simp only [Test.runFx, Test.run, (expr_range hB hx σ hσ e ht).1]
  | rational e => simp only [Test.runFx, Test.run, (expr_range hB hx σ hσ e ht).1]
  | integer e => simp only [Test.runFx, Test.run, (expr_range hB hx σ hσ e ht).1]
  | equal e f =>
    obtain ⟨h1, h2⟩ := expr_range hB hx σ hσ e ht.1
    obtain ⟨k1, k2⟩ := expr_range hB hx σ hσ f ht.2
    simp only [Test.runFx, Test.run, h1, k1]
    cases hu : e.run cfg σ with
    | error p => rfl
    | ok u =>
      cases hv : f.run cfg σ with
      | error p => rfl
      | ok v => exact fixed_eq_safe x u v B hB (h2 u hu) (k2 v hv) (bounds hB hx).2.2.2.2.2.1
  | not t ih => simp only [Test.runFx, Test.run, ih ht]
  | and t u iht ihu =>
    simp only [Test.runFx, Test.run, iht ht.1]
    cases hb : t.run cfg σ with
    | error p => rfl
    | ok b =>
      cases b with
      | true => exact ihu (ht.2 hb)
      | false => rfl

private theorem prog_range (n : ℕ) (p : Prog) (σ : Nat → Surd) (hσ : OkAll cfg B σ) (hp : p.Within cfg B n σ) :
    p.runFx x cfg n σ = p.run cfg n σ ∧ ∀ σ', p.run cfg n σ = some (.ok σ') → OkAll cfg B σ' := by
  induction n generalizing p σ with
  | zero => exact ⟨rfl, fun _ h => by cases h⟩
  | succ n ih =>
    cases p with
    | skip => exact ⟨rfl, fun σ' h => by cases h; exact hσ⟩
    | assign i e =>
      obtain ⟨h1, h2⟩ := expr_range hB hx σ hσ e hp
      simp only [Prog.runFx, Prog.run, h1]
      cases hv : e.run cfg σ with
      | error p => exact ⟨trivial, fun _ h => by cases h⟩
      | ok v =>
        refine ⟨trivial, fun σ' h j => ?_⟩
        cases h
        by_cases hj : j = i
        · subst hj; simpa using ⟨h2 v hv, expr_ok cfg σ (fun i => (hσ i).2) e hv⟩
        · simpa [hj] using hσ j
    | seq p q =>
      obtain ⟨h1, h2⟩ := ih p σ hσ hp.1
      simp only [Prog.runFx, Prog.run, h1]
      cases e : p.run cfg n σ with
      | none => exact ⟨rfl, fun _ h => by cases h⟩
      | some r =>
        cases r with
        | error p => exact ⟨rfl, fun _ h => by cases h⟩
        | ok σ1 => exact ih q σ1 (h2 σ1 e) (hp.2 σ1 e)
    | ite t p q =>
      simp only [Prog.runFx, Prog.run, test_range hB hx σ hσ t hp.1]
      cases e : t.run cfg σ with
      | error p => exact ⟨rfl, fun _ h => by cases h⟩
      | ok b =>
        cases b with
        | true => exact ih p σ hσ (hp.2.1 e)
        | false => exact ih q σ hσ (hp.2.2 e)
    | «while» t p =>
      simp only [Prog.runFx, Prog.run, test_range hB hx σ hσ t hp.1]
      cases e : t.run cfg σ with
      | error p => exact ⟨rfl, fun _ h => by cases h⟩
      | ok b =>
        cases b with
        | false => exact ⟨rfl, fun σ' h => by cases h; exact hσ⟩
        | true =>
          obtain ⟨g1, g2⟩ := hp.2 e
          obtain ⟨h1, h2⟩ := ih p σ hσ g1
          simp only [h1]
          cases e : p.run cfg n σ with
          | none => exact ⟨rfl, fun _ h => by cases h⟩
          | some r =>
            cases r with
            | error p => exact ⟨rfl, fun _ h => by cases h⟩
            | ok σ1 => exact ih _ σ1 (h2 σ1 e) (g2 σ1 e)

/-- **C131** (primitive integers) With or without overflow checks, and with all operations: if all numbers a run comes by have
fields of at most `B`, and `5 B¹⁰` fits, the program does what it does with arbitrary precision. -/
theorem prog_fixed_range (n : ℕ) (p : Prog) (σ : Nat → Surd) (hσ : OkAll cfg B σ) (hp : p.Within cfg B n σ) :
    p.runFx x cfg n σ = p.run cfg n σ := (prog_range hB hx n p σ hσ hp).1

/-- So, over one real field or without `==`, what it has done when it ends is what real numbers do. -/
theorem prog_fixed_range_value (hcx : cfg.complex = false) (n : ℕ) (p : Prog) (σ σ' : Nat → Surd)
    (ho : p.NoEq ∨ ∃ d, Squarefree d ∧ Field d σ ∧ p.Over d) (hσ : ∀ i, (σ i).Small B ∧ (σ i).RealOk)
    (hp : p.Within cfg B n σ) (h : p.runFx x cfg n σ = some (.ok σ')) :
    p.Runs (vals σ) (vals σ') ∧ ∀ ρ, p.Runs (vals σ) ρ → ρ = vals σ' := by
  have h1 := prog_fixed_range hB hx n p σ (fun i => ⟨(hσ i).1, (hσ i).2.toOk cfg⟩) hp
  obtain ⟨-, hr, -⟩ := prog_core cfg hcx n p σ σ' (fun i => (hσ i).2) ho (h1 ▸ h)
  exact ⟨hr, fun ρ hρ => runs_unique hρ hr⟩
end

/-- `i32` without checks: the golden ratio, squared if it is positive -/
def goldProg : Prog :=
  .seq (.assign 0 (.lit 1 1 2 5)) (.ite (.positive (.var 0)) (.assign 1 (.op2 .mul (.var 0) (.var 0))) .skip)

example : (5 : ℤ) * 5 ^ 10 < 2 ^ (32 - 1) ∧ goldProg.NoEq ∧ goldProg.Within ⟨false, false⟩ 5 5 (fun _ => Surd.zero) ∧
    look (goldProg.runFx ⟨32, false⟩ ⟨false, false⟩ 5 fun _ => Surd.zero) 1 = some (.ok ⟨3, 1, 2, 5⟩) := by
  have key : (Expr.lit 1 1 2 5).run ⟨false, false⟩ (fun _ => Surd.zero) = .ok ⟨1, 1, 2, 5⟩ := by decide +kernel
  refine ⟨by norm_num, ⟨trivial, trivial, trivial, trivial⟩, ⟨⟨by unfold Surd.Small; decide, fun v h => ?_⟩, fun σ' hs =>
    ⟨trivial, fun _ => ⟨trivial, trivial, fun v h => ?_⟩, fun _ => trivial⟩⟩, by decide +kernel⟩
  · rw [key] at h
    cases h
    unfold Surd.Small; decide
  · simp only [Prog.run, key] at hs
    cases hs
    have : (Expr.op2 .mul (.var 0) (.var 0)).run ⟨false, false⟩ (Function.update (fun _ => Surd.zero) 0 ⟨1, 1, 2, 5⟩) =
        .ok ⟨3, 1, 2, 5⟩ := by decide +kernel
    rw [this] at h
    cases h
    unfold Surd.Small; decide

/-! ### A loop

For a given program and state the condition can be computed. -/

instance decOk {α : Type} {P : α → Prop} [∀ v, Decidable (P v)] : (r : Res α) → Decidable (∀ v, r = .ok v → P v)
  | .ok v => decidable_of_iff (P v) ⟨fun h _ e => by cases e; exact h, fun h => h v rfl⟩
  | .error _ => .isTrue fun _ h => by cases h

instance decSomeOk {α : Type} {P : α → Prop} [∀ v, Decidable (P v)] :
    (r : Option (Res α)) → Decidable (∀ v, r = some (.ok v) → P v)
  | some (.ok v) => decidable_of_iff (P v) ⟨fun h _ e => by cases e; exact h, fun h => h v rfl⟩
  | some (.error _) => .isTrue fun _ h => by cases h
  | none => .isTrue fun _ h => by cases h

instance (B : ℤ) (s : Surd) : Decidable (s.Small B) := by unfold Surd.Small; infer_instance

instance (B : ℤ) (o : Op1) : Decidable (o.Within B) := by cases o <;> unfold Op1.Within <;> infer_instance

instance decExpr (cfg : Cfg) (B : ℤ) (σ : Nat → Surd) : (e : Expr) → Decidable (e.Within cfg B σ)
  | .var _ => .isTrue trivial
  | .lit _ _ _ _ => by unfold Expr.Within; infer_instance
  | .op1 _ e => by
    have := decExpr cfg B σ e
    unfold Expr.Within; infer_instance
  | .op2 _ e f => by
    have := decExpr cfg B σ e
    have := decExpr cfg B σ f
    unfold Expr.Within; infer_instance

instance decTest (cfg : Cfg) (B : ℤ) (σ : Nat → Surd) : (t : Test) → Decidable (t.Within cfg B σ)
  | .positive e | .negative e | .zero e | .one e | .rational e | .integer e => decExpr cfg B σ e
  | .equal e f => by unfold Test.Within; infer_instance
  | .not t => decTest cfg B σ t
  | .and t u => by
    have := decTest cfg B σ t
    have := decTest cfg B σ u
    unfold Test.Within; infer_instance

instance decProg (cfg : Cfg) (B : ℤ) : (n : ℕ) → (p : Prog) → (σ : Nat → Surd) → Decidable (p.Within cfg B n σ)
  | 0, _, _ => .isTrue trivial
  | _ + 1, .skip, _ => .isTrue trivial
  | _ + 1, .assign _ e, σ => decExpr cfg B σ e
  | n + 1, .seq p q, σ => by
    have := decProg cfg B n p σ
    have := decProg cfg B n q
    unfold Prog.Within; infer_instance
  | n + 1, .ite t p q, σ => by
    have := decProg cfg B n p σ
    have := decProg cfg B n q σ
    unfold Prog.Within; infer_instance
  | n + 1, .while t p, σ => by
    have := decProg cfg B n p σ
    have := decProg cfg B n (.while t p)
    unfold Prog.Within; infer_instance

/-- `√14 = [3; 1, 2, 1, 6, …]` over `i64` without checks: the loop looking for the 6 stays below 20 -/
example : (5 : ℤ) * 20 ^ 10 < 2 ^ (64 - 1) ∧ sample.Within ⟨false, false⟩ 20 20 (fun _ => Surd.zero) ∧
    ¬ sample.Within ⟨false, false⟩ 10 20 (fun _ => Surd.zero) ∧
    look (sample.runFx ⟨64, false⟩ ⟨false, false⟩ 20 fun _ => Surd.zero) 1 = some (.ok ⟨6, 0, 1, 0⟩) :=
  ⟨by norm_num, by decide +kernel, by decide +kernel, by decide +kernel⟩

end SProg
end NumIrr
