/-
C149 over primitive integers, in a range: no overflow, in both kinds of build.
-/
import Verif.Spec.QIntProgRange
import Verif.Props.QIntProgFixed

namespace NumIrr
namespace QProg

/-- in the range and over the ring -/
def OkAll (cfg : Cfg) (D B : ℤ) (σ : Nat → QInt) : Prop := ∀ i, (σ i).Small B ∧ Good cfg D false (σ i)

section
variable {x : Fx} {cfg : Cfg} {D B : ℤ} (hB : 1 ≤ B) (hx : 20 * B ^ 5 < 2 ^ (x.w - 1)) (hD : Usable cfg D) (hDB : |D| ≤ B)
include hB hx

private theorem bounds : 2 * B < 2 ^ (x.w - 1) ∧ 4 * B ^ 2 < 2 ^ (x.w - 1) ∧ 4 * B ^ 3 < 2 ^ (x.w - 1) ∧
    6 * B ^ 4 < 2 ^ (x.w - 1) := by
  have h1 : B ≤ B ^ 2 := by nlinarith
  have h2 : B ^ 2 ≤ B ^ 3 := pow_le_pow_right₀ hB (by norm_num)
  have h3 : B ^ 3 ≤ B ^ 4 := pow_le_pow_right₀ hB (by norm_num)
  have h4 : B ^ 4 ≤ B ^ 5 := pow_le_pow_right₀ hB (by norm_num)
  refine ⟨?_, ?_, ?_, ?_⟩ <;> linarith

private theorem op1_range (o : Op1) (ho : o.Within B) {u : QInt} (hu : u.Small B) : o.runFx x u = o.run u := by
  obtain ⟨-, h1, -⟩ := fixed_qint_unary_safe x ⟨true, true⟩ u u B hB hu hu
  obtain ⟨b1, b2, -⟩ := bounds hB hx
  cases o with
  | neg => exact (h1 b1).2
  | conj => exact (h1 b1).1
  | addI k =>
    refine Fx.run_eq (f := fun y => y.qAddInt u k) (Q := fun _ => True) (fun _ hy => Fx.qAddInt_ref hy u k) (fun _ hy => Fx.qAddInt_rel hy u k) ?_
    unfold Fx.qAddInt Fx.qcAddInt
    exact ((Fx.add_safe (x := ⟨x.w, true⟩) b1 hu.1 ho (by linarith)).bind (Q := fun _ => True) fun _ _ => Safe.pure trivial).bind
      fun _ _ => Safe.pure trivial
  | subI k =>
    refine Fx.run_eq (f := fun y => y.qSubInt u k) (Q := fun _ => True) (fun _ hy => Fx.qSubInt_ref hy u k) (fun _ hy => Fx.qSubInt_rel hy u k) ?_
    unfold Fx.qSubInt Fx.qcSubInt
    exact ((Fx.sub_safe (x := ⟨x.w, true⟩) b1 hu.1 ho (by linarith)).bind (Q := fun _ => True) fun _ _ => Safe.pure trivial).bind
      fun _ _ => Safe.pure trivial
  | mulI k =>
    exact Fx.run_eq (f := fun y => y.qMulInt u k) (fun _ hy => Fx.qMulInt_ref hy u k) (fun _ hy => Fx.qMulInt_rel hy u k)
      (Fx.qMulInt_safe (x := ⟨x.w, true⟩) b2 hu.1 hu.2.1 ho (by nlinarith))

private theorem op2_range (o : Op2) {u v : QInt} (hu : u.Small B) (hv : v.Small B) (gu : Good cfg D false u)
    (gv : Good cfg D false v) : o.runFx x cfg u v = o.run cfg u v := by
  have hd : u.d = v.d ∨ u.b = 0 ∨ v.b = 0 := by
    by_cases h1 : u.b = 0
    · exact .inr (.inl h1)
    by_cases h2 : v.b = 0
    · exact .inr (.inr h2)
    exact .inl ((gu.discr h1).trans (gv.discr h2).symm)
  obtain ⟨h1, h2, h3, -⟩ := fixed_qint_arith_safe x cfg u v B hB hu hv hd
  obtain ⟨-, b2, -, b4⟩ := bounds hB hx
  cases o with
  | add => exact (h1 b2).1
  | sub => exact (h1 b2).2
  | mul => exact h2 b4
  | div => exact h3 hx

include hD hDB

private theorem lit_range {a b : ℤ} (ha : |a| ≤ B) (hb : |b| ≤ B) :
    x.qFromCoeffs cfg ⟨a, b⟩ D = QInt.fromCoeffs cfg ⟨a, b⟩ D ∧ ∀ v, QInt.fromCoeffs cfg ⟨a, b⟩ D = .ok v → v.Small B := by
  obtain ⟨-, b2, -⟩ := bounds hB hx
  constructor
  · exact Fx.run_eq (f := fun y => y.qFromCoeffs cfg ⟨a, b⟩ D) (fun _ hy => Fx.qFromCoeffs_ref hy cfg _ D)
      (fun _ hy => Fx.qFromCoeffs_rel hy cfg _ D)
      (Fx.qFromCoeffs_safe (x := ⟨x.w, true⟩) (A := B) (S := B) b2 cfg ⟨ha, hb⟩ hB (by nlinarith) (by nlinarith) (by nlinarith))
  · intro v h
    rw [QInt.fromCoeffs_eq hD.real hD.mod4 hD.notSquare] at h
    cases h
    split
    · exact ⟨ha, by simp; linarith, by simp; linarith⟩
    · exact ⟨ha, hb, hDB⟩

private theorem expr_range (σ : Nat → QInt) (hσ : OkAll cfg D B σ) (e : Expr) (he : e.Within cfg D B σ) :
    e.runFx x cfg D σ = e.run cfg D σ ∧ ∀ v, e.run cfg D σ = .ok v → v.Small B := by
  induction e with
  | var i => exact ⟨rfl, fun v h => by cases h; exact (hσ i).1⟩
  | lit a b => exact lit_range hB hx hD hDB he.1 he.2
  | op1 o e ih =>
    obtain ⟨h1, h2⟩ := ih he.2.1
    refine ⟨?_, he.2.2⟩
    simp only [Expr.runFx, Expr.run, h1]
    cases hu : e.run cfg D σ with
    | error p => rfl
    | ok u => exact op1_range hB hx o he.1 (h2 u hu)
  | op2 o e f ihe ihf =>
    obtain ⟨h1, h2⟩ := ihe he.1
    obtain ⟨k1, k2⟩ := ihf he.2.1
    refine ⟨?_, he.2.2⟩
    simp only [Expr.runFx, Expr.run, h1, k1]
    cases hu : e.run cfg D σ with
    | error p => rfl
    | ok u =>
      cases hv : f.run cfg D σ with
      | error p => rfl
      | ok v =>
        exact op2_range hB hx o (h2 u hu) (k2 v hv) (expr_good hD (fun i => (hσ i).2) e hu)
          (expr_good hD (fun i => (hσ i).2) f hv)

private theorem test_range (σ : Nat → QInt) (hσ : OkAll cfg D B σ) (t : Test) (ht : t.Within cfg D B σ) :
    t.runFx x cfg D σ = t.run cfg D σ := by
  induction t with
  | zero e => simp only [Test.runFx, Test.run, (expr_range hB hx hD hDB σ hσ e ht).1]
  | rational e => simp only [Test.runFx, Test.run, (expr_range hB hx hD hDB σ hσ e ht).1]
  | equal e f =>
    obtain ⟨h1, h2⟩ := expr_range hB hx hD hDB σ hσ e ht.1
    obtain ⟨k1, k2⟩ := expr_range hB hx hD hDB σ hσ f ht.2
    simp only [Test.runFx, Test.run, h1, k1]
    cases hu : e.run cfg D σ with
    | error p => rfl
    | ok u =>
      cases hv : f.run cfg D σ with
      | error p => rfl
      | ok v => exact (fixed_qint_unary_safe x cfg u v B hB (h2 u hu) (k2 v hv)).2.2.2 (bounds hB hx).2.2.1
  | not t ih => simp only [Test.runFx, Test.run, ih ht]
  | and t u iht ihu =>
    simp only [Test.runFx, Test.run, iht ht.1]
    cases hb : t.run cfg D σ with
    | error p => rfl
    | ok b =>
      cases b with
      | true => exact ihu (ht.2 hb)
      | false => rfl

private theorem prog_range (n : ℕ) (p : Prog) (σ : Nat → QInt) (hσ : OkAll cfg D B σ) (hp : p.Within cfg D B n σ) :
    p.runFx x cfg D n σ = p.run cfg D n σ ∧ ∀ σ', p.run cfg D n σ = some (.ok σ') → OkAll cfg D B σ' := by
  induction n generalizing p σ with
  | zero => exact ⟨rfl, fun _ h => by cases h⟩
  | succ n ih =>
    cases p with
    | skip => exact ⟨rfl, fun σ' h => by cases h; exact hσ⟩
    | assign i e =>
      obtain ⟨h1, h2⟩ := expr_range hB hx hD hDB σ hσ e hp
      simp only [Prog.runFx, Prog.run, h1]
      cases hv : e.run cfg D σ with
      | error p => exact ⟨rfl, fun _ h => by cases h⟩
      | ok v =>
        refine ⟨rfl, fun σ' h j => ?_⟩
        cases h
        by_cases hj : j = i
        · subst hj; simpa using ⟨h2 v hv, expr_good hD (fun i => (hσ i).2) e hv⟩
        · simpa [hj] using hσ j
    | seq p q =>
      obtain ⟨h1, h2⟩ := ih p σ hσ hp.1
      simp only [Prog.runFx, Prog.run, h1]
      cases e : p.run cfg D n σ with
      | none => exact ⟨rfl, fun _ h => by cases h⟩
      | some r =>
        cases r with
        | error p => exact ⟨rfl, fun _ h => by cases h⟩
        | ok σ1 => exact ih q σ1 (h2 σ1 e) (hp.2 σ1 e)
    | ite t p q =>
      simp only [Prog.runFx, Prog.run, test_range hB hx hD hDB σ hσ t hp.1]
      cases e : t.run cfg D σ with
      | error p => exact ⟨rfl, fun _ h => by cases h⟩
      | ok b =>
        cases b with
        | true => exact ih p σ hσ (hp.2.1 e)
        | false => exact ih q σ hσ (hp.2.2 e)
    | «while» t p =>
      simp only [Prog.runFx, Prog.run, test_range hB hx hD hDB σ hσ t hp.1]
      cases e : t.run cfg D σ with
      | error p => exact ⟨rfl, fun _ h => by cases h⟩
      | ok b =>
        cases b with
        | false => exact ⟨rfl, fun σ' h => by cases h; exact hσ⟩
        | true =>
          obtain ⟨g1, g2⟩ := hp.2 e
          obtain ⟨h1, h2⟩ := ih p σ hσ g1
          simp only [h1]
          cases e : p.run cfg D n σ with
          | none => exact ⟨rfl, fun _ h => by cases h⟩
          | some r =>
            cases r with
            | error p => exact ⟨rfl, fun _ h => by cases h⟩
            | ok σ1 => exact ih _ σ1 (h2 σ1 e) (g2 σ1 e)

/-- **C149** (primitive integers) With or without overflow checks, and with all operations: if all numbers a run comes by have
fields of at most `B`, and `20 B⁵` fits, the program does what it does with arbitrary precision. If it does not use both `/`
and `==`, then what it has done when it ends is what complex numbers do. -/
theorem fixed_qint_prog_range (n : ℕ) (p : Prog) (σ : Nat → QInt) (hσ : ∀ i, (σ i).Small B ∧ (σ i).InRing cfg D)
    (hp : p.Within cfg D B n σ) :
    p.runFx x cfg D n σ = p.run cfg D n σ ∧
    (p.NoDiv ∨ p.NoEq → ∀ σ', p.runFx x cfg D n σ = some (.ok σ') → p.Runs D (vals σ) (vals σ')) := by
  obtain ⟨h1, -⟩ := prog_range hB hx hD hDB n p σ (fun i => ⟨(hσ i).1, good_of_inRing (hσ i).2⟩) hp
  exact ⟨h1, fun hq σ' h => (qint_prog_partial cfg D hD p hq σ (fun i => (hσ i).2) _).2
    ⟨σ', rfl, n, fun k hk => run_mono cfg D n p σ _ (h1 ▸ h) k hk⟩⟩
end

/-- `i32` without checks: `(7 + 5√2)/(1 + √2)`, and its conjugate unless it is rational -/
def quotProg : Prog :=
  .seq (.assign 0 (.op2 .div (.lit 7 5) (.lit 1 1))) (.ite (.rational (.var 0)) .skip (.assign 1 (.op1 .conj (.var 0))))

example : (20 : ℤ) * 7 ^ 5 < 2 ^ (32 - 1) ∧ quotProg.Within ⟨false, false⟩ 2 7 5 (fun _ => QInt.zero) ∧
    look (quotProg.runFx ⟨32, false⟩ ⟨false, false⟩ 2 5 fun _ => QInt.zero) 1 = some (.ok ⟨3, -2, 2⟩) := by
  have key : (Expr.op2 .div (.lit 7 5) (.lit 1 1)).run ⟨false, false⟩ 2 (fun _ => QInt.zero) = .ok ⟨3, 2, 2⟩ := by decide +kernel
  refine ⟨by norm_num, ⟨⟨⟨by norm_num, by norm_num⟩, ⟨by norm_num, by norm_num⟩, fun v h => ?_⟩, fun σ' hs =>
    ⟨trivial, fun _ => trivial, fun _ => ⟨trivial, trivial, fun v h => ?_⟩⟩⟩, by decide +kernel⟩
  · rw [key] at h
    cases h
    exact ⟨by norm_num, by norm_num, by norm_num⟩
  · simp only [Prog.run, key] at hs
    cases hs
    have : (Expr.op1 .conj (.var 0)).run ⟨false, false⟩ 2 (Function.update (fun _ => QInt.zero) 0 ⟨3, 2, 2⟩) = .ok ⟨3, -2, 2⟩ := by
      decide +kernel
    rw [this] at h
    cases h
    exact ⟨by norm_num, by norm_num, by norm_num⟩

end QProg
end NumIrr
