/-
C150 over primitive integers, in a range: no overflow, in both kinds of build.
-/
import Verif.Spec.GIntProgRange
import Verif.Props.GIntProg

namespace NumIrr
namespace GProg

section
variable {x : Fx} {B : ℤ} (hB : 1 ≤ B) (hx : 4 * B ^ 3 < 2 ^ (x.w - 1))
include hB hx

private theorem bounds : 2 * B < 2 ^ (x.w - 1) ∧ 2 * B ^ 2 < 2 ^ (x.w - 1) := by
  have h1 : B ≤ B ^ 2 := by nlinarith
  have h2 : B ^ 2 ≤ B ^ 3 := by nlinarith [sq_nonneg B]
  constructor <;> nlinarith

private theorem op2_range (o : Op2) {u v : GInt} (hu : u.Small B) (hv : v.Small B) : o.runFx x u v = o.run u v := by
  obtain ⟨h1, h2, h3⟩ := fixed_gint_safe x u v B hB hu hv
  obtain ⟨b1, b2⟩ := bounds hB hx
  cases o with
  | add => exact (h1 b1).1
  | sub => exact (h1 b1).2.1
  | mul => exact (h2 b2).1
  | div => exact (h3 hx).1
  | rem => exact (h3 hx).2

private theorem expr_range (σ : Nat → GInt) (hσ : ∀ i, (σ i).Small B) (e : Expr) (he : e.Within B σ) :
    e.runFx x σ = e.run σ ∧ ∀ v, e.run σ = .ok v → v.Small B := by
  induction e with
  | var i => exact ⟨rfl, fun v h => by cases h; exact hσ i⟩
  | lit a b => exact ⟨rfl, fun v h => by cases h; exact he⟩
  | conj e ih =>
    obtain ⟨h1, h2⟩ := ih he
    simp only [Expr.runFx, Expr.run, h1]
    cases hu : e.run σ with
    | error p => exact ⟨rfl, fun v h => by cases h⟩
    | ok u =>
      have hs := h2 u hu
      obtain ⟨k1, -⟩ := fixed_gint_safe x u u B hB hs hs
      refine ⟨(k1 (bounds hB hx).1).2.2, fun v h => ?_⟩
      cases h
      exact ⟨hs.1, by show |(-u.im)| ≤ B; rw [abs_neg]; exact hs.2⟩
  | op2 o e f ihe ihf =>
    obtain ⟨h1, h2⟩ := ihe he.1
    obtain ⟨k1, k2⟩ := ihf he.2.1
    refine ⟨?_, he.2.2⟩
    simp only [Expr.runFx, Expr.run, h1, k1]
    cases hu : e.run σ with
    | error p => rfl
    | ok u =>
      cases hv : f.run σ with
      | error p => rfl
      | ok v => exact op2_range hB hx o (h2 u hu) (k2 v hv)

private theorem test_range (σ : Nat → GInt) (hσ : ∀ i, (σ i).Small B) (t : Test) (ht : t.Within B σ) :
    t.runFx x σ = t.run σ := by
  induction t with
  | equal e f =>
    simp only [Test.runFx, Test.run, (expr_range hB hx σ hσ e ht.1).1, (expr_range hB hx σ hσ f ht.2).1]
  | less e f =>
    obtain ⟨h1, h2⟩ := expr_range hB hx σ hσ e ht.1
    obtain ⟨k1, k2⟩ := expr_range hB hx σ hσ f ht.2
    simp only [Test.runFx, Test.run, h1, k1]
    cases hu : e.run σ with
    | error p => rfl
    | ok u =>
      cases hv : f.run σ with
      | error p => rfl
      | ok v =>
        obtain ⟨-, n1, -⟩ := fixed_gint_safe x u v B hB (h2 u hu) (k2 v hv)
        obtain ⟨-, n2, -⟩ := fixed_gint_safe x v u B hB (k2 v hv) (h2 u hu)
        simp only [Surd.ok_bind, (n1 (bounds hB hx).2).2, (n2 (bounds hB hx).2).2]
  | not t ih => simp only [Test.runFx, Test.run, ih ht]
  | and t u iht ihu =>
    simp only [Test.runFx, Test.run, iht ht.1]
    cases hb : t.run σ with
    | error p => rfl
    | ok b =>
      cases b with
      | true => exact ihu (ht.2 hb)
      | false => rfl

private theorem prog_range (n : ℕ) (p : Prog) (σ : Nat → GInt) (hσ : ∀ i, (σ i).Small B) (hp : p.Within B n σ) :
    p.runFx x n σ = p.run n σ ∧ ∀ σ', p.run n σ = some (.ok σ') → ∀ i, (σ' i).Small B := by
  induction n generalizing p σ with
  | zero => exact ⟨rfl, fun _ h => by cases h⟩
  | succ n ih =>
    cases p with
    | skip => exact ⟨rfl, fun σ' h => by cases h; exact hσ⟩
    | assign i e =>
      obtain ⟨h1, h2⟩ := expr_range hB hx σ hσ e hp
      simp only [Prog.runFx, Prog.run, h1]
      cases hv : e.run σ with
      | error p => exact ⟨trivial, fun _ h => by cases h⟩
      | ok v =>
        refine ⟨trivial, fun σ' h j => ?_⟩
        cases h
        by_cases hj : j = i
        · subst hj; simpa using h2 v hv
        · simpa [hj] using hσ j
    | seq p q =>
      obtain ⟨h1, h2⟩ := ih p σ hσ hp.1
      simp only [Prog.runFx, Prog.run, h1]
      cases e : p.run n σ with
      | none => exact ⟨rfl, fun _ h => by cases h⟩
      | some r =>
        cases r with
        | error p => exact ⟨rfl, fun _ h => by cases h⟩
        | ok σ1 => exact ih q σ1 (h2 σ1 e) (hp.2 σ1 e)
    | ite t p q =>
      simp only [Prog.runFx, Prog.run, test_range hB hx σ hσ t hp.1]
      cases e : t.run σ with
      | error p => exact ⟨rfl, fun _ h => by cases h⟩
      | ok b =>
        cases b with
        | true => exact ih p σ hσ (hp.2.1 e)
        | false => exact ih q σ hσ (hp.2.2 e)
    | «while» t p =>
      simp only [Prog.runFx, Prog.run, test_range hB hx σ hσ t hp.1]
      cases e : t.run σ with
      | error p => exact ⟨rfl, fun _ h => by cases h⟩
      | ok b =>
        cases b with
        | false => exact ⟨rfl, fun σ' h => by cases h; exact hσ⟩
        | true =>
          obtain ⟨g1, g2⟩ := hp.2 e
          obtain ⟨h1, h2⟩ := ih p σ hσ g1
          simp only [h1]
          cases e : p.run n σ with
          | none => exact ⟨rfl, fun _ h => by cases h⟩
          | some r =>
            cases r with
            | error p => exact ⟨rfl, fun _ h => by cases h⟩
            | ok σ1 => exact ih _ σ1 (h2 σ1 e) (g2 σ1 e)

/-- **C150** (primitive integers) With or without overflow checks: if all numbers a run comes by have parts of at most `B`, and
`4 B³` fits, the program does what it does with arbitrary precision; so what it has done when it ends is what complex numbers
do. -/
theorem fixed_gint_prog_range (n : ℕ) (p : Prog) (σ : Nat → GInt) (hσ : ∀ i, (σ i).Small B) (hp : p.Within B n σ) :
    p.runFx x n σ = p.run n σ ∧ ∀ σ', p.runFx x n σ = some (.ok σ') → p.Runs (vals σ) (vals σ') := by
  obtain ⟨h1, -⟩ := prog_range hB hx n p σ hσ hp
  exact ⟨h1, fun σ' h => (gint_prog p σ _).2 ⟨σ', rfl, n, fun k hk => grun_mono n p σ _ (h1 ▸ h) k hk⟩⟩
end

/-- `i16` without checks: `(11 + 3i) % (1 + 8i)`, unless it is zero -/
def remProg : Prog :=
  .seq (.assign 0 (.op2 .rem (.lit 11 3) (.lit 1 8))) (.ite (.equal (.var 0) (.lit 0 0)) .skip (.assign 1 (.conj (.var 0))))

example : (4 : ℤ) * 20 ^ 3 < 2 ^ (16 - 1) ∧ remProg.Within 20 5 (fun _ => ⟨0, 0⟩) ∧
    look (remProg.runFx ⟨16, false⟩ 5 fun _ => ⟨0, 0⟩) 1 = some (.ok ⟨2, 4⟩) := by
  refine ⟨by norm_num, ⟨⟨⟨by norm_num, by norm_num⟩, ⟨by norm_num, by norm_num⟩, fun v h => ?_⟩, fun σ' _ =>
    ⟨⟨trivial, by norm_num, by norm_num⟩, fun _ => trivial, fun _ => trivial⟩⟩, by decide +kernel⟩
  have : (Expr.op2 .rem (.lit 11 3) (.lit 1 8)).run (fun _ => ⟨0, 0⟩) = .ok ⟨2, -4⟩ := by decide +kernel
  rw [this] at h
  cases h
  norm_num

end GProg
end NumIrr
