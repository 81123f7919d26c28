/-
C151 over primitive integers, in a range: no overflow, in both kinds of build.
-/
import Verif.Props.CFProgFixed

namespace NumIrr
namespace CFProg
open CF

private theorem small_neg {B : ℤ} {q : ℚ} (h : RatSmall B q) : RatSmall B (-q) := by
  refine ⟨?_, ?_⟩
  · rw [Rat.num_neg_eq_neg_num, abs_neg]; exact h.1
  · rw [Rat.den_neg_eq_den]; exact h.2

section
variable {x : Fx} (hw : 2 ≤ x.w) (cfg : Cfg) {fuel : ℕ} (hf : 2 ^ x.w ≤ fuel) {B : ℤ} (hB : 2 * B ^ 2 < 2 ^ (x.w - 1))
include hw hf hB

private theorem lit_range {q : ℚ} (h : RatSmall B q) : x.ofRat fuel (.of q) = some (.ok (CF.ofRat q)) := by
  have hd := q.den_pos
  have hB1 : 1 ≤ B := by have := h.2; omega
  have h1 := abs_le.1 h.1
  have h2 := h.2
  have hb : 2 * B ≤ 2 * B ^ 2 := by nlinarith
  have hp2 : (2 : ℤ) ^ x.w = 2 * 2 ^ (x.w - 1) := Prim.pow_split (by omega)
  have e : ((2 ^ x.w : ℕ) : ℤ) = 2 ^ x.w := by push_cast; rfl
  refine Fx.ofRat_exact hw ?_ ?_ ?_ ?_
  · unfold Fx.Holds; omega
  · unfold Fx.Holds; omega
  · omega
  · omega

private theorem expr_range (ρ : Nat → ℚ) (hρ : ∀ i, RatSmall B (ρ i)) (e : Expr) (he : e.Plain) (hx : e.Within B ρ) :
    e.runFx x cfg fuel (fracs ρ) = some (frac CF.ofRat (e.val .right ρ)) ∧
    ∀ v, e.val .right ρ = some v → RatSmall B v := by
  induction e with
  | var i => exact ⟨rfl, fun v h => by cases h; exact hρ i⟩
  | lit q => exact ⟨lit_range hw hf hB hx, fun v h => by cases h; exact hx⟩
  | neg e ih =>
    obtain ⟨h1, h2⟩ := ih he hx
    refine ⟨?_, ?_⟩
    · show andThen (e.runFx x cfg fuel (fracs ρ)) _ = _
      rw [h1]
      exact andThen_frac _ _ _ _ _ fun x => by rw [neg_step]; rfl
    · intro v hv
      cases hq : e.val .right ρ with
      | none => simp [Expr.val, hq] at hv
      | some q =>
        simp only [Expr.val, hq] at hv
        cases hv
        exact small_neg (h2 q hq)
  | num o e ih =>
    obtain ⟨h1, h2⟩ := ih he hx.1
    refine ⟨?_, hx.2.2⟩
    show andThen (e.runFx x cfg fuel (fracs ρ)) _ = some (frac CF.ofRat (e.val .right ρ >>= _))
    rw [h1]
    cases hq : e.val .right ρ with
    | none => rfl
    | some q =>
      show o.runFx x cfg fuel (CF.ofRat q) = _
      rw [fixed_cf_num_exact x hw cfg fuel hf _ (cf_ofRat q).1.wf (cf_ofRat q).1.1 q (cf_ofRat q).2 o B (h2 q hq) hx.2.1 hB]
      exact num_step cfg fuel o q
  | bin o e f ihe ihf =>
    obtain ⟨h1, h2⟩ := ihe he.1 hx.1
    obtain ⟨k1, k2⟩ := ihf he.2 hx.2.1
    refine ⟨?_, hx.2.2⟩
    show andThen (e.runFx x cfg fuel (fracs ρ)) _ = some (frac CF.ofRat (e.val .right ρ >>= _))
    rw [h1]
    cases hq : e.val .right ρ with
    | none => rfl
    | some q =>
      show andThen (f.runFx x cfg fuel (fracs ρ)) _ = some (frac CF.ofRat (f.val .right ρ >>= _))
      rw [k1]
      cases hr : f.val .right ρ with
      | none => rfl
      | some r =>
        show o.runFx x cfg fuel (CF.ofRat q) (CF.ofRat r) = _
        rw [fixed_cf_bin_exact x hw cfg fuel hf _ _ (cf_ofRat q).1.wf (cf_ofRat q).1.1 (cf_ofRat r).1.wf (cf_ofRat r).1.1
          q r (cf_ofRat q).2 (cf_ofRat r).2 o B (h2 q hq) (k2 r hr) hB]
        exact bin_step cfg fuel o q r
  | addI k e ih => exact he.elim
  | subI k e ih => exact he.elim

private theorem test_range (ρ : Nat → ℚ) (hρ : ∀ i, RatSmall B (ρ i)) (t : Test) (ht : t.Plain) (hx : t.Within B ρ) :
    t.runFx x cfg fuel (fracs ρ) = some (frac id (t.val .right ρ)) := by
  induction t with
  | zero e =>
    show andThen (e.runFx x cfg fuel (fracs ρ)) _ = _
    rw [(expr_range hw cfg hf hB ρ hρ e ht hx).1]
    exact andThen_frac _ _ _ _ _ fun x => by rw [zero_iff]; rfl
  | one e => exact ht.elim
  | negative e =>
    show andThen (e.runFx x cfg fuel (fracs ρ)) _ = _
    rw [(expr_range hw cfg hf hB ρ hρ e ht hx).1]
    exact andThen_frac _ _ _ _ _ fun x => by rw [neg_iff]; rfl
  | integer e =>
    show andThen (e.runFx x cfg fuel (fracs ρ)) _ = _
    rw [(expr_range hw cfg hf hB ρ hρ e ht hx).1]
    exact andThen_frac _ _ _ _ _ fun x => by rw [integer_iff]; rfl
  | equal e f =>
    show andThen (e.runFx x cfg fuel (fracs ρ)) _ = _
    rw [(expr_range hw cfg hf hB ρ hρ e ht.1 hx.1).1]
    refine andThen_frac _ _ _ _ _ fun y => ?_
    rw [(expr_range hw cfg hf hB ρ hρ f ht.2 hx.2).1]
    exact andThen_frac _ _ _ _ _ fun z => by rw [equal_iff]; rfl
  | not t ih =>
    show andThen (t.runFx x cfg fuel (fracs ρ)) _ = _
    rw [ih ht hx]
    exact andThen_frac _ _ _ _ _ fun x => rfl
  | and t u iht ihu =>
    show andThen (t.runFx x cfg fuel (fracs ρ)) _ = some (frac id (t.val .right ρ >>= _))
    rw [iht ht.1 hx.1]
    cases hb : t.val .right ρ with
    | none => rfl
    | some b =>
      cases b with
      | true => exact ihu ht.2 (hx.2 hb)
      | false => rfl

private theorem prog_range (n : ℕ) (p : Prog) (hp : p.Plain) (ρ : Nat → ℚ) (hρ : ∀ i, RatSmall B (ρ i))
    (hx : p.Within B n ρ) :
    p.runFx x cfg fuel n (fracs ρ) = (p.val .right n ρ).map (frac fracs) ∧
    ∀ ρ', p.val .right n ρ = some (some ρ') → ∀ i, RatSmall B (ρ' i) := by
  induction n generalizing p ρ with
  | zero => exact ⟨rfl, fun _ h => by cases h⟩
  | succ n ih =>
    cases p with
    | skip => exact ⟨rfl, fun ρ' h => by cases h; exact hρ⟩
    | assign i e =>
      obtain ⟨h1, h2⟩ := expr_range hw cfg hf hB ρ hρ e hp hx
      simp only [Prog.runFx, Prog.val]
      rw [h1]
      cases hq : e.val .right ρ with
      | none => exact ⟨rfl, fun _ h => by cases h⟩
      | some q =>
        refine ⟨?_, ?_⟩
        · show some (Except.ok (Function.update _ _ _)) = _
          rw [fracs_update]; rfl
        · rintro ρ' h j
          cases h
          by_cases hj : j = i
          · subst hj; simpa using h2 q hq
          · simpa [hj] using hρ j
    | seq p q =>
      obtain ⟨h1, h2⟩ := ih p hp.1 ρ hρ hx.1
      simp only [Prog.runFx, Prog.val]
      rw [h1]
      cases e : p.val .right n ρ with
      | none => exact ⟨rfl, fun _ h => by cases h⟩
      | some r =>
        cases r with
        | none => exact ⟨rfl, fun _ h => by cases h⟩
        | some ρ1 => exact ih q hp.2 ρ1 (h2 ρ1 e) (hx.2 ρ1 e)
    | ite t p q =>
      simp only [Prog.runFx, Prog.val]
      rw [test_range hw cfg hf hB ρ hρ t hp.1 hx.1]
      cases e : t.val .right ρ with
      | none => exact ⟨rfl, fun _ h => by cases h⟩
      | some b =>
        cases b with
        | true => exact ih p hp.2.1 ρ hρ (hx.2.1 e)
        | false => exact ih q hp.2.2 ρ hρ (hx.2.2 e)
    | «while» t p =>
      simp only [Prog.runFx, Prog.val]
      rw [test_range hw cfg hf hB ρ hρ t hp.1 hx.1]
      cases e : t.val .right ρ with
      | none => exact ⟨rfl, fun _ h => by cases h⟩
      | some b =>
        cases b with
        | false => exact ⟨rfl, fun ρ' h => by cases h; exact hρ⟩
        | true =>
          obtain ⟨g1, g2⟩ := hx.2 e
          obtain ⟨h1, h2⟩ := ih p hp.2 ρ hρ g1
          show andThen (p.runFx x cfg fuel n (fracs ρ)) _ = _ ∧ _
          rw [h1]
          simp only
          cases e : p.val .right n ρ with
          | none => exact ⟨rfl, fun _ h => by cases h⟩
          | some r =>
            cases r with
            | none => exact ⟨rfl, fun _ h => by cases h⟩
            | some ρ1 => exact ih _ hp ρ1 (h2 ρ1 e) (g2 ρ1 e)

/-- **C151** partial, over primitive integers with or without overflow checks: if all numbers a run comes by have parts of at
most `B` in absolute value, and `2 B²` fits, there is no overflow, and the program does what it would do with rational
numbers. Missing: integers added or subtracted, and `is_one` (`cf_prog_refuted`). -/
theorem fixed_cf_prog_range_partial (n : ℕ) (p : Prog) (hp : p.Plain) (ρ : Nat → ℚ) (hρ : ∀ i, RatSmall B (ρ i))
    (hx : p.Within B n ρ) : p.runFx x cfg fuel n (fracs ρ) = (p.val .right n ρ).map (frac fracs) :=
  (prog_range hw cfg hf hB n p hp ρ hρ hx).1
end

/-- `i16` without checks: the sum `1/2 + 1/3 + 1/3`, taken until it is more than one -/
def thirds : Prog :=
  .seq (.assign 0 (.lit (1 / 2))) (.while (.negative (.num (.subRat 1) (.var 0))) (.assign 0 (.num (.addRat (1 / 3)) (.var 0))))

example : thirds.Plain ∧ (2 : ℤ) * 100 ^ 2 < 2 ^ (16 - 1) ∧ RatSmall 100 0 ∧ thirds.Within 100 5 (fun _ => 0) ∧
    ((thirds.val .right 5 fun _ => 0).map (·.map (· 0))) = some (some (7 / 6)) ∧
    look (thirds.runFx ⟨16, false⟩ ⟨false, true⟩ 65536 5 fun _ => CF.zero) 0 = some (.ok ⟨[1, 6], [], false⟩) := by
  refine ⟨by simp [thirds, Prog.Plain, Test.Plain, Expr.Plain], by norm_num, by simp [RatSmall], ?_, by decide +kernel,
    by decide +kernel⟩
  have v : ∀ (ρ : Nat → ℚ) (q r : ℚ), ρ 0 = q → numVal (.subRat 1) q = some r → RatSmall 100 r →
      Test.Within 100 ρ (.negative (.num (.subRat 1) (.var 0))) := by
    rintro ρ q r rfl h1 h2
    refine ⟨trivial, ⟨by simp, by simp⟩, fun w hw => ?_⟩
    rw [show Expr.val .right ρ (.num (.subRat 1) (.var 0)) = some r from h1] at hw
    cases hw; exact h2
  have a : ∀ (ρ : Nat → ℚ) (q r : ℚ), ρ 0 = q → numVal (.addRat (1 / 3)) q = some r → RatSmall 100 r →
      Expr.Within 100 ρ (.num (.addRat (1 / 3)) (.var 0)) := by
    rintro ρ q r rfl h1 h2
    refine ⟨trivial, ⟨by decide +kernel, by decide +kernel⟩, fun w hw => ?_⟩
    rw [show Expr.val .right ρ (.num (.addRat (1 / 3)) (.var 0)) = some r from h1] at hw
    cases hw; exact h2
  refine ⟨⟨by decide +kernel, by decide +kernel⟩, fun ρ1 h1 => ?_⟩
  have e1 : ρ1 = Function.update (fun _ => 0) 0 (1 / 2) := by cases h1; rfl
  refine ⟨v _ (1 / 2) (-1 / 2) (by rw [e1]; rfl) (by decide +kernel) ⟨by decide +kernel, by decide +kernel⟩, fun _ =>
    ⟨a _ (1 / 2) (5 / 6) (by rw [e1]; rfl) (by decide +kernel) ⟨by decide +kernel, by decide +kernel⟩, fun ρ2 h2 => ?_⟩⟩
  have e2 : ρ2 0 = 5 / 6 := by subst e1; cases h2; decide +kernel
  refine ⟨v _ _ (-1 / 6) e2 (by decide +kernel) ⟨by decide +kernel, by decide +kernel⟩, fun _ =>
    ⟨a _ _ (7 / 6) e2 (by decide +kernel) ⟨by decide +kernel, by decide +kernel⟩, fun ρ3 h3 => ?_⟩⟩
  have e3 : ρ3 0 = 7 / 6 := by
    have : Function.update ρ2 0 (ρ2 0 + 1 / 3) = ρ3 := Option.some.inj (Option.some.inj h3)
    rw [← this, e2]; norm_num [Function.update]
  refine ⟨v _ _ (1 / 6) e3 (by decide +kernel) ⟨by decide +kernel, by decide +kernel⟩, fun h => ?_⟩
  exfalso
  have : Test.val .right ρ3 (.negative (.num (.subRat 1) (.var 0))) = some (decide (ρ3 0 - 1 < 0)) := rfl
  rw [this, e3] at h
  exact absurd h (by decide +kernel)

end CFProg
end NumIrr
