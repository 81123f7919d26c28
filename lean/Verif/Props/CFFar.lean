/-
C33: arithmetic of periodic continued fractions whose results are apart from their conjugates.
-/
import Verif.Spec.Far
import Verif.Spec.CFPow
import Verif.Props.SurdSplit
import Verif.Props.SurdArith

namespace NumIrr
namespace CF
open CFFormula

/-- two ways of writing a quadratic irrational -/
private theorem coords {s : Surd} (h : s.RealOk) (hr : s.r ≠ 0) {A B : ℚ} {R : ℤ} (hR : 0 ≤ R)
    (e : s.val = A + B * √(R : ℝ)) : (B : ℝ) * √(R : ℝ) = s.b / s.c * √(s.r : ℝ) := by
  have hc : (s.c : ℚ) ≠ 0 := by exact_mod_cast h.c_pos.ne'
  have hb : s.b ≠ 0 := fun e => hr (h.rational.1 e)
  have e1 : (A : ℂ) + B * rootC R = ((s.a / s.c : ℚ) : ℂ) + ((s.b / s.c : ℚ) : ℂ) * rootC s.r := by
    rw [rootC_of_nonneg hR, rootC_of_nonneg h.real]
    have : s.val = (s.a / s.c : ℚ) + (s.b / s.c : ℚ) * √(s.r : ℝ) := by
      unfold Surd.val quadR; push_cast; ring
    rw [e] at this
    exact_mod_cast congrArg ((↑) : ℝ → ℂ) this
  obtain ⟨-, h2⟩ := two_root_eq (h.irrational hr) (div_ne_zero (by exact_mod_cast hb) hc) e1
  rw [rootC_of_nonneg hR, rootC_of_nonneg h.real] at h2
  have : (B : ℝ) * √(R : ℝ) = (s.b / s.c : ℚ) * √(s.r : ℝ) := by exact_mod_cast h2
  rw [this]; push_cast; rfl

theorem apart_surd {s : Surd} (h : s.RealOk) (hz : Apart s.val) :
    s.r ≠ 0 ∧ 0 < (s.b : ℝ) * s.val ∧ Int.fract |s.val| < |s.val - s.conjVal| := by
  obtain ⟨A, B, R, hR, hs, e, hB, h4⟩ := hz
  have h1 := same_sign_surd h ⟨A, B, R, hR, hs, e, hB⟩
  have hr : s.r ≠ 0 := fun e => by rw [h.rational.2 e] at h1; simp at h1
  refine ⟨hr, h1, ?_⟩
  have h2 := coords h hr hR e
  have hc : (0 : ℝ) < s.c := by exact_mod_cast h.c_pos
  have hd : s.val - s.conjVal = 2 * (s.b / s.c * √(s.r : ℝ)) := by unfold Surd.val Surd.conjVal quadR; push_cast; field_simp; ring
  rw [hd, ← h2, abs_mul, abs_mul, abs_of_nonneg (Real.sqrt_nonneg _), abs_of_pos (by norm_num : (0 : ℝ) < 2), ← mul_assoc]
  exact h4

/-- the first simple condition -/
theorem far_apart {z : ℝ} (h : Far z) : Apart z := by
  obtain ⟨A, B, R, hR, hs, e, hB, h4⟩ := h
  refine ⟨A, B, R, hR, hs, e, hB, lt_of_lt_of_le (Int.fract_lt_one _) ?_⟩
  have e2 : √(R : ℝ) * √(R : ℝ) = R := Real.mul_self_sqrt (by exact_mod_cast hR)
  have h4' : (1 : ℝ) ≤ 4 * (B * B * R) := by exact_mod_cast h4
  have h0 : 0 ≤ 2 * |(B : ℝ)| * √(R : ℝ) := by positivity
  refine le_of_sq_le_sq ?_ h0
  have : (2 * |(B : ℝ)| * √(R : ℝ)) ^ 2 = 4 * (B * B * R) := by
    rw [mul_pow, mul_pow, sq_abs, sq (√(R : ℝ)), e2]; ring
  rw [this]
  linarith

/-- the second: a conjugate of the opposite sign -/
theorem oppConj_apart {z : ℝ} (h : OppConj z) : Apart z := by
  obtain ⟨A, B, R, hR, hs, e, h4⟩ := h
  have e2 : √(R : ℝ) * √(R : ℝ) = R := Real.mul_self_sqrt (by exact_mod_cast hR)
  have h4' : (A : ℝ) * A < B * B * R := by exact_mod_cast h4
  have hlt : |(A : ℝ)| < |(B : ℝ)| * √(R : ℝ) := by
    refine abs_lt_of_sq_lt_sq ?_ (by positivity)
    rw [mul_pow, sq_abs, sq (√(R : ℝ)), e2]
    linarith
  have hB : (B : ℝ) ≠ 0 := by rintro h0; rw [h0] at hlt; simp at hlt; exact absurd hlt (not_lt.2 (abs_nonneg _))
  refine ⟨A, B, R, hR, hs, e, ?_, ?_⟩
  · rw [e, mul_add]
    have h1 : |(B : ℝ) * A| < |(B : ℝ)| * (|(B : ℝ)| * √(R : ℝ)) := by
      rw [abs_mul]; exact mul_lt_mul_of_pos_left hlt (abs_pos.2 hB)
    have h2 := neg_abs_le ((B : ℝ) * A)
    rw [← mul_assoc, abs_mul_abs_self] at h1
    linarith
  · have h1 : |z| < 2 * |(B : ℝ)| * √(R : ℝ) := by
      rw [e]
      refine lt_of_le_of_lt (abs_add_le _ _) ?_
      rw [abs_mul, abs_of_nonneg (Real.sqrt_nonneg _)]
      linarith
    have h2 : (0 : ℝ) ≤ ⌊|z|⌋ := by exact_mod_cast Int.floor_nonneg.2 (abs_nonneg z)
    rw [← Int.self_sub_floor]
    linarith

/-- conversion of the result -/
theorem apart_toContfrac (cfg : Cfg) {s : Surd} (h : s.RealOk) (hz : Apart s.val) :
    ∃ N c, (∀ fuel, N ≤ fuel → s.toContfrac cfg fuel = some (.ok (some c))) ∧ c.Wf ∧ c.p ≠ [] ∧ c.a.length ≤ 2 ∧
      c.HasVal s.val :=
  have h1 := apart_surd h hz
  Surd.surd_toContfrac_returns_of_split cfg s h h1.2.1 h1.2.2

/-- Two fractions, the second periodic, with surds on which the operation returns: the fraction of the result is returned, with
at most two coefficients before the period, if the result is apart from its conjugate. -/
theorem cf_bin_periodic_returns_apart (cfg : Cfg) (c e : CF) (hc : c.Wf) (he : e.Wf) (hp : e.p ≠ []) (x y : ℝ)
    (hx : c.HasVal x) (hy : e.HasVal y) (o : BinOp) (s t u : Surd) (hs : c.toSurd cfg = .ok s)
    (ht : e.toSurd cfg = .ok t) (hu : o.surd cfg s t = .ok u) (hz : Apart (o.real x y)) :
    ∃ N w, (∀ fuel, N ≤ fuel → o.run cfg fuel c e = some (.ok w)) ∧ w.Wf ∧ w.p ≠ [] ∧ w.a.length ≤ 2 ∧
      w.HasVal (o.real x y) := by
  obtain ⟨h1, h2⟩ := cf_toSurd_value cfg c hc s hs
  obtain ⟨h3, h4⟩ := cf_toSurd_value cfg e he t ht
  obtain rfl := HasVal.unique hx h2
  obtain rfl := HasVal.unique hy h4
  obtain ⟨h5, h6⟩ : u.RealOk ∧ u.val = o.real s.val t.val := by
    cases o
    · exact surd_add_value_real cfg s t u h1 h3 hu
    · exact surd_sub_value_real cfg s t u h1 h3 hu
    · exact surd_mul_value_real cfg s t u h1 h3 hu
    · exact (surd_div_value_real cfg s t u h1 h3 hu).2
  rw [← h6] at hz ⊢
  obtain ⟨N, w, h7, h8⟩ := apart_toContfrac cfg h5 hz
  refine ⟨N, w, fun fuel hf => ?_, h8⟩
  have key : ∀ f g, o.run cfg fuel c e = opCF cfg fuel c e f g → g = (fun s t => o.surd cfg s t) → o.run cfg fuel c e = some (.ok w) := by
    rintro f g hg rfl
    rw [hg]
    unfold opCF viaSurd
    rw [if_neg (by simp [isRational, hp]), hs, Surd.ok_bind]
    simp only [ht, Surd.ok_bind, hu]
    unfold Surd.toContfracUnwrap
    rw [h7 fuel hf]
  cases o
  · exact key _ _ rfl rfl
  · exact key _ _ rfl rfl
  · exact key _ _ rfl rfl
  · exact key _ _ rfl rfl

/-- `(1 + √2)√2 = 2 + √2`, whose conjugate is positive too -/
example : Wf ⟨[2], [2], false⟩ ∧ Wf ⟨[1], [2], false⟩ ∧ Far (2 + √2) ∧
    CF.mul ⟨false, true⟩ 30 ⟨[2], [2], false⟩ ⟨[1], [2], false⟩ = some (.ok ⟨[3], [2], false⟩) :=
  ⟨by simp [Wf], by simp [Wf], ⟨2, 1, 2, by decide, by decide +kernel, by simp, by simp; positivity, by norm_num⟩, by decide +kernel⟩

end CF
end NumIrr
