/-
C147, second part: when the reciprocal of a periodic continued fraction is returned, and the reciprocal of the reciprocal.
-/
import Verif.Props.CFRecip
import Verif.Props.SurdArith

namespace NumIrr
namespace CF

/-- the conjugate of the reciprocal has the opposite sign, if that of the number has -/
private theorem oppConj_recip {x : ℝ} (h : OppConj x) : x ≠ 0 ∧ SameSign (1 / x) ∧ OppConj (1 / x) := by
  obtain ⟨A, B, R, hR, hs, hx, ho⟩ := h
  have hR' : (0 : ℝ) ≤ (R : ℝ) := by exact_mod_cast hR
  have hsq : √(R : ℝ) * √(R : ℝ) = R := Real.mul_self_sqrt hR'
  have hN : A * A - B * B * R < 0 := by linarith
  have hN' : ((A * A - B * B * R : ℚ) : ℝ) ≠ 0 := by exact_mod_cast hN.ne
  have hmul : x * ((A : ℝ) - B * √(R : ℝ)) = ((A * A - B * B * R : ℚ) : ℝ) := by
    rw [hx]; push_cast; linear_combination -(B : ℝ) * B * hsq
  have hx0 : x ≠ 0 := by rintro rfl; rw [zero_mul] at hmul; exact hN' hmul.symm
  refine ⟨hx0, sameSign_recip x A B R hR hs hx ho, A / (A * A - B * B * R), -B / (A * A - B * B * R), R, hR, hs, ?_, ?_⟩
  · rw [Rat.cast_div, Rat.cast_div, Rat.cast_neg, div_mul_eq_mul_div, ← add_div, div_eq_div_iff hx0 hN', ← hmul]
    ring
  · have h2 : 0 < (A * A - B * B * R) * (A * A - B * B * R) := mul_pos_of_neg_of_neg hN hN
    rw [div_mul_div_comm, div_mul_div_comm, neg_mul_neg, div_mul_eq_mul_div]
    exact div_lt_div_of_pos_right ho h2

private theorem one_surd (cfg : Cfg) : CF.one.toSurd cfg = .ok ⟨1, 0, 1, 0⟩ := by
  obtain ⟨c, d⟩ := cfg; cases c <;> cases d <;> decide +kernel

private theorem one_ok : Surd.RealOk ⟨1, 0, 1, 0⟩ := by decide +kernel

private theorem one_val' : Surd.val ⟨1, 0, 1, 0⟩ = 1 := by simp [Surd.val, quadR]

/-- the reciprocal returns, again with at most two coefficients before the period -/
private theorem recip_returns (cfg : Cfg) (c : CF) (hc : c.Wf) (hp : c.p ≠ []) (ha : c.a.length ≤ 2) (x : ℝ) (hx : c.HasVal x)
    (hz : OppConj x) :
    ∃ N w, (∀ fuel, N ≤ fuel → CF.one.div cfg fuel c = some (.ok w)) ∧ w.Wf ∧ w.p ≠ [] ∧ w.a.length ≤ 2 ∧ w.HasVal (1 / x) := by
  obtain ⟨s, h1, h2, h3⟩ := cf_toSurd_partial cfg c hc (.inr (.inl ha))
  obtain rfl := HasVal.unique hx h3
  obtain ⟨h0, -, h4⟩ := oppConj_recip hz
  have hs0 : s.valC ≠ 0 := by rw [h2.valC]; exact_mod_cast h0
  obtain ⟨u, hu⟩ := (surd_div_returns_iff cfg ⟨1, 0, 1, 0⟩ s (one_ok.toOk cfg) (h2.toOk cfg)).2
    ⟨hs0, .inr (.inl ⟨rfl, by rw [one_ok.valC, one_val']; simp⟩)⟩
  obtain ⟨-, h5, h6⟩ := surd_div_value_real cfg _ s u one_ok h2 hu
  rw [one_val'] at h6
  rw [← h6] at h4 ⊢
  obtain ⟨N, w, h7, h8, h9, h10, h11⟩ := Surd.surd_toContfrac_returns_partial cfg u h5 (opp_conj_surd h5 h4).2
  refine ⟨N, w, fun fuel hf => ?_, h8, h9, h10, h11⟩
  unfold CF.div opCF viaSurd
  rw [if_neg (by simp [isRational, hp]), one_surd, Surd.ok_bind]
  simp only [h1, Surd.ok_bind, hu]
  unfold Surd.toContfracUnwrap
  rw [h7 fuel hf]

/-- **C147** For a periodic fraction with at most two coefficients before the period and a conjugate of the opposite sign, as
all square roots are: the reciprocal is returned, with the sign and the coefficients moved by one place. -/
theorem cf_recip_periodic_returns_partial (cfg : Cfg) (c : CF) (hc : c.Wf) (hp : c.p ≠ []) (ha : c.a.length ≤ 2) (x : ℝ)
    (hx : c.HasVal x) (hz : OppConj x) :
    ∃ N w, (∀ fuel, N ≤ fuel → CF.one.div cfg fuel c = some (.ok w)) ∧ w.neg = c.neg ∧
      (coeffAt c.a c.p 0 ≠ 0 → coeffAt w.a w.p 0 = 0 ∧ ∀ n, coeffAt w.a w.p (n + 1) = coeffAt c.a c.p n) ∧
      (coeffAt c.a c.p 0 = 0 → ∀ n, coeffAt w.a w.p n = coeffAt c.a c.p (n + 1)) := by
  obtain ⟨N, w, h1, -⟩ := recip_returns cfg c hc hp ha x hx hz
  obtain ⟨h2, -, h3, h4⟩ := cf_recip_periodic_partial cfg N c hc hp x hx (oppConj_recip hz).2.1 w (h1 N le_rfl)
  exact ⟨N, w, h1, h2, h3, h4⟩

/-- For these, the reciprocal of the reciprocal is returned, and has the sign and every coefficient of the fraction. -/
theorem cf_recip_recip_partial (cfg : Cfg) (c : CF) (hc : c.Wf) (hp : c.p ≠ []) (ha : c.a.length ≤ 2) (x : ℝ)
    (hx : c.HasVal x) (hz : OppConj x) :
    ∃ N w v, (∀ fuel, N ≤ fuel → CF.one.div cfg fuel c = some (.ok w) ∧ CF.one.div cfg fuel w = some (.ok v)) ∧
      v.neg = c.neg ∧ ∀ n, coeffAt v.a v.p n = coeffAt c.a c.p n := by
  obtain ⟨N, w, h1, h2, h3, h4, h5⟩ := recip_returns cfg c hc hp ha x hx hz
  obtain ⟨M, v, g1, g2, g3, -, g5⟩ := recip_returns cfg w h2 h3 h4 _ h5 (oppConj_recip hz).2.2
  rw [one_div_one_div] at g5
  obtain ⟨-, -, cn, -, cc⟩ := coeff_of_val hc hp hx
  obtain ⟨-, -, vn, -, vc⟩ := coeff_of_val g2 g3 g5
  refine ⟨N + M, w, v, fun fuel hf => ⟨h1 fuel (by omega), g1 fuel (by omega)⟩, vn.trans cn.symm, fun n => ?_⟩
  exact_mod_cast (vc n).trans (cc n).symm

/-- `√7 = [2; (1, 1, 1, 4)]` -/
example : Wf ⟨[2], [1, 1, 1, 4], false⟩ ∧ OppConj (√7) ∧
    CF.one.div ⟨false, true⟩ 30 ⟨[2], [1, 1, 1, 4], false⟩ = some (.ok ⟨[0, 2], [1, 1, 1, 4], false⟩) ∧
    CF.one.div ⟨false, true⟩ 30 ⟨[0, 2], [1, 1, 1, 4], false⟩ = some (.ok ⟨[2], [1, 1, 1, 4], false⟩) :=
  ⟨by simp [Wf], ⟨0, 1, 7, by decide, by decide +kernel, by simp, by norm_num⟩, by decide +kernel, by decide +kernel⟩

end CF
end NumIrr
