/-
C36: a third sufficient condition for the conversion of a quadratic surd to a continued fraction to return, and the same for
the arithmetic of continued fractions.
-/
import Verif.Props.SurdCF
import Verif.Props.CFArith

namespace NumIrr
namespace Surd
open Lagrange

/-- `y = u + v√r` with `v > 0`, and the conjugate below the integer part -/
def SplitAt (r : ℤ) (y : ℝ) : Prop := ∃ u v : ℚ, 0 < v ∧ y = u + v * √(r : ℝ) ∧ u - v * √(r : ℝ) < ⌊y⌋

private theorem split_step {r : ℤ} (hr : 0 ≤ r) (hs : ¬ IsSquare r) {y : ℝ} (h : SplitAt r y) : SplitAt r (1 / (y - ⌊y⌋)) := by
  obtain ⟨u, v, hv, hy, hc⟩ := h
  have hsq : √(r : ℝ) * √(r : ℝ) = r := Real.mul_self_sqrt (by exact_mod_cast hr)
  set k : ℤ := ⌊y⌋ with hk
  have hyk : 0 < y - k := by
    have h1 : (k : ℝ) ≤ y := Int.floor_le y
    refine lt_of_le_of_ne (by linarith) fun h => ?_
    exact CF.irr_of_nonsquare hs (A := u) hv.ne' hr (k : ℚ) (by rw [← hy]; push_cast; linarith)
  have hyk1 : y - k < 1 := by have := Int.lt_floor_add_one y; linarith
  have hN : (y - k) * (u - v * √(r : ℝ) - k) = (((u - k) * (u - k) - v * v * r : ℚ) : ℝ) := by
    rw [hy]; push_cast; linear_combination -(v : ℝ) * v * hsq
  have hneg : (((u - k) * (u - k) - v * v * r : ℚ) : ℝ) < 0 := by
    rw [← hN]; exact mul_neg_of_pos_of_neg hyk (by linarith)
  have hneg' : (u - k) * (u - k) - v * v * r < 0 := by exact_mod_cast hneg
  have hfl : (1 : ℝ) ≤ ⌊1 / (y - k)⌋ := by
    have : (1 : ℤ) ≤ ⌊1 / (y - k)⌋ := Int.le_floor.2 (by push_cast; rw [le_div_iff₀ hyk]; linarith)
    exact_mod_cast this
  refine ⟨(u - k) / ((u - k) * (u - k) - v * v * r), -v / ((u - k) * (u - k) - v * v * r), div_pos_of_neg_of_neg (by linarith) hneg', ?_, ?_⟩
  · rw [Rat.cast_div, Rat.cast_div, div_mul_eq_mul_div, ← add_div, div_eq_div_iff hyk.ne' hneg.ne, ← hN]
    push_cast
    ring
  · refine lt_of_lt_of_le ?_ (zero_le_one.trans hfl)
    rw [Rat.cast_div, Rat.cast_div, div_mul_eq_mul_div, ← sub_div]
    refine div_neg_of_pos_of_neg ?_ hneg
    push_cast
    rw [hy] at hyk
    linarith

theorem split_tails {r : ℤ} (hr : 0 ≤ r) (hs : ¬ IsSquare r) (n : ℕ) {y : ℝ} (h : SplitAt r y) : SplitAt r (tails y n) := by
  induction n generalizing y with
  | zero => exact h
  | succ n ih => exact ih (split_step hr hs h)

/-- such a state never gets stuck, and there are at most two coefficients before the period -/
private theorem split_run {d rd p q : ℤ} (hr : Root d rd) (h : Valid d p q) (hq : 0 < q) (h1 : thc d p q < coef rd p q) :
    (¬ ∃ p' q', Reach d rd p q p' q' ∧ Stuck d rd p' q') ∧
    ∃ l p' q', Run d rd p q l p' q' ∧ l.length ≤ 2 ∧ ∀ v ∈ l.tail, 1 ≤ v := by
  have hoff := not_off (rd := rd) (p := p) hq
  have hv := next_valid hr h
  have hg := next_gt_one hr h hoff
  have hc := inv_neg' (next_thc hr h) (by linarith)
  obtain ⟨h2, h3, h4⟩ := run_neg hr hv hg hc
  have hq1 := (q_pos_iff hr hv).2 (by linarith)
  constructor
  · rintro ⟨p', q', h5, h6⟩
    have : 0 < q' := by
      cases h5 with
      | refl => exact hq
      | step h5 =>
        cases h5 with
        | refl => exact hq1
        | step h5 => exact (h5.red hr ⟨next_valid hr hv, h3⟩).qpos hr
    have := h6.1
    omega
  · by_cases hred : isReduced rd (nextP rd p q) (nextQ d rd p q) = true
    · exact ⟨_, _, _, .stop p q hred, by simp, by simp⟩
    · exact ⟨_, _, _, .step p q (by simpa using hred) h4, by simp, by simpa using h2⟩

/-- an integer multiple of the root is the root of the number which is used in the conversion -/
theorem disc_root {s : Surd} (h : s.RealOk) (hr : s.r ≠ 0) : ∃ m : ℚ, 0 < m ∧ √(s.cfDisc : ℝ) = m * √(s.r : ℝ) := by
  have hb : s.b ≠ 0 := fun e => hr (h.rational.1 e)
  have hb' : (0 : ℚ) < |(s.b : ℚ)| := abs_pos.2 (by exact_mod_cast hb)
  have hc : (0 : ℚ) < s.c := by exact_mod_cast h.c_pos
  have hcR : (0 : ℝ) < s.c := by exact_mod_cast h.c_pos
  unfold cfDisc
  split
  · refine ⟨|(s.b : ℚ)|, hb', ?_⟩
    push_cast
    rw [show (s.r : ℝ) * s.b * s.b = s.b ^ 2 * s.r by ring, Real.sqrt_mul (sq_nonneg _), Real.sqrt_sq_eq_abs]
  · refine ⟨|(s.b : ℚ)| * s.c, mul_pos hb' hc, ?_⟩
    push_cast
    rw [show (s.r : ℝ) * s.b * s.b * s.c * s.c = (s.b * s.c) ^ 2 * s.r by ring, Real.sqrt_mul (sq_nonneg _), Real.sqrt_sq_eq_abs,
      abs_mul, abs_of_pos hcR]

/-- the two conditions on the absolute value -/
theorem split_abs {s : Surd} (h : s.RealOk) (hs : 0 < (s.b : ℝ) * s.val) (hf : Int.fract |s.val| < |s.val - s.conjVal|) :
    SplitAt s.r |s.val| := by
  have hcp : (0 : ℝ) < s.c := by exact_mod_cast h.c_pos
  have hv : s.val = s.a / s.c + s.b / s.c * √(s.r : ℝ) := by unfold val quadR; field_simp
  have hcv : s.conjVal = s.a / s.c - s.b / s.c * √(s.r : ℝ) := by unfold conjVal quadR; push_cast; field_simp; ring
  have hroot : 0 ≤ √(s.r : ℝ) := Real.sqrt_nonneg _
  have hb : s.b ≠ 0 := by rintro e; rw [e] at hs; simp at hs
  rw [← Int.self_sub_floor] at hf
  rcases lt_or_gt_of_ne hb with hb | hb
  · have hb' : (s.b : ℝ) < 0 := by exact_mod_cast hb
    have hneg : s.val < 0 := by by_contra hh; nlinarith
    have hd : s.val - s.conjVal ≤ 0 := by
      rw [hv, hcv]
      have : (s.b : ℝ) / s.c * √(s.r : ℝ) ≤ 0 := mul_nonpos_of_nonpos_of_nonneg (div_nonpos_of_nonpos_of_nonneg hb'.le hcp.le) hroot
      linarith
    rw [abs_of_nonpos hd] at hf
    rw [abs_of_neg hneg] at hf ⊢
    refine ⟨-(s.a / s.c), -(s.b / s.c), ?_, ?_, ?_⟩
    · have h1 : (s.b : ℚ) < 0 := by exact_mod_cast hb
      have h2 : (0 : ℚ) < s.c := by exact_mod_cast h.c_pos
      exact neg_pos.2 (div_neg_of_neg_of_pos h1 h2)
    · rw [hv]; push_cast; ring
    · push_cast
      have : -((s.a : ℝ) / s.c) - -((s.b : ℝ) / s.c) * √(s.r : ℝ) = -s.conjVal := by rw [hcv]; ring
      rw [this]; linarith
  · have hb' : (0 : ℝ) < s.b := by exact_mod_cast hb
    have hpos : 0 < s.val := by by_contra hh; nlinarith
    have hd : 0 ≤ s.val - s.conjVal := by
      rw [hv, hcv]
      have : 0 ≤ (s.b : ℝ) / s.c * √(s.r : ℝ) := mul_nonneg (div_nonneg hb'.le hcp.le) hroot
      linarith
    rw [abs_of_nonneg hd] at hf
    rw [abs_of_pos hpos] at hf ⊢
    refine ⟨s.a / s.c, s.b / s.c, ?_, ?_, ?_⟩
    · have h1 : (0 : ℚ) < s.b := by exact_mod_cast hb
      have h2 : (0 : ℚ) < s.c := by exact_mod_cast h.c_pos
      exact div_pos h1 h2
    · rw [hv]; push_cast; ring
    · push_cast
      rw [← hcv]; linarith

/-- **C36** A third sufficient condition: the irrational part has the sign of the number, and the fractional part of the
absolute value is less than the distance of the number from its conjugate, as it always is for `2|b|√r ≥ c`.  The fraction has
the value of the number, and at most two coefficients before the period. -/
theorem surd_toContfrac_returns_of_split (cfg : Cfg) (s : Surd) (h : s.RealOk) (hs : 0 < (s.b : ℝ) * s.val)
    (hf : Int.fract |s.val| < |s.val - s.conjVal|) :
    ∃ N c, (∀ fuel, N ≤ fuel → s.toContfrac cfg fuel = some (.ok (some c))) ∧ c.Wf ∧ c.p ≠ [] ∧ c.a.length ≤ 2 ∧
      c.HasVal s.val := by
  have hr : s.r ≠ 0 := fun e => by rw [h.rational.2 e] at hs; simp at hs
  have hnsq : ¬ IsSquare s.r := h.irrational hr
  have hsp := split_abs h hs hf
  obtain ⟨σ, hσ, e⟩ := toContfrac_start cfg h hr
  obtain ⟨p, q, hv', hpos, hth, -, hroot, heq, -⟩ := start_spec cfg h hr σ hσ
  rw [if_neg (fun hh => by have := hh.2; linarith)] at hth
  have habs : |s.val| = th s.cfDisc p q := by
    rw [hth]
    cases σ
    · exact abs_of_pos hσ
    · simp only [signed, if_true] at hσ ⊢
      exact abs_of_neg (by linarith)
  obtain ⟨u, v, hv0, e', hlt⟩ := hsp
  obtain ⟨m, hm, hd⟩ := disc_root h hr
  have hqR : (q : ℝ) ≠ 0 := hv'.neR
  have hth' : th s.cfDisc p q = (p / q : ℚ) + (m / q : ℚ) * √(s.r : ℝ) := by
    unfold th; rw [hd]; push_cast; field_simp
  have hthc : thc s.cfDisc p q = (p / q : ℚ) - (m / q : ℚ) * √(s.r : ℝ) := by
    unfold thc; rw [hd]; push_cast; field_simp
  have hvm : v = m / q := by
    by_contra hne
    refine CF.irr_of_nonsquare hnsq (A := u) (B := v - m / q) (sub_ne_zero.2 hne) h.real (p / q) ?_
    rw [habs, hth'] at e'
    rw [Rat.cast_sub]
    linear_combination -e'
  have hup : (u : ℝ) = (p / q : ℚ) := by
    rw [habs, hth', ← hvm] at e'
    linarith
  have hq : 0 < q := by
    by_contra hh
    have hh' : (q : ℚ) ≤ 0 := by exact_mod_cast not_lt.1 hh
    have := div_nonpos_of_nonneg_of_nonpos hm.le hh'
    rw [← hvm] at this
    linarith
  have hlt' : thc s.cfDisc p q < coef (isqrt s.cfDisc) p q := by
    obtain ⟨h1, h2⟩ := coef_exact hroot hv' (not_off hq)
    have : ⌊th s.cfDisc p q⌋ = coef (isqrt s.cfDisc) p q := by rw [Int.floor_eq_iff]; exact ⟨h1.le, h2⟩
    rw [← this, ← habs, hthc, ← hup, ← hvm]
    exact hlt
  obtain ⟨r1, l, p', q', r2, r3, r4⟩ := split_run hroot hv' hq hlt'
  obtain ⟨N, c, k1, -, k3, k4, -, -, k7⟩ := cfOfState_spec cfg.debug σ hroot hv' hpos r1
  have hN : ∀ fuel, N ≤ fuel → s.toContfrac cfg fuel = some (.ok (some c)) := fun fuel hf => by rw [e, heq, k1 fuel hf]; rfl
  refine ⟨N, c, hN, k3, k4, ?_, surd_toContfrac_value_same_sign cfg s h hs N c (hN N le_rfl)⟩
  have h8 : (toInts c.a).length = l.length := by rw [k7 l p' q' r2 r4]
  simp [toInts] at h8
  omega

/-- the condition in integers -/
theorem surd_split_of_le (s : Surd) (h : s.RealOk) (hc : s.c * s.c ≤ 4 * (s.r * s.b * s.b)) : Int.fract |s.val| < |s.val - s.conjVal| := by
  refine lt_of_lt_of_le (Int.fract_lt_one _) ?_
  have hcp : (0 : ℝ) < s.c := by exact_mod_cast h.c_pos
  have hsq : √(s.r : ℝ) * √(s.r : ℝ) = s.r := Real.mul_self_sqrt (by exact_mod_cast h.real)
  have hd : s.val - s.conjVal = 2 * s.b * √(s.r : ℝ) / s.c := by unfold val conjVal quadR; push_cast; field_simp; ring
  have hc' : (s.c : ℝ) * s.c ≤ 4 * (s.r * s.b * s.b) := by exact_mod_cast hc
  rw [hd, abs_div, abs_of_pos hcp, le_div_iff₀ hcp, one_mul]
  refine le_trans (le_abs_self _) (sq_le_sq.1 ?_)
  have : (2 * s.b * √(s.r : ℝ)) ^ 2 = 4 * (s.r * s.b * s.b) := by linear_combination 4 * (s.b : ℝ) * s.b * hsq
  rw [this, sq]
  exact hc'

/-- `9 + 4√2`: its conjugate is positive too -/
example : RealOk ⟨9, 4, 1, 2⟩ ∧ (1 : ℤ) * 1 ≤ 4 * (2 * 4 * 4) ∧ ¬ (9 : ℤ) * 9 < 2 * 4 * 4 ∧
    toContfrac ⟨false, true⟩ 30 ⟨9, 4, 1, 2⟩ = some (.ok (some ⟨[14], [1, 1, 1, 10], false⟩)) := by decide +kernel

end Surd
end NumIrr
