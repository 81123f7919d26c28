/-
`eᵗ` is irrational for every integer `t ≠ 0`.
-/
import Mathlib.NumberTheory.Transcendental.Lindemann.AnalyticalPart
import Mathlib.NumberTheory.Real.Irrational
import Mathlib.Topology.Algebra.Order.Floor
import Mathlib.Analysis.SpecificLimits.Normed
import Mathlib.Data.Nat.Prime.Infinite

namespace NumIrr

open Polynomial Filter Topology

theorem exp_int_irrational {t : ℤ} (ht : t ≠ 0) : Irrational (Real.exp t) := by
  rintro ⟨q, hq⟩
  obtain ⟨c, hc⟩ := LindemannWeierstrass.exp_polynomial_approx (X - C t : ℤ[X]) (by simpa using ht)
  have hq0 : q ≠ 0 := by
    rintro rfl
    have := Real.exp_pos (t : ℝ)
    rw [← hq] at this
    simp at this
  -- a large prime
  have hlim : Tendsto (fun m : ℕ => (q.den : ℝ) * (c * (c ^ m / (m.factorial : ℝ)))) atTop (𝓝 0) := by
    have := ((FloorSemiring.tendsto_pow_div_factorial_atTop c).const_mul c).const_mul (q.den : ℝ)
    simpa using this
  obtain ⟨M, hM⟩ := eventually_atTop.mp (hlim.eventually (gt_mem_nhds (show (0 : ℝ) < 1 by norm_num)))
  obtain ⟨p, hp, hpp⟩ := Nat.exists_infinite_primes (M + 1 + t.natAbs + 1 + q.num.natAbs + 1)
  obtain ⟨n, hn, gp, -, h⟩ := hc p (by simp; omega) hpp
  have hr : ((t : ℤ) : ℂ) ∈ (X - C t : ℤ[X]).aroots ℂ := by
    rw [mem_aroots]
    refine ⟨X_sub_C_ne_zero t, by simp⟩
  have h := h hr
  have e1 : aeval ((t : ℤ) : ℂ) gp = ((gp.eval t : ℤ) : ℂ) := by
    have := aeval_algebraMap_apply_eq_algebraMap_eval (A := ℂ) t gp
    simpa using this
  have e2 : Complex.exp ((t : ℤ) : ℂ) = ((q : ℝ) : ℂ) := by
    rw [hq]; push_cast; rfl
  rw [e1, e2] at h
  have e3 : (n • ((q : ℝ) : ℂ) - p • ((gp.eval t : ℤ) : ℂ)) = (((n * q - p * gp.eval t : ℝ)) : ℂ) := by
    push_cast
    simp
  rw [e3, Complex.norm_real, Real.norm_eq_abs] at h
  have hM' := hM (p - 1) (by omega)
  have hcp : c * (c ^ (p - 1) / ((p - 1).factorial : ℝ)) = c ^ p / ((p - 1).factorial : ℝ) := by
    rw [← mul_div_assoc, ← pow_succ', Nat.sub_add_cancel hpp.one_le]
  rw [hcp] at hM'
  have hd : (0 : ℝ) < q.den := by exact_mod_cast q.den_pos
  have hlt : |((n * q.num - p * q.den * gp.eval t : ℤ) : ℝ)| < 1 := by
    have e4 : ((n * q.num - p * q.den * gp.eval t : ℤ) : ℝ) = q.den * (n * q - p * gp.eval t) := by
      have e5 : (q.den : ℝ) * (q : ℝ) = q.num := by
        have : (q.den : ℚ) * q = q.num := Rat.den_mul_eq_num q
        exact_mod_cast this
      push_cast
      linear_combination -(n : ℝ) * e5
    rw [e4, abs_mul, abs_of_pos hd]
    exact lt_of_le_of_lt (mul_le_mul_of_nonneg_left h hd.le) hM'
  have hz : n * q.num - p * q.den * gp.eval t = 0 := by
    have : |n * q.num - p * q.den * gp.eval t| < 1 := by exact_mod_cast hlt
    exact Int.abs_lt_one_iff.mp this
  have hdvd : (p : ℤ) ∣ n * q.num := ⟨q.den * gp.eval t, by linarith⟩
  rcases Int.Prime.dvd_mul' hpp hdvd with h1 | h1
  · exact hn h1
  · have : p ≤ q.num.natAbs := Nat.le_of_dvd (Int.natAbs_pos.mpr (by simpa using hq0)) (Int.natCast_dvd.mp h1)
    omega

end NumIrr
