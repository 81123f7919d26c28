/-
The integrals `√2ⁿ⁺¹ ∫₀¹ τⁿ/(τ²+√2τ+1)ⁿ⁺¹ dτ` and the complete quotients of `π = 4/(1 + 1²/(3 + 2²/(5 + …)))`.
-/
import Verif.Lemmas.ChainConv
import Mathlib.Analysis.SpecialFunctions.Trigonometric.ArctanDeriv
import Mathlib.MeasureTheory.Integral.IntervalIntegral.FundThmCalculus

namespace NumIrr

open intervalIntegral

noncomputable def r2 : ℝ := Real.sqrt 2

theorem r2_sq : r2 * r2 = 2 := Real.mul_self_sqrt (by norm_num)
theorem r2_pos : 0 < r2 := Real.sqrt_pos.mpr (by norm_num)

/-- `τ² + √2τ + 1` -/
noncomputable def piD (t : ℝ) : ℝ := t ^ 2 + r2 * t + 1

theorem piD_pos (t : ℝ) : 0 < piD t := by
  unfold piD
  nlinarith [sq_nonneg (t + r2 / 2), r2_sq]

theorem piD_deriv (t : ℝ) : HasDerivAt piD (2 * t + r2) t := by
  unfold piD
  refine (((hasDerivAt_pow 2 t).add ((hasDerivAt_id t).const_mul r2)).add_const 1).congr_deriv ?_
  simp

theorem piD_cont : Continuous piD := by unfold piD; fun_prop

/-- the integrand -/
noncomputable def piF (n : ℕ) (t : ℝ) : ℝ := r2 ^ (n + 1) * t ^ n / piD t ^ (n + 1)

theorem piF_cont (n : ℕ) : Continuous (piF n) := by
  unfold piF
  have := piD_cont
  exact (by fun_prop : Continuous fun t : ℝ => r2 ^ (n + 1) * t ^ n).div (piD_cont.pow _) fun t => (pow_pos (piD_pos t) _).ne'

theorem piF_int (n : ℕ) : IntervalIntegrable (piF n) MeasureTheory.volume 0 1 := (piF_cont n).intervalIntegrable 0 1

noncomputable def piW (n : ℕ) : ℝ := ∫ t in (0 : ℝ)..1, piF n t

theorem piW_pos (n : ℕ) : 0 < piW n := by
  refine intervalIntegral_pos_of_pos_on (piF_int n) (fun t ht => ?_) zero_lt_one
  have h1 : 0 < t := ht.1
  have h2 := piD_pos t
  have h3 := r2_pos
  unfold piF
  positivity

/-- the primitive -/
noncomputable def piG (n : ℕ) (t : ℝ) : ℝ := (1 - t ^ 2) * t ^ n * r2 ^ (n + 2) / (2 * piD t ^ (n + 1))

theorem piG_deriv (n : ℕ) (t : ℝ) :
    HasDerivAt (piG (n + 1)) ((n + 1) * piF n t - (2 * n + 3) * piF (n + 1) t - (n + 2) * piF (n + 2) t) t := by
  unfold piG
  have hD := piD_pos t
  have h1 := (((hasDerivAt_pow 2 t).const_sub 1).mul (hasDerivAt_pow (n + 1) t)).mul_const (r2 ^ (n + 1 + 2))
  have h2 := ((piD_deriv t).pow (n + 1 + 1)).const_mul 2
  have h0 : 2 * piD t ^ (n + 1 + 1) ≠ 0 := by positivity
  refine (h1.div h2 h0).congr_deriv ?_
  have hs := r2_sq
  have e : piD t = t ^ 2 + r2 * t + 1 := rfl
  simp only [piF, Pi.mul_apply, Pi.pow_apply, Nat.add_sub_cancel]
  generalize piD t = D at *
  have key : (-(2 * t ^ 2) + (n + 1) * (1 - t ^ 2)) * D - (n + 2) * ((1 - t ^ 2) * t * (2 * t + r2))
      = (n + 1) * D ^ 2 - (2 * n + 3) * (r2 * t * D) - (n + 2) * (r2 ^ 2 * t ^ 2) := by
    rw [e]
    linear_combination (n + 1) * t ^ 2 * hs + (n + 2) * t ^ 2 * hs + t ^ 2 * hs
  have hR : (n + 1) * (r2 ^ (n + 1) * t ^ n / D ^ (n + 1)) - (2 * n + 3) * (r2 ^ (n + 1 + 1) * t ^ (n + 1) / D ^ (n + 1 + 1))
        - (n + 2) * (r2 ^ (n + 2 + 1) * t ^ (n + 2) / D ^ (n + 2 + 1))
      = r2 ^ (n + 1) * t ^ n / D ^ (n + 3) *
        ((n + 1) * D ^ 2 - (2 * n + 3) * (r2 * t * D) - (n + 2) * (r2 ^ 2 * t ^ 2)) := by
    field_simp
    ring
  rw [hR, ← key, div_eq_iff (by positivity)]
  have e3 : r2 ^ (n + 1 + 2) = 2 * r2 ^ (n + 1) := by rw [pow_add, pow_two, hs]; ring
  rw [e3]
  push_cast
  field_simp
  ring

theorem piW_rec (n : ℕ) : (n + 1) * piW n = (2 * n + 3) * piW (n + 1) + (n + 2) * piW (n + 2) := by
  have h := integral_eq_sub_of_hasDerivAt (a := 0) (b := 1) (fun t _ => piG_deriv n t)
    ((((piF_int _).const_mul _).sub ((piF_int _).const_mul _)).sub ((piF_int _).const_mul _))
  rw [integral_sub (((piF_int _).const_mul _).sub ((piF_int _).const_mul _)) ((piF_int _).const_mul _),
    integral_sub ((piF_int _).const_mul _) ((piF_int _).const_mul _), integral_const_mul, integral_const_mul,
    integral_const_mul] at h
  simp only [piG] at h
  simp only [one_pow, sub_self, zero_mul, zero_div, ne_eq, Nat.add_eq_zero_iff, one_ne_zero, and_false, not_false_eq_true,
    zero_pow, mul_zero] at h
  unfold piW
  linarith

theorem piG0_deriv (t : ℝ) : HasDerivAt (piG 0) (-piF 0 t - piF 1 t) t := by
  unfold piG
  have hD := piD_pos t
  have h1 := (((hasDerivAt_pow 2 t).const_sub 1).mul_const ((t : ℝ) ^ 0)).mul_const (r2 ^ (0 + 2))
  have h2 := ((piD_deriv t).pow (0 + 1)).const_mul 2
  have h0 : 2 * piD t ^ (0 + 1) ≠ 0 := by positivity
  have h3 := h1.div h2 h0
  simp only [pow_zero] at h3 ⊢
  refine h3.congr_deriv ?_
  have hs := r2_sq
  have e : piD t = t ^ 2 + r2 * t + 1 := rfl
  simp only [piF, Pi.pow_apply]
  generalize piD t = D at *
  have e3 : r2 ^ 2 = 2 := by rw [pow_two, hs]
  have hD0 : D ≠ 0 := hD.ne'
  simp
  field_simp
  simp only [e3]
  rw [e]
  linear_combination 4 * t * hs

theorem piW_one : piW 0 + piW 1 = 1 := by
  have hn : IntervalIntegrable (fun t => -piF 0 t) MeasureTheory.volume 0 1 := (piF_int 0).neg
  have h := integral_eq_sub_of_hasDerivAt (a := 0) (b := 1) (fun t _ => piG0_deriv t) (hn.sub (piF_int 1))
  rw [integral_sub hn (piF_int 1), integral_neg] at h
  simp only [piG, piD] at h
  have e3 : r2 ^ 2 = 2 := by rw [pow_two, r2_sq]
  norm_num [e3] at h
  unfold piW
  linarith

theorem piW_zero : piW 0 = Real.pi / 4 := by
  have hd : ∀ t : ℝ, HasDerivAt (fun t => 2 * Real.arctan (r2 * t + 1)) (piF 0 t) t := by
    intro t
    have h1 := ((((hasDerivAt_id t).const_mul r2).add_const 1).arctan).const_mul 2
    refine h1.congr_deriv ?_
    have hD := piD_pos t
    have e : piD t = t ^ 2 + r2 * t + 1 := rfl
    simp only [piF, id, pow_zero, zero_add, pow_one, mul_one]
    have h3 : 1 + (r2 * t + 1) ^ 2 = 2 * piD t := by rw [e]; linear_combination t ^ 2 * r2_sq
    rw [h3]
    field_simp
  rw [piW, integral_eq_sub_of_hasDerivAt (fun t _ => hd t) (piF_int 0)]
  have hp := r2_pos
  have h1 : 2 * Real.arctan (r2 * 1 + 1) = Real.arctan (2 * (r2 * 1 + 1) / (1 - (r2 * 1 + 1) ^ 2)) + Real.pi :=
    Real.two_mul_arctan_add_pi (by linarith)
  have h2 : 2 * (r2 * 1 + 1) / (1 - (r2 * 1 + 1) ^ 2) = -1 := by
    have e : 1 - (r2 * 1 + 1) ^ 2 = -(2 * (r2 * 1 + 1)) := by linear_combination -r2_sq
    rw [e, div_neg, div_self (by positivity)]
  rw [h1, h2, Real.arctan_neg, Real.arctan_one, mul_zero, zero_add, Real.arctan_one]
  ring

/-- the pairs `(1,0), (4,1), (1,3), (4,5), (9,7), …` -/
def piPair (k : ℕ) : ℤ × ℤ :=
  if k = 0 then (1, 0) else if k = 1 then (4, 1) else (((k : ℤ) - 1) ^ 2, 2 * k - 1)

theorem piPair_succ (k : ℕ) : piPair (k + 2) = (((k : ℤ) + 1) ^ 2, 2 * (k : ℤ) + 3) := by
  unfold piPair
  rw [if_neg (by omega), if_neg (by omega)]
  push_cast
  congr 1 <;> ring

theorem piPair_pos : PosG piPair := by
  refine ⟨rfl, by simp [piPair], fun k => ?_⟩
  cases k with
  | zero => simp [piPair]
  | succ k =>
    have hk : (0 : ℤ) ≤ k := by positivity
    rw [piPair_succ]
    exact ⟨by simp only; nlinarith, by simp only; omega⟩

/-- the complete quotients -/
noncomputable def piQuot (k : ℕ) : ℝ :=
  if k = 0 then Real.pi else if k = 1 then 1 / Real.pi else piW (k - 2) / (((k - 1 : ℕ) : ℝ) * piW (k - 1))

theorem piQuot_succ (k : ℕ) : piQuot (k + 2) = piW k / ((k + 1) * piW (k + 1)) := by
  unfold piQuot
  rw [if_neg (by omega), if_neg (by omega)]
  simp

theorem piPair_chain : Chain piPair piQuot := by
  intro k
  rcases k with _ | _ | k
  · refine ⟨Real.pi_pos, ?_⟩
    simp [piPair, piQuot]
  · have hp := Real.pi_pos
    have h0 := piW_pos 0
    have h1 := piW_pos 1
    refine ⟨by simp only [piQuot]; simpa using hp, ?_⟩
    rw [piQuot_succ]
    have e1 : piW 1 = 1 - Real.pi / 4 := by rw [← piW_zero]; linarith [piW_one]
    simp only [piPair, piQuot, Nat.cast_zero, zero_add, one_mul]
    rw [one_div_div, e1, piW_zero]
    simp
    field_simp
    ring
  · have h0 := piW_pos k
    have h1 := piW_pos (k + 1)
    have h2 := piW_pos (k + 2)
    refine ⟨by rw [piQuot_succ]; positivity, ?_⟩
    rw [piPair_succ, piQuot_succ, show k + 1 + 1 + 1 = (k + 1) + 2 by ring, piQuot_succ]
    have h := piW_rec k
    have hk : ((k : ℝ) + 1) ≠ 0 := by positivity
    push_cast
    rw [one_div_div]
    field_simp
    rw [show k + 1 + 1 = k + 2 from rfl]
    linarith

/-- `4/(1 + 1²/(3 + 2²/(5 + …))) = π` -/
theorem piPair_val : GVal piPair Real.pi := by
  have h := piPair_chain.cto piPair_pos.posT fun k => by
    rw [piPair_succ]
    cases k with
    | zero => simp [piPair]
    | succ k => rw [piPair_succ]; push_cast; nlinarith [sq_nonneg (k : ℤ)]
  exact h.gVal piPair_pos

end NumIrr
