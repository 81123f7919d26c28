/-
The convergents of `exp(t)` for negative `t`: they lie alternately above and below the number.
-/
import Verif.Lemmas.GStraddle
import Verif.Lemmas.ExpIrr
import Verif.Props.ExpFrac
import Verif.Props.Simplify
import Mathlib.Analysis.Calculus.Deriv.MeanValue
import Mathlib.Analysis.SpecialFunctions.ExpDeriv

namespace NumIrr

open Block Filter Topology Finset

/-! ### partial sums -/

/-- the partial sums of the exponential series -/
noncomputable def tay (n : ℕ) (u : ℝ) : ℝ := ∑ k ∈ range (n + 1), u ^ k / k.factorial

theorem tay_succ (n : ℕ) (u : ℝ) : tay (n + 1) u = tay n u + u ^ (n + 1) / (n + 1).factorial := by
  rw [tay, sum_range_succ]; rfl

theorem tay_zero (n : ℕ) : tay n 0 = 1 := by
  induction n with
  | zero => simp [tay]
  | succ n ih => rw [tay_succ, ih]; simp

theorem tay_deriv (n : ℕ) (u : ℝ) : HasDerivAt (tay (n + 1)) (tay n u) u := by
  induction n with
  | zero =>
    have : tay 1 = fun u => 1 + u := by funext u; simp [tay, sum_range_succ]
    rw [this]
    have h := (hasDerivAt_id u).const_add 1
    simpa [tay] using h
  | succ n ih =>
    have e : tay (n + 1 + 1) = fun u => tay (n + 1) u + u ^ (n + 2) / (n + 2).factorial := by
      funext u; rw [tay_succ]
    rw [e]
    have h := ih.add ((hasDerivAt_pow (n + 2) u).div_const ((n + 2).factorial : ℝ))
    have e2 : tay (n + 1) u = tay n u + ((n + 2 : ℕ) : ℝ) * u ^ (n + 2 - 1) / ((n + 2).factorial : ℝ) := by
      rw [tay_succ]
      congr 1
      rw [Nat.factorial_succ (n + 1)]
      have h1 : ((n + 1).factorial : ℝ) ≠ 0 := by positivity
      have h2 : ((n : ℝ) + 1 + 1) ≠ 0 := by positivity
      push_cast
      field_simp
      ring
    rw [e2]
    exact h

/-- the error of the partial sums has alternating sign for negative arguments -/
theorem tay_sign (n : ℕ) {u : ℝ} (hu : u < 0) : 0 < (-1) ^ n * (tay n u - Real.exp u) := by
  induction n generalizing u with
  | zero =>
    have := Real.exp_lt_one_iff.mpr hu
    simp [tay]; linarith
  | succ n ih =>
    have hd : ∀ v : ℝ, HasDerivAt (fun v => (-1) ^ (n + 1) * (tay (n + 1) v - Real.exp v))
        ((-1) ^ (n + 1) * (tay n v - Real.exp v)) v := fun v =>
      ((tay_deriv n v).sub (Real.hasDerivAt_exp v)).const_mul _
    have hanti : StrictAntiOn (fun v => (-1) ^ (n + 1) * (tay (n + 1) v - Real.exp v)) (Set.Iic (0 : ℝ)) := by
      refine strictAntiOn_of_deriv_neg (convex_Iic 0) (fun v _ => (hd v).continuousAt.continuousWithinAt) fun v hv => ?_
      rw [interior_Iic] at hv
      rw [(hd v).deriv, pow_succ]
      have := ih hv
      linarith
    have := hanti (Set.mem_Iic.mpr hu.le) (Set.mem_Iic.mpr le_rfl) hu
    simp only [tay_zero, Real.exp_zero, sub_self, mul_zero] at this
    exact this

/-! ### errors of the convergents -/

/-- error of the convergent with `k` pairs -/
noncomputable def expE (t : ℤ) (k : ℕ) : ℝ := gP (expG t) k - Real.exp t * gQ (expG t) k

theorem expE_eq (t : ℤ) (n : ℕ) : expE t (n + 1) = n.factorial * (tay n t - Real.exp t) := by
  obtain ⟨h1, h2⟩ := exp_gP t n
  have h3 : (expS t n : ℝ) = n.factorial * tay n t := by
    have := expS_eq t n
    have h := congrArg (fun q : ℚ => (q : ℝ)) this
    simp only [tay]
    push_cast at h
    exact h
  rw [expE, h1, h2, h3]
  push_cast
  ring

theorem expE_sign {t : ℤ} (ht : t < 0) (n : ℕ) : 0 < (-1) ^ n * expE t (n + 1) := by
  rw [expE_eq]
  have := tay_sign n (u := (t : ℝ)) (by exact_mod_cast ht)
  have h : (0 : ℝ) < n.factorial := by positivity
  nlinarith [mul_pos h this]

theorem expE_ne {t : ℤ} (ht : t < 0) (n : ℕ) : expE t (n + 1) ≠ 0 := by
  intro h
  have := expE_sign ht n
  rw [h] at this
  simp at this

theorem expE_mul {t : ℤ} (ht : t < 0) (n : ℕ) : expE t (n + 1) * expE t (n + 2) < 0 := by
  have h1 := expE_sign ht n
  have h2 := expE_sign ht (n + 1)
  have h := mul_pos h1 h2
  have e : (-1 : ℝ) ^ n * (-1) ^ n = 1 := by rw [← mul_pow]; simp
  rw [pow_succ] at h
  nlinarith [h, e]

theorem exp_Q_pos (t : ℤ) (k : ℕ) : 0 < gQ (expG t) (k + 1) := by
  rw [(exp_gP t k).2]; positivity

theorem exp_straddle {t : ℤ} (ht : t < 0) : Straddle (expG t) (Real.exp t) := by
  refine ⟨exp_Q_pos t, fun k => ?_⟩
  have := expE_mul ht k
  simp only [expE] at this
  exact this.le

theorem exp_cto (t : ℤ) : CTo (expG t) (Real.exp t) := by
  refine (GIter.exp_limit t).congr fun n => ?_
  obtain ⟨h1, h2⟩ := exp_gP t n
  rw [h1, h2]
  have h3 := expS_eq t n
  have h4 : ((n.factorial : ℕ) : ℚ) ≠ 0 := by positivity
  have : ∑ k ∈ range (n + 1), (t : ℚ) ^ k / k.factorial = (expS t n : ℚ) / n.factorial := by rw [h3]; field_simp
  rw [this]
  push_cast
  rfl

/-- the rest behind `k` pairs -/
noncomputable def expW (t : ℤ) (k : ℕ) : ℝ := -expE t (k - 1) / expE t k

theorem expW_pos {t : ℤ} (ht : t < 0) (k : ℕ) : 0 < expW t (k + 2) := by
  have h := expE_mul ht k
  have h0 := expE_ne ht (k + 1)
  rw [expW, show k + 2 - 1 = k + 1 from rfl]
  have : -expE t (k + 1) / expE t (k + 2) = -(expE t (k + 1) * expE t (k + 2)) / (expE t (k + 2)) ^ 2 := by
    field_simp
  rw [this]
  have h2 : 0 < expE t (k + 2) ^ 2 := by positivity
  exact div_pos (by linarith) h2

theorem expE_rec (t : ℤ) (k : ℕ) : expE t (k + 2) = (expG t (k + 1)).2 * expE t (k + 1) + (expG t (k + 1)).1 * expE t k := by
  simp only [expE, gP_rec, gQ_rec]
  push_cast
  ring

theorem expW_chain {t : ℤ} (ht : t < 0) (k : ℕ) :
    ((expG t (k + 1)).1 : ℝ) * expW t (k + 1) = (expG t (k + 1)).2 + 1 / expW t (k + 2) := by
  have h1 := expE_ne ht k
  have h2 := expE_ne ht (k + 1)
  have h := expE_rec t k
  simp only [expW, show k + 2 - 1 = k + 1 from rfl, Nat.add_sub_cancel]
  rw [one_div_div]
  field_simp
  linear_combination h

/-! ### the pairs are positive from some point on -/

theorem expG_eq (t : ℤ) (k : ℕ) (hk : 2 ≤ k) : expG t k = (-(((k : ℤ) - 1) * t), k + t) := by
  unfold expG
  rw [if_neg (by omega), if_neg (by omega)]

theorem expG_nonneg {t : ℤ} (ht : t < 0) (k : ℕ) (hk : 2 ≤ k) (hkt : -t ≤ k) : 1 ≤ (expG t k).1 ∧ 0 ≤ (expG t k).2 := by
  rw [expG_eq t k hk]
  constructor
  · simp only
    have : (1 : ℤ) ≤ (k : ℤ) - 1 := by omega
    nlinarith
  · simp only; omega

theorem pow_ge_factorial (T : ℕ) (j : ℕ) (h1 : j + 1 ≤ T) : T * (j + 1).factorial ≤ T ^ (j + 1) := by
  induction j with
  | zero => simp
  | succ j ih =>
    rw [Nat.factorial_succ (j + 1), pow_succ]
    have := ih (by omega)
    calc T * ((j + 1 + 1) * (j + 1).factorial) = (T * (j + 1).factorial) * (j + 1 + 1) := by ring
      _ ≤ T ^ (j + 1) * T := Nat.mul_le_mul this h1

/-- two consecutive convergents between `-1` and `1` occur only after the terms of the series have begun to decrease -/
theorem exp_small {t : ℤ} (ht : t < 0) (k : ℕ) (h1 : |gP (expG t) (k + 1)| < gQ (expG t) (k + 1))
    (h2 : |gP (expG t) (k + 2)| < gQ (expG t) (k + 2)) : -t ≤ k := by
  by_contra hc
  obtain ⟨T, hT⟩ : ∃ T : ℕ, t = -(T : ℤ) := ⟨t.natAbs, by omega⟩
  obtain ⟨e1, e2⟩ := exp_gP t k
  obtain ⟨e3, e4⟩ := exp_gP t (k + 1)
  rw [e1, e2] at h1
  rw [show k + 2 = k + 1 + 1 from rfl, e3, e4] at h2
  have e5 : t ^ (k + 1) = expS t (k + 1) - (k + 1) * expS t k := by simp only [expS]; ring
  have h3 : |t ^ (k + 1)| < 2 * (k + 1).factorial := by
    rw [e5]
    have a1 : |expS t (k + 1) - (k + 1) * expS t k| ≤ |expS t (k + 1)| + (k + 1) * |expS t k| := by
      have := abs_sub (expS t (k + 1)) ((k + 1) * expS t k)
      rw [abs_mul, abs_of_nonneg (show (0 : ℤ) ≤ k + 1 by positivity)] at this
      exact this
    have a2 : ((k : ℤ) + 1) * |expS t k| < (k + 1) * k.factorial :=
      mul_lt_mul_of_pos_left h1 (by positivity)
    have a3 : (((k + 1).factorial : ℕ) : ℤ) = (k + 1) * k.factorial := by
      rw [Nat.factorial_succ]; push_cast; ring
    rw [a3] at h2 ⊢
    linarith
  have hk : k + 1 ≤ T := by omega
  have h4 := pow_ge_factorial T k hk
  have h5 : |t ^ (k + 1)| = ((T ^ (k + 1) : ℕ) : ℤ) := by
    rw [abs_pow, hT, abs_neg]; simp
  rw [h5] at h3
  have h6 : T ^ (k + 1) < 2 * (k + 1).factorial := by exact_mod_cast h3
  have hT2 : T < 2 := by
    by_contra h
    have : 2 * (k + 1).factorial ≤ T * (k + 1).factorial := Nat.mul_le_mul_right _ (by omega)
    omega
  have hk0 : k = 0 := by omega
  subst hk0
  simp [expS] at h1

end NumIrr
