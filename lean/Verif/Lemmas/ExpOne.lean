/-
The partial sums of the exponential series at 1 among the cells of the regular expansion of `e`.
-/
import Verif.Lemmas.ExpNeg
import Verif.Props.EFrac

namespace NumIrr

open Finset

/-! ### Complete quotients and denominators -/

theorem e_floor (k : ℕ) : ⌊tails (Real.exp 1) k⌋ = eC k := by
  have h := ECoeffs.e_regular k
  rw [ECoeffs.e_coeffs] at h
  exact (Option.some.inj h).symm

theorem e_tails (k : ℕ) : tails (Real.exp 1) k = eErr k / eErr (k + 1) := by
  induction k with
  | zero =>
    have h1 := eErr_J 0
    simp only [Nat.mul_zero, Nat.zero_add, Nat.factorial_zero, Nat.cast_one, div_one, eInt_one] at h1
    rw [Nat.zero_add, h1, div_one]; rfl
  | succ k ih =>
    have h1 := eErr_pos (k + 1)
    have h2 := eErr_pos (k + 2)
    rw [tails_succ, e_floor, ih, eErr_rec k, one_div, show (eC k * eErr (k + 1) + eErr (k + 2)) / eErr (k + 1) - eC k
      = eErr (k + 2) / eErr (k + 1) by field_simp; ring, inv_div]

theorem eErr_lt (k : ℕ) : eErr (k + 2) < eErr (k + 1) := by
  rw [eErr_rec (k + 1)]
  have h1 : (1 : ℝ) ≤ eC (k + 1) := by exact_mod_cast eC_pos (k + 1)
  have h2 := eErr_pos (k + 1 + 1)
  have h3 := eErr_pos (k + 1 + 2)
  nlinarith

/-- denominators of the regular convergents of `e`, shifted by two -/
def eQ : ℕ → ℤ
  | 0 => 1
  | 1 => 0
  | k + 2 => eC k * eQ (k + 1) + eQ k

theorem eQ_nonneg (k : ℕ) : 0 ≤ eQ k ∧ 0 ≤ eQ (k + 1) := by
  induction k with
  | zero => simp [eQ]
  | succ k ih =>
    refine ⟨ih.2, ?_⟩
    have := eC_pos k
    have := mul_nonneg (show 0 ≤ eC k by omega) ih.2
    simp only [eQ]
    omega

theorem eErr_eQ (k : ℕ) : eErr k * eQ (k + 1) + eErr (k + 1) * eQ k = 1 := by
  induction k with
  | zero =>
    have h1 := eErr_J 0
    simp only [Nat.mul_zero, Nat.zero_add, Nat.factorial_zero, Nat.cast_one, div_one, eInt_one] at h1
    simp [eQ, h1]
  | succ k ih =>
    rw [eErr_rec k] at ih
    simp only [eQ]
    push_cast
    linear_combination ih

/-- the error of the `k`-th remainder for a number below `e` by `d` -/
noncomputable def eW (k : ℕ) (d : ℝ) : ℝ := eErr k - (-1) ^ k * d * eQ k

theorem eW_rec (k : ℕ) (d : ℝ) : eW k d = eC k * eW (k + 1) d + eW (k + 2) d := by
  unfold eW
  rw [eErr_rec k]
  simp only [eQ]
  push_cast
  rw [pow_succ, pow_succ]
  ring

theorem eW_mono {j : ℕ} {d d' : ℝ} (h0 : 0 < d) (hd : d < d') (h1 : 0 ≤ eW (j + 2) d') (h2 : eW (j + 2) d' < eW (j + 1) d') :
    0 < eW (j + 2) d ∧ eW (j + 2) d < eW (j + 1) d := by
  have e1 := eErr_pos (j + 2)
  have e2 := eErr_lt j
  have hd' : 0 < d' := h0.trans hd
  unfold eW at *
  constructor
  · have : 0 < d' * (eErr (j + 2) - (-1) ^ (j + 2) * d * eQ (j + 2)) := by
      have := mul_nonneg h0.le h1
      nlinarith
    exact (mul_pos_iff_of_pos_left hd').mp this
  · have : 0 < d' * (eErr (j + 1) - (-1) ^ (j + 1) * d * eQ (j + 1) - (eErr (j + 2) - (-1) ^ (j + 2) * d * eQ (j + 2))) := by
      have := mul_pos h0 (sub_pos.mpr h2)
      nlinarith
    have := (mul_pos_iff_of_pos_left hd').mp this
    linarith

private theorem cell_below {n i A B C q q' d d' : ℝ} (h0 : 0 < d) (hd : (n + 1) * d ≤ d') (q0 : 0 ≤ q) (q0' : 0 ≤ q')
    (hi : 1 ≤ i) (hn : 5 ≤ n) (hC : 0 < C) (hB : B < 2 * C) (hr : C ≤ A - (i + 1) * B)
    (h2 : A - d * q < (i + 1) * (B + d * q')) (h1' : i * (B + d' * q') ≤ A - d' * q) : False := by
  have a1 : A - (i + 1) * B < d * (q + (i + 1) * q') := by linarith
  have a2 : d' * (q + i * q') ≤ (A - (i + 1) * B) + B := by linarith
  generalize A - (i + 1) * B = r at *
  have a3 : q + (i + 1) * q' ≤ 2 * (q + i * q') := by
    have := mul_nonneg (sub_nonneg.mpr hi) q0'
    linarith
  have hX : 0 ≤ q + i * q' := add_nonneg q0 (mul_nonneg (by linarith) q0')
  have b1 : (n + 1) * r ≤ (n + 1) * (d * (q + (i + 1) * q')) := mul_le_mul_of_nonneg_left a1.le (by linarith)
  have b2 : (n + 1) * (d * (q + (i + 1) * q')) ≤ (n + 1) * (d * (2 * (q + i * q'))) :=
    mul_le_mul_of_nonneg_left (mul_le_mul_of_nonneg_left a3 h0.le) (by linarith)
  have b3 : (n + 1) * d * (2 * (q + i * q')) ≤ d' * (2 * (q + i * q')) := mul_le_mul_of_nonneg_right hd (by linarith)
  have b4 : (n - 1) * r ≤ 2 * B := by linarith
  have b5 : 4 * C ≤ (n - 1) * r := mul_le_mul (by linarith) hr hC.le (by linarith)
  linarith

private theorem cell_above {n i A B r q q' d d' : ℝ} (h0 : 0 < d) (hd : (n + 1) * d ≤ d') (q0 : 0 ≤ q) (q0' : 0 ≤ q')
    (hi : 1 ≤ i) (hn : 5 ≤ n) (hr : r ≤ i * B - A) (hB : B ≤ n * r)
    (h1 : i * (B - d * q') ≤ A + d * q) (h2' : A + d' * q < (i + 1) * (B - d' * q')) : False := by
  have a1 : i * B - A ≤ d * (q + i * q') := by linarith
  have a2 : d' * (q + (i + 1) * q') < (i * B - A) + B := by linarith
  generalize i * B - A = s at *
  have hX : 0 ≤ q + i * q' := add_nonneg q0 (mul_nonneg (by linarith) q0')
  have hd' : 0 ≤ d' := le_trans (mul_nonneg (by linarith) h0.le) hd
  have b1 : (n + 1) * s ≤ (n + 1) * (d * (q + i * q')) := mul_le_mul_of_nonneg_left a1 (by linarith)
  have b3 : (n + 1) * d * (q + i * q') ≤ d' * (q + i * q') := mul_le_mul_of_nonneg_right hd hX
  have b4 : 0 ≤ d' * q' := mul_nonneg hd' q0'
  have b5 : n * r ≤ n * s := mul_le_mul_of_nonneg_left hr (by linarith)
  linarith

theorem eC_next {j : ℕ} (h : 2 ≤ eC j) : eC (j + 1) = 1 := by
  unfold eC at h ⊢
  rw [if_neg (by omega)]
  by_cases hj0 : j = 0
  · rw [hj0]; rfl
  · rw [if_neg hj0] at h
    by_cases h3 : j % 3 = 2
    · rw [if_neg (by omega)]
    · rw [if_neg h3] at h; omega

private theorem errs_below {j : ℕ} (h : 2 ≤ eC j) : eErr (j + 1) < 2 * eErr (j + 2) := by
  have R1 := eErr_rec (j + 1)
  rw [eC_next h] at R1
  have L3 := eErr_lt (j + 1)
  simp only [Nat.add_assoc, Nat.reduceAdd] at R1 L3
  push_cast at R1
  linarith

private theorem errs_above {j n : ℕ} (hn : 5 ≤ n) (hc : eC (j + 2) + 2 ≤ n) :
    eErr (j + 1) ≤ n * (eErr (j + 1) - eErr (j + 2)) := by
  have E1 := eErr_pos (j + 1)
  have E2 := eErr_pos (j + 2)
  have E3 := eErr_pos (j + 3)
  have L4 := eErr_lt (j + 2)
  have R1 := eErr_rec (j + 1)
  have R2 := eErr_rec (j + 2)
  simp only [Nat.add_assoc, Nat.reduceAdd] at R1 R2 L4
  have hn' : (5 : ℝ) ≤ n := by exact_mod_cast hn
  have hc' : (eC (j + 2) : ℝ) + 2 ≤ n := by exact_mod_cast hc
  rcases (eC_pos (j + 1)).eq_or_lt with h | h
  · rw [← h] at R1
    push_cast at R1
    have : ((eC (j + 2) : ℝ) + 2) * eErr (j + 3) ≤ n * eErr (j + 3) := mul_le_mul_of_nonneg_right hc' E3.le
    rw [R1, show ((1 : ℝ) * eErr (j + 2) + eErr (j + 3) - eErr (j + 2)) = eErr (j + 3) by ring]
    linarith
  · have h' : (2 : ℝ) ≤ eC (j + 1) := by exact_mod_cast h
    have : 2 * eErr (j + 2) ≤ eC (j + 1) * eErr (j + 2) := mul_le_mul_of_nonneg_right h' E2.le
    have h3 : eErr (j + 1) / 2 ≤ eErr (j + 1) - eErr (j + 2) := by linarith
    have : (n : ℝ) * (eErr (j + 1) / 2) ≤ n * (eErr (j + 1) - eErr (j + 2)) :=
      mul_le_mul_of_nonneg_left h3 (by linarith)
    have : 5 * (eErr (j + 1) / 2) ≤ n * (eErr (j + 1) / 2) := mul_le_mul_of_nonneg_right hn' (by linarith)
    linarith

/-- Two numbers below `e`, the nearer one by a factor of at least `n + 1` nearer, with the same floor of the `j`-th
quotient: it is the coefficient of `e`. -/
theorem eCell {j n : ℕ} {i : ℤ} {d d' : ℝ} (h0 : 0 < d) (hd : (n + 1) * d ≤ d') (h1 : i * eW (j + 1) d ≤ eW j d)
    (h2 : eW j d < (i + 1) * eW (j + 1) d) (h1' : i * eW (j + 1) d' ≤ eW j d') (h2' : eW j d' < (i + 1) * eW (j + 1) d')
    (hi : 1 ≤ i) (hn : 5 ≤ n) (hc : j % 2 = 1 → eC (j + 2) + 2 ≤ n) : i = eC j := by
  have q1 : (0 : ℝ) ≤ eQ j := by exact_mod_cast (eQ_nonneg j).1
  have q2 : (0 : ℝ) ≤ eQ (j + 1) := by exact_mod_cast (eQ_nonneg j).2
  have E1 := eErr_pos (j + 1)
  have E2 := eErr_pos (j + 2)
  have L2 := eErr_lt j
  have R0 := eErr_rec j
  have hn' : (5 : ℝ) ≤ n := by exact_mod_cast hn
  have hi' : (1 : ℝ) ≤ i := by exact_mod_cast hi
  rcases Nat.even_or_odd j with hj | hj
  · -- the quotients increase with the number
    have s0 : (-1 : ℝ) ^ j = 1 := hj.neg_one_pow
    simp only [eW, pow_succ, s0, one_mul, neg_mul, sub_neg_eq_add] at h1 h2 h1' h2'
    rcases lt_trichotomy i (eC j) with hlt | heq | hgt
    · have hlt' : (i : ℝ) + 1 ≤ eC j := by exact_mod_cast hlt
      refine (cell_below h0 hd q1 q2 hi' hn' E2 (errs_below (by omega)) ?_ h2 h1').elim
      rw [R0]
      have := mul_le_mul_of_nonneg_right hlt' E1.le
      linarith
    · exact heq
    · exfalso
      have hgt' : (eC j : ℝ) + 1 ≤ i := by exact_mod_cast hgt
      have b : 0 ≤ d * (eQ j + i * eQ (j + 1)) := by positivity
      have := mul_le_mul_of_nonneg_right hgt' E1.le
      linarith
  · -- they decrease
    have s0 : (-1 : ℝ) ^ j = -1 := hj.neg_one_pow
    simp only [eW, pow_succ, s0, one_mul, neg_mul, sub_neg_eq_add, neg_neg, mul_neg, mul_one] at h1 h2 h1' h2'
    rcases lt_trichotomy i (eC j) with hlt | heq | hgt
    · exfalso
      have hlt' : (i : ℝ) + 1 ≤ eC j := by exact_mod_cast hlt
      have b : 0 ≤ d * (eQ j + (i + 1) * eQ (j + 1)) := by positivity
      have := mul_le_mul_of_nonneg_right hlt' E1.le
      linarith
    · exact heq
    · have hgt' : (eC j : ℝ) + 1 ≤ i := by exact_mod_cast hgt
      refine (cell_above h0 hd q1 q2 hi' hn' ?_ (errs_above hn (hc (Nat.odd_iff.mp hj))) h1 h2').elim
      rw [R0]
      have := mul_le_mul_of_nonneg_right hgt' E1.le
      linarith

/-! ### growth of the denominators -/

theorem eQ_rec (k : ℕ) : eQ (k + 2) = eC k * eQ (k + 1) + eQ k := rfl

theorem eQ_growth (m : ℕ) (hm : 6 ≤ m) : ((2 * m + 1).factorial : ℤ) ≤ eQ (3 * m - 2) ^ 2 := by
  induction m, hm using Nat.le_induction with
  | base => decide +kernel
  | succ m hm ih =>
    have h1 := eQ_rec (3 * m - 2)
    have h2 := eQ_rec (3 * m - 2 + 1)
    have h0 := eQ_rec (3 * m - 2 - 1)
    obtain ⟨t, rfl⟩ : ∃ t, m = t + 1 := ⟨m - 1, by omega⟩
    rw [show 3 * (t + 1) - 2 = 3 * t + 1 by omega] at *
    rw [show 3 * (t + 1 + 1) - 2 = 3 * t + 4 by omega]
    simp only [Nat.add_sub_cancel, Nat.add_assoc, Nat.reduceAdd] at h0 h1 h2
    have c0 : eC (3 * t) = 1 := by unfold eC; rw [if_neg (by omega), if_neg (by omega)]
    have c1 : eC (3 * t + 1) = 1 := by unfold eC; rw [if_neg (by omega), if_neg (by omega)]
    have c2 : eC (3 * t + 2) = 2 * (t + 1) := by
      unfold eC
      rw [if_neg (by omega), if_pos (by omega), show (3 * t + 2 + 1) / 3 = t + 1 by omega]
      push_cast; ring
    rw [c0] at h0; rw [c1] at h1; rw [c2] at h2
    have p0 := (eQ_nonneg (3 * t)).1
    have p1 := (eQ_nonneg (3 * t)).2
    have hge : (4 * t + 5) * eQ (3 * t + 1) ≤ eQ (3 * t + 4) := by nlinarith
    have hsq : ((4 * t + 5) * eQ (3 * t + 1)) ^ 2 ≤ eQ (3 * t + 4) ^ 2 :=
      pow_le_pow_left₀ (by positivity) hge 2
    have hf : ((2 * (t + 1 + 1) + 1).factorial : ℤ) = (2 * t + 5) * (2 * t + 4) * (2 * (t + 1) + 1).factorial := by
      rw [show 2 * (t + 1 + 1) + 1 = 2 * (t + 1) + 1 + 1 + 1 by ring, Nat.factorial_succ, Nat.factorial_succ]
      push_cast; ring
    rw [hf]
    have : ((2 * t + 5) * (2 * t + 4) : ℤ) * (2 * (t + 1) + 1).factorial ≤ (4 * t + 5) ^ 2 * eQ (3 * t + 1) ^ 2 :=
      mul_le_mul (by nlinarith) ih (by positivity) (by positivity)
    nlinarith

/-! ### the partial sums -/

/-- the distance of the `n`-th partial sum from `e` -/
noncomputable def eD (n : ℕ) : ℝ := Real.exp 1 - tay n 1

theorem eD_succ (n : ℕ) : eD n = eD (n + 1) + 1 / (n + 1).factorial := by
  unfold eD; rw [tay_succ]; simp; ring

theorem eD_pos (n : ℕ) : 0 < eD n := by
  have h := Real.sum_le_exp_of_nonneg (x := 1) zero_le_one (n + 2)
  have h1 : 0 ≤ eD (n + 1) := by unfold eD tay; linarith
  have : (0 : ℝ) < 1 / (n + 1).factorial := by positivity
  rw [eD_succ]; linarith

theorem eD_gt (n : ℕ) : (1 : ℝ) < (n + 1).factorial * eD n := by
  have h1 := eD_pos (n + 1)
  have hf : (0 : ℝ) < (n + 1).factorial := by positivity
  rw [eD_succ, mul_add, mul_one_div_cancel hf.ne']
  nlinarith [mul_pos hf h1]

theorem eD_ratio (n : ℕ) : ((n + 1 : ℕ) + 1 : ℝ) * eD (n + 1) ≤ eD n := by
  have h := Real.exp_bound' (x := 1) zero_le_one le_rfl (n := n + 2) (by omega)
  have hf : (0 : ℝ) < (n + 1).factorial := by positivity
  have h1 : eD (n + 1) ≤ (n + 3) / ((n + 2) * (n + 2) * (n + 1).factorial) := by
    unfold eD tay
    rw [Nat.factorial_succ (n + 1)] at h
    have e : (1 : ℝ) ^ (n + 2) * ((n + 2 : ℕ) + 1) / (((n + 1 + 1) * (n + 1).factorial : ℕ) * (n + 2 : ℕ))
        = (n + 3) / ((n + 2) * (n + 2) * (n + 1).factorial) := by
      push_cast
      rw [one_pow]
      congr 1 <;> ring
    rw [e] at h
    linarith
  have h2 : (n + 1) * eD (n + 1) ≤ 1 / (n + 1).factorial := by
    have : ((n : ℝ) + 1) * eD (n + 1) ≤ (n + 1) * ((n + 3) / ((n + 2) * (n + 2) * (n + 1).factorial)) :=
      mul_le_mul_of_nonneg_left h1 (by positivity)
    refine this.trans ?_
    rw [← mul_div_assoc, div_le_div_iff₀ (by positivity) hf]
    nlinarith
  have h3 := eD_succ n
  push_cast
  linarith

/-- the remainders of `P/Q` with the coefficients of `e` -/
def eV (P Q : ℤ) : ℕ → ℤ
  | 0 => P
  | 1 => Q
  | k + 2 => eV P Q k - eC k * eV P Q (k + 1)

theorem eV_lin (P Q P' Q' a b : ℤ) (k : ℕ) :
    eV (P * b + P' * a) (Q * b + Q' * a) k = eV P Q k * b + eV P' Q' k * a ∧
    eV (P * b + P' * a) (Q * b + Q' * a) (k + 1) = eV P Q (k + 1) * b + eV P' Q' (k + 1) * a := by
  induction k with
  | zero => exact ⟨rfl, rfl⟩
  | succ k ih =>
    refine ⟨ih.2, ?_⟩
    simp only [eV]
    rw [ih.1, ih.2]
    ring

theorem eV_sum (n k : ℕ) : (eV (expS 1 n) n.factorial k : ℝ) = n.factorial * eW k (eD n) ∧
    (eV (expS 1 n) n.factorial (k + 1) : ℝ) = n.factorial * eW (k + 1) (eD n) := by
  have hS : (expS 1 n : ℝ) = n.factorial * tay n 1 := by
    have h := congrArg (fun q : ℚ => (q : ℝ)) (expS_eq 1 n)
    simp only [tay]
    push_cast at h
    exact h
  induction k with
  | zero =>
    have h1 := eErr_J 0
    simp only [Nat.mul_zero, Nat.zero_add, Nat.factorial_zero, Nat.cast_one, div_one, eInt_one] at h1
    constructor
    · simp only [eV, eW, eQ, hS, eD]; rw [show eErr 0 = Real.exp 1 from rfl]; simp
    · simp only [Nat.zero_add, eV, eW, eQ, h1]; simp
  | succ k ih =>
    refine ⟨ih.2, ?_⟩
    have := eW_rec k (eD n)
    simp only [eV]
    push_cast
    rw [ih.1, ih.2, this]
    ring

end NumIrr
