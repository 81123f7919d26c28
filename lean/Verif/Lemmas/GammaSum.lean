/-
The numerators of the continued fraction of Euler's constant: their recurrence, and the recurrence of the fraction.
-/
import Verif.Lemmas.GammaStep
import Verif.Lemmas.GConv
import Mathlib.Algebra.BigOperators.Intervals

namespace NumIrr

open Finset

/-- the weights, counted from the other end -/
def gamT (n j : ℕ) : ℚ := (n.choose j : ℚ) ^ 2 * (n - j).factorial

/-- what is averaged -/
def gamH (n j : ℕ) : ℚ := 2 * harmonic j - harmonic (n - j)

theorem gamP_eq (n : ℕ) : gamP n = ∑ j ∈ range (n + 1), gamT n j * gamH n j := by
  unfold gamP
  rw [← sum_range_reflect]
  refine sum_congr rfl fun j hj => ?_
  have hj' : j ≤ n := Nat.lt_succ_iff.mp (mem_range.mp hj)
  rw [show n + 1 - 1 - j = n - j by omega, Nat.choose_symm hj', Nat.sub_sub_self hj']
  rfl

theorem gamQ_eq (n : ℕ) : (gamQ n : ℚ) = ∑ j ∈ range (n + 1), gamT n j := by
  unfold gamQ
  push_cast
  rw [← sum_range_reflect]
  refine sum_congr rfl fun j hj => ?_
  have hj' : j ≤ n := Nat.lt_succ_iff.mp (mem_range.mp hj)
  rw [show n + 1 - 1 - j = n - j by omega, Nat.choose_symm hj']
  rfl

theorem gamT_zero {n j : ℕ} (h : n < j) : gamT n j = 0 := by
  unfold gamT; rw [Nat.choose_eq_zero_of_lt h]; simp

theorem gamT_nonneg (n j : ℕ) : 0 ≤ gamT n j := by unfold gamT; positivity

/-- from one weight to the next -/
theorem gamT_next (n j : ℕ) (h : j ≤ n) : gamT n (j + 1) * (j + 1) ^ 2 = gamT n j * (n - j) := by
  unfold gamT
  rcases Nat.eq_or_lt_of_le h with rfl | h
  · simp
  have e := Nat.choose_succ_right_eq n j
  have e' : (n.choose (j + 1) : ℚ) * (j + 1) = n.choose j * (n - j) := by
    have : ((n - j : ℕ) : ℚ) = n - j := by push_cast [h.le]; ring
    rw [← this]; exact_mod_cast e
  have f : ((n - j).factorial : ℚ) = (n - j) * (n - (j + 1)).factorial := by
    rw [show n - j = (n - (j + 1)) + 1 by omega, Nat.factorial_succ]
    have : (((n - (j + 1) : ℕ) + 1 : ℕ) : ℚ) = n - j := by
      rw [show n - (j + 1) + 1 = n - j by omega]; push_cast [h.le]; ring
    push_cast at this ⊢
    rw [this]
  rw [f]
  linear_combination ((n - (j + 1)).factorial : ℚ) * (n.choose (j + 1) * (j + 1) + n.choose j * (n - j)) * e'

/-- from one row to the next -/
theorem gamT_row (n j : ℕ) (h : j ≤ n) : gamT (n + 1) j * (n + 1 - j) = (n + 1) ^ 2 * gamT n j := by
  unfold gamT
  have e := Nat.add_one_mul_choose_eq n j
  have e1 := Nat.choose_mul_succ_eq n j
  have e1' : (n.choose j : ℚ) * (n + 1) = (n + 1).choose j * (n + 1 - j) := by
    have : ((n + 1 - j : ℕ) : ℚ) = n + 1 - j := by push_cast [show j ≤ n + 1 by omega]; ring
    rw [← this]; exact_mod_cast e1
  have f : ((n + 1 - j).factorial : ℚ) = (n + 1 - j) * (n - j).factorial := by
    rw [show n + 1 - j = (n - j) + 1 by omega, Nat.factorial_succ]
    push_cast [h]
    ring
  rw [f]
  linear_combination -((n - j).factorial : ℚ) * ((n + 1).choose j * (n + 1 - j) + n.choose j * (n + 1)) * e1'

theorem gamH_next (n j : ℕ) (h : j < n) : gamH n (j + 1) = gamH n j + 2 / (j + 1) + 1 / (n - j) := by
  unfold gamH
  have : (n : ℚ) - j ≠ 0 := by
    have : (j : ℚ) < n := by exact_mod_cast h
    intro e; linarith
  rw [harmonic_succ, show n - j = (n - (j + 1)) + 1 by omega, harmonic_succ]
  have : (((n - (j + 1) : ℕ) + 1 : ℕ) : ℚ) = n - j := by
    rw [show n - (j + 1) + 1 = n - j by omega]; push_cast [h.le]; ring
  rw [this]
  push_cast
  ring

theorem gamH_row (n j : ℕ) (h : j ≤ n) : gamH n j = gamH (n + 1) j + 1 / (n + 1 - j) := by
  unfold gamH
  rw [show n + 1 - j = (n - j) + 1 by omega, harmonic_succ]
  push_cast [h]
  ring

/-- the recurrence of the numerators -/
theorem gamP_rec (n : ℕ) : gamP (n + 2) = 2 * (n + 2) * gamP (n + 1) - (n + 1) ^ 2 * gamP n - n / (n + 2) := by
  have key : ∀ m ≤ n + 1, (n + 2 : ℚ) ^ 2 * ∑ j ∈ range m, (gamT (n + 2) j * gamH (n + 2) j
      - 2 * (n + 2) * (gamT (n + 1) j * gamH (n + 1) j) + (n + 1) ^ 2 * (gamT n j * gamH n j))
      = -(gamT (n + 2) m * (m ^ 2 * gamH (n + 2) m - 2 * m)) := by
    intro m hm
    induction m with
    | zero => simp
    | succ m ih =>
      rw [sum_range_succ, mul_add, ih (by omega)]
      have hm' : m ≤ n := by omega
      have c0 : (m : ℚ) ≤ n := by exact_mod_cast hm'
      have d1 : (n : ℚ) + 2 - m ≠ 0 := by intro e; linarith
      have d2 : (n : ℚ) + 1 - m ≠ 0 := by intro e; linarith
      have d3 : (m : ℚ) + 1 ≠ 0 := by positivity
      have r1 := gamT_row (n + 1) m (by omega)
      have r2 := gamT_row n m hm'
      have r3 := gamT_next (n + 2) m (by omega)
      have s1 := gamH_row (n + 1) m (by omega)
      have s2 := gamH_row n m hm'
      have s3 := gamH_next (n + 2) m (by omega)
      push_cast at r1 r2 r3 s1 s2 s3 ⊢
      rw [show n + 1 + 1 = n + 2 from rfl] at r1 s1
      have r1' : (n + 2 : ℚ) ^ 2 * gamT (n + 1) m = gamT (n + 2) m * (n + 2 - m) := by linear_combination -r1
      have r2' : (n + 2 : ℚ) ^ 2 * (n + 1) ^ 2 * gamT n m = gamT (n + 2) m * (n + 2 - m) * (n + 1 - m) := by
        linear_combination (n + 1 - m) * r1' - (n + 2 : ℚ) ^ 2 * r2
      have s1' : (n + 2 - m) * gamH (n + 1) m = (n + 2 - m) * gamH (n + 2) m + 1 := by
        rw [s1, show (n : ℚ) + 1 + 1 - m = n + 2 - m by ring]; field_simp
      have s2' : (n + 2 - m) * (n + 1 - m) * gamH n m
          = (n + 2 - m) * (n + 1 - m) * gamH (n + 2) m + (n + 1 - m) + (n + 2 - m) := by
        rw [s2]
        have := s1'
        have e : (n + 1 - m : ℚ) * (1 / (n + 1 - m)) = 1 := by field_simp
        linear_combination (n + 1 - m) * s1' + (n + 2 - m) * e
      have s3' : gamT (n + 2) (m + 1) * (m + 1) ^ 2 * gamH (n + 2) (m + 1)
          = gamT (n + 2) m * (n + 2 - m) * gamH (n + 2) m + 2 * (gamT (n + 2) (m + 1) * (m + 1)) + gamT (n + 2) m := by
        rw [s3]
        have e1 : (m + 1 : ℚ) * (2 / (m + 1)) = 2 := by field_simp
        have e2 : (n + 2 - m : ℚ) * (1 / (n + 2 - m)) = 1 := by field_simp
        linear_combination (gamH (n + 2) m + 1 / (n + 2 - m)) * r3 + gamT (n + 2) (m + 1) * (m + 1) * e1 + gamT (n + 2) m * e2
      linear_combination (-2 * (n + 2) * gamH (n + 1) m) * r1' + (gamH n m) * r2' + (-2 * (n + 2)) * gamT (n + 2) m * s1'
        + gamT (n + 2) m * s2' + s3'
  have k := key (n + 1) le_rfl
  rw [gamP_eq (n + 2), gamP_eq (n + 1), gamP_eq n, show n + 2 + 1 = n + 1 + 1 + 1 from rfl, sum_range_succ _ (n + 1 + 1),
    sum_range_succ _ (n + 1), show n + 1 + 1 = n + 2 from rfl]
  rw [sum_add_distrib, sum_sub_distrib, ← mul_sum, ← mul_sum] at k
  rw [show range (n + 2) = range (n + 1 + 1) from rfl, sum_range_succ _ (n + 1)]
  have t1 : gamT (n + 2) (n + 1) = (n + 2) ^ 2 := by
    unfold gamT
    rw [Nat.choose_succ_self_right, show n + 2 - (n + 1) = 1 by omega]
    push_cast; simp
    ring
  have t2 : gamT (n + 2) (n + 2) = 1 := by simp [gamT]
  have t3 : gamT (n + 1) (n + 1) = 1 := by simp [gamT]
  have h1 : gamH (n + 2) (n + 1) = 2 * harmonic (n + 1) - 1 := by
    unfold gamH; rw [show n + 2 - (n + 1) = 0 + 1 by omega, harmonic_succ]; simp
  have h2 : gamH (n + 2) (n + 2) = 2 * (harmonic (n + 1) + 1 / (n + 2)) := by
    unfold gamH; rw [Nat.sub_self, harmonic_succ (n + 1)]; push_cast; simp; ring
  have h3 : gamH (n + 1) (n + 1) = 2 * harmonic (n + 1) := by
    unfold gamH; rw [Nat.sub_self]; simp
  rw [t1, h1] at k
  rw [t1, t2, t3, h1, h2, h3]
  have n2 : (n + 2 : ℚ) ≠ 0 := by positivity
  have k' := mul_left_cancel₀ (pow_ne_zero 2 n2) (k.trans (show _ = (n + 2 : ℚ) ^ 2 * (-(((n + 1 : ℕ) : ℚ) ^ 2 * (2 * harmonic (n + 1) - 1) - 2 * ((n + 1 : ℕ) : ℚ))) by ring))
  have e : (n + 2 : ℚ) * (1 / (n + 2)) = 1 := by field_simp
  have e' : (n : ℚ) / (n + 2) = 1 - 2 * (1 / (n + 2)) := by field_simp; ring
  rw [e']
  push_cast at k'
  linear_combination k'

/-- the Casoratian of numerators and denominators -/
theorem gam_casoratian (n : ℕ) : gamP (n + 1) * gamQ n - gamP n * gamQ (n + 1) = -gamS (n + 1) := by
  induction n with
  | zero => decide +kernel
  | succ n ih =>
    have hq : (gamQ (n + 2) : ℚ) = 2 * (n + 2) * gamQ (n + 1) - (n + 1) ^ 2 * gamQ n := by exact_mod_cast gamQ_rec n
    have hs : gamS (n + 2) = (n + 1) ^ 2 * gamS (n + 1) + n / (n + 2) * gamQ (n + 1) := rfl
    rw [show n + 1 + 1 = n + 2 from rfl, gamP_rec, hq, hs]
    linear_combination (n + 1 : ℚ) ^ 2 * ih

/-- denominators and numerators satisfy the recurrence of the fraction -/
theorem gamQ_frac (n : ℕ) : (gamQ (n + 2) : ℚ) = gamB (n + 2) * gamQ (n + 1) + gamA (n + 2) * gamQ n := by
  have hq : (gamQ (n + 2) : ℚ) = 2 * (n + 2) * gamQ (n + 1) - (n + 1) ^ 2 * gamQ n := by exact_mod_cast gamQ_rec n
  have hs : gamS (n + 2) = (n + 1) ^ 2 * gamS (n + 1) + n / (n + 2) * gamQ (n + 1) := rfl
  unfold gamB gamA
  rw [show n + 2 - 1 = n + 1 by omega, show n + 2 - 2 = n by omega, hq, hs]
  have h0 := gamS_ne (n + 1)
  have n2 : (n + 2 : ℚ) ≠ 0 := by positivity
  push_cast
  field_simp
  ring

theorem gamP_frac (n : ℕ) : gamP (n + 2) = gamB (n + 2) * gamP (n + 1) + gamA (n + 2) * gamP n := by
  have c1 := gam_casoratian (n + 1)
  have c0 := gam_casoratian n
  have hq := gamQ_frac n
  have h0 := gamS_ne (n + 1)
  have ha : gamA (n + 2) * gamS (n + 1) = -gamS (n + 2) := by
    unfold gamA
    rw [show n + 2 - 1 = n + 1 by omega]
    field_simp
  have q0 : (gamQ (n + 1) : ℚ) ≠ 0 := by
    have := gamQ_pos (n + 1)
    positivity
  refine mul_right_cancel₀ q0 ?_
  rw [show n + 1 + 1 = n + 2 from rfl] at c1
  linear_combination c1 + gamP (n + 1) * hq + gamA (n + 2) * c0 - ha

theorem gamRho_ne (n : ℕ) : gamRho n ≠ 0 := by
  unfold gamRho
  split
  · norm_num
  split
  · norm_num
  split
  · norm_num
  · rename_i h1 h2 h3
    have h : 5 ≤ n := by omega
    have c : (5 : ℚ) ≤ n := by exact_mod_cast h
    refine mul_ne_zero (div_ne_zero (mul_ne_zero (by intro e; linarith) (by intro e; linarith)) (by norm_num)) (gamS_ne _)

/-- the common factor of the `n`-th numerator and denominator -/
def gamR : ℕ → ℚ
  | 0 => 1
  | n + 1 => gamRho (n + 1) * gamR n

theorem gamR_ne (n : ℕ) : gamR n ≠ 0 := by
  induction n with
  | zero => simp [gamR]
  | succ n ih => exact mul_ne_zero (gamRho_ne _) ih

/-- pairs which are those of the paper -/
def IsGam (g : ℕ → ℤ × ℤ) : Prop :=
  g 0 = (1, 0) ∧ g 1 = (1, 2) ∧ ∀ n, ((g (n + 2)).1 : ℚ) = gamRho (n + 2) * gamRho (n + 1) * gamA (n + 2) ∧
    ((g (n + 2)).2 : ℚ) = gamRho (n + 2) * gamB (n + 2)

theorem gam_conv {g : ℕ → ℤ × ℤ} (h : IsGam g) (n : ℕ) :
    (gP g (n + 1) : ℚ) = gamR n * gamP n ∧ (gQ g (n + 1) : ℚ) = gamR n * gamQ n := by
  obtain ⟨h0, h1, h2⟩ := h
  suffices H : ((gP g (n + 1) : ℚ) = gamR n * gamP n ∧ (gQ g (n + 1) : ℚ) = gamR n * gamQ n) ∧
      ((gP g (n + 2) : ℚ) = gamR (n + 1) * gamP (n + 1) ∧ (gQ g (n + 2) : ℚ) = gamR (n + 1) * gamQ (n + 1)) from H.1
  induction n with
  | zero =>
    have r1 : gamR 1 = 1 := by decide +kernel
    have p0 : gamP 0 = 0 := by decide +kernel
    have p1 : gamP 1 = 1 := by decide +kernel
    have q0 : gamQ 0 = 1 := by decide +kernel
    have q1 : gamQ 1 = 2 := by decide +kernel
    refine ⟨⟨?_, ?_⟩, ?_, ?_⟩
    · rw [gP_one, h0, p0]; simp
    · rw [gQ_one, h0, q0]; simp [gamR]
    · rw [gP_rec, gP_one, h0, h1, r1, p1]; simp
    · rw [gQ_rec, gQ_one, h0, h1, r1, q1]; simp
  | succ n ih =>
    obtain ⟨⟨i1, i2⟩, i3, i4⟩ := ih
    obtain ⟨k1, k2⟩ := h2 n
    have e1 : gamR (n + 1) = gamRho (n + 1) * gamR n := rfl
    have e2 : gamR (n + 2) = gamRho (n + 2) * gamR (n + 1) := rfl
    refine ⟨⟨i3, i4⟩, ?_, ?_⟩
    · rw [show n + 1 + 2 = (n + 1) + 2 from rfl, gP_rec, show n + 1 + 1 = n + 2 from rfl, gamP_frac, e2]
      push_cast
      rw [k1, k2, i3, i1, e1]
      ring
    · rw [show n + 1 + 2 = (n + 1) + 2 from rfl, gQ_rec, show n + 1 + 1 = n + 2 from rfl, gamQ_frac, e2]
      push_cast
      rw [k1, k2, i4, i2, e1]
      ring

end NumIrr
