/-
Rounding to binary32.
-/
import Verif.Model.Float32
import Verif.Lemmas.Float

namespace NumIrr.F32
open F64 (rne_near rne_eq rne_int rne_nearest pow_pos' log_bounds grid rne)

/-- the error of rounding is at most half of the last digit -/
theorem rnd_err (x : ℝ) : |rnd x - x| ≤ 2 ^ lastExp x / 2 := by
  have h := rne_near (x / 2 ^ lastExp x)
  have hp := pow_pos' (lastExp x)
  have e : rnd x - x = ((rne (x / 2 ^ lastExp x) : ℝ) - x / 2 ^ lastExp x) * 2 ^ lastExp x := by
    unfold rnd; field_simp
  rw [e, abs_mul, abs_of_pos hp]
  nlinarith

/-- the least error that does not depend on the number -/
noncomputable def tiny : ℝ := 2 ^ (-150 : ℤ)

theorem tiny_pos : 0 < tiny := pow_pos' _

theorem tiny_le (e : ℤ) (h : -150 ≤ e) : tiny ≤ 2 ^ e := zpow_le_zpow_right₀ (by norm_num) h

theorem rnd_zero : rnd 0 = 0 := by
  unfold rnd
  rw [zero_div, show (0 : ℝ) = ((0 : ℤ) : ℝ) by norm_num, rne_int]
  simp

/-- relative error `2⁻²⁴` unless the number is tiny -/
theorem rnd_rel_big {x : ℝ} (h : (2 : ℝ) ^ (-126 : ℤ) ≤ |x|) : |rnd x - x| ≤ |x| / 2 ^ 24 := by
  have hp := pow_pos' (-126)
  have hx : x ≠ 0 := by rintro rfl; rw [abs_zero] at h; linarith
  obtain ⟨h1, h2⟩ := log_bounds hx
  have hl : -126 ≤ Int.log 2 |x| := by
    have := (zpow_lt_zpow_iff_right₀ (by norm_num : (1 : ℝ) < 2)).1 (h.trans_lt h2)
    omega
  refine (rnd_err x).trans ?_
  have e0 : lastExp x = Int.log 2 |x| - 23 := max_eq_left (by omega)
  rw [e0, zpow_sub₀ (by norm_num)]
  have e : ((2 : ℝ) ^ Int.log 2 |x| / 2 ^ (23 : ℤ)) / 2 = 2 ^ Int.log 2 |x| / 2 ^ 24 := by
    norm_num; ring
  rw [e]
  gcongr

/-- relative error `2⁻²⁴`, and an absolute one for tiny numbers -/
theorem rnd_rel (x : ℝ) : |rnd x - x| ≤ |x| / 2 ^ 24 + tiny := by
  have ht := tiny_pos
  by_cases h : (2 : ℝ) ^ (-126 : ℤ) ≤ |x|
  · have := rnd_rel_big h; linarith
  · by_cases hx : x = 0
    · subst hx
      rw [rnd_zero]; simp; linarith
    refine (rnd_err x).trans ?_
    obtain ⟨h1, h2⟩ := log_bounds hx
    have hl : Int.log 2 |x| < -126 :=
      (zpow_lt_zpow_iff_right₀ (by norm_num : (1 : ℝ) < 2)).1 (h1.trans_lt (not_le.1 h))
    have e0 : lastExp x = -149 := max_eq_right (by omega)
    rw [e0]
    have : (0 : ℝ) ≤ |x| / 2 ^ 24 := by positivity
    have e : (2 : ℝ) ^ (-149 : ℤ) / 2 = tiny := by
      unfold tiny
      rw [show (-149 : ℤ) = -150 + 1 by norm_num, zpow_add_one₀ (by norm_num)]
      ring
    linarith

theorem rnd_nonneg {x : ℝ} (h : 0 ≤ x) : 0 ≤ rnd x := by
  have h1 := rne_near (x / 2 ^ lastExp x)
  have h2 : 0 ≤ x / 2 ^ lastExp x := div_nonneg h (pow_pos' _).le
  rw [abs_le] at h1
  have h3 : (-1 : ℝ) < ((rne (x / 2 ^ lastExp x) : ℤ) : ℝ) := by linarith
  have h4 : -1 < rne (x / 2 ^ lastExp x) := by exact_mod_cast h3
  have h5 : 0 ≤ rne (x / 2 ^ lastExp x) := by omega
  unfold rnd
  exact mul_nonneg (by exact_mod_cast h5) (pow_pos' _).le

/-- the float next to a number, given by its 24 digits -/
theorem rnd_eq {x : ℝ} {m k : ℤ} (hk : -126 ≤ k) (h1 : (2 : ℝ) ^ k ≤ |x|) (h2 : |x| < 2 ^ (k + 1))
    (h : |(m : ℝ) - x / 2 ^ (k - 23)| < 1 / 2) : rnd x = m * 2 ^ (k - 23) := by
  have hx : x ≠ 0 := by rintro rfl; rw [abs_zero] at h1; linarith [pow_pos' k]
  obtain ⟨h3, h4⟩ := log_bounds hx
  have h5 := (zpow_lt_zpow_iff_right₀ (by norm_num : (1 : ℝ) < 2)).1 (h1.trans_lt h4)
  have h6 := (zpow_lt_zpow_iff_right₀ (by norm_num : (1 : ℝ) < 2)).1 (h3.trans_lt h2)
  have e : lastExp x = k - 23 := by unfold lastExp; rw [max_eq_left (by omega)]; omega
  unfold rnd
  rw [e, rne_eq h]

theorem mant_lt {m : ℤ} (hm : |m| < 2 ^ 24) : |(m : ℝ)| < 2 ^ 24 := by
  rw [← Int.cast_abs]
  calc ((|m| : ℤ) : ℝ) < ((2 ^ 24 : ℤ) : ℝ) := Int.cast_lt.2 hm
    _ = 2 ^ 24 := by norm_num

theorem lastExp_le {m e : ℤ} (hm : |m| < 2 ^ 24) (he : -149 ≤ e) : lastExp ((m : ℝ) * 2 ^ e) ≤ e ∨ m = 0 := by
  by_cases h0 : m = 0
  · exact Or.inr h0
  · left
    have hx : (m : ℝ) * 2 ^ e ≠ 0 := mul_ne_zero (by exact_mod_cast h0) (pow_pos' e).ne'
    obtain ⟨h3, -⟩ := log_bounds hx
    have hm' : |(m : ℝ)| < 2 ^ (24 : ℤ) := by exact_mod_cast mant_lt hm
    have h4 : |(m : ℝ) * 2 ^ e| < 2 ^ (24 + e) := by
      rw [abs_mul, abs_of_pos (pow_pos' e), zpow_add₀ (by norm_num)]
      exact mul_lt_mul_of_pos_right hm' (pow_pos' e)
    have h5 := (zpow_lt_zpow_iff_right₀ (by norm_num : (1 : ℝ) < 2)).1 (h3.trans_lt h4)
    exact max_le (by omega) he

/-- floats are not changed -/
theorem rnd_float {m e : ℤ} (hm : |m| < 2 ^ 24) (he : -149 ≤ e) : rnd ((m : ℝ) * 2 ^ e) = m * 2 ^ e := by
  rcases lastExp_le hm he with h | h
  · obtain ⟨n, hn⟩ := grid m e _ h
    unfold rnd
    have hp := (pow_pos' (lastExp ((m : ℝ) * 2 ^ e))).ne'
    have e1 : (m : ℝ) * 2 ^ e / 2 ^ lastExp ((m : ℝ) * 2 ^ e) = n := by
      rw [div_eq_iff hp]; exact hn
    rw [e1, rne_int]
    exact hn.symm
  · subst h; simp [rnd_zero]

/-- integers of 24 binary digits are floats -/
theorem rnd_int {n : ℤ} (h : |n| ≤ 2 ^ 24) : rnd n = n := by
  rcases lt_or_eq_of_le h with h | h
  · have := rnd_float (m := n) (e := 0) h (by norm_num)
    simpa using this
  · rcases abs_eq (by norm_num : (0 : ℤ) ≤ 2 ^ 24) |>.1 h with e | e
    · have := rnd_float (m := 2 ^ 23) (e := 1) (by norm_num) (by norm_num)
      rw [e]; norm_num at this ⊢; exact this
    · have := rnd_float (m := -2 ^ 23) (e := 1) (by norm_num) (by norm_num)
      rw [e]; norm_num at this ⊢; exact this

/-- rounding gives a float -/
theorem rnd_isFloat (x : ℝ) : ∃ m e : ℤ, |m| < 2 ^ 24 ∧ -149 ≤ e ∧ rnd x = m * 2 ^ e := by
  have he : -149 ≤ lastExp x := le_max_right _ _
  by_cases hx : x = 0
  · subst hx; exact ⟨0, 0, by norm_num, by norm_num, by rw [rnd_zero]; simp⟩
  obtain ⟨-, h2⟩ := log_bounds hx
  have hp := pow_pos' (lastExp x)
  have hle : |x / 2 ^ lastExp x| ≤ 2 ^ 24 := by
    rw [abs_div, abs_of_pos hp, div_le_iff₀ hp]
    have : (2 : ℝ) ^ (Int.log 2 |x| + 1) ≤ 2 ^ (24 + lastExp x) :=
      zpow_le_zpow_right₀ (by norm_num) (by have := le_max_left (Int.log 2 |x| - 23) (-149); unfold lastExp; omega)
    have e : (2 : ℝ) ^ (24 + lastExp x) = 2 ^ 24 * 2 ^ lastExp x := by
      rw [zpow_add₀ (by norm_num)]; norm_num
    rw [e] at this
    linarith
  have hn := rne_near (x / 2 ^ lastExp x)
  have hm : |((rne (x / 2 ^ lastExp x) : ℤ) : ℝ)| < 2 ^ 24 + 1 := by
    have := abs_sub_abs_le_abs_sub ((rne (x / 2 ^ lastExp x) : ℤ) : ℝ) (x / 2 ^ lastExp x)
    linarith
  have hm' : |rne (x / 2 ^ lastExp x)| ≤ 2 ^ 24 := by
    rw [← Int.cast_abs] at hm
    have : |rne (x / 2 ^ lastExp x)| < 2 ^ 24 + 1 := by
      have h : ((|rne (x / 2 ^ lastExp x)| : ℤ) : ℝ) < ((2 ^ 24 + 1 : ℤ) : ℝ) := by
        rw [show ((2 ^ 24 + 1 : ℤ) : ℝ) = 2 ^ 24 + 1 by norm_num]; exact hm
      exact Int.cast_lt.1 h
    omega
  rcases lt_or_eq_of_le hm' with h | h
  · exact ⟨_, _, h, he, rfl⟩
  · rcases abs_eq (by norm_num : (0 : ℤ) ≤ 2 ^ 24) |>.1 h with e | e
    · refine ⟨2 ^ 23, lastExp x + 1, by norm_num, by omega, ?_⟩
      unfold rnd
      rw [e, zpow_add_one₀ (by norm_num)]; push_cast; ring
    · refine ⟨-2 ^ 23, lastExp x + 1, by norm_num, by omega, ?_⟩
      unfold rnd
      rw [e, zpow_add_one₀ (by norm_num)]; push_cast; ring

/-- no float is nearer than the rounded one -/
theorem rnd_nearest (x : ℝ) {m e : ℤ} (hm : |m| < 2 ^ 24) (he : -149 ≤ e) :
    |rnd x - x| ≤ |(m : ℝ) * 2 ^ e - x| := by
  have hp := pow_pos' (lastExp x)
  have key : ∀ n : ℤ, |rnd x - x| ≤ |(n : ℝ) * 2 ^ lastExp x - x| := by
    intro n
    have h := rne_nearest (x / 2 ^ lastExp x) n
    have e1 : rnd x - x = ((rne (x / 2 ^ lastExp x) : ℝ) - x / 2 ^ lastExp x) * 2 ^ lastExp x := by
      unfold rnd; field_simp
    have e2 : (n : ℝ) * 2 ^ lastExp x - x = ((n : ℝ) - x / 2 ^ lastExp x) * 2 ^ lastExp x := by field_simp
    rw [e1, e2, abs_mul, abs_mul]
    exact mul_le_mul_of_nonneg_right h (abs_nonneg _)
  by_cases hx : x = 0
  · subst hx; rw [rnd_zero, sub_self, abs_zero]; exact abs_nonneg _
  by_cases hle : lastExp x ≤ e
  · obtain ⟨n, hn⟩ := grid m e _ hle
    rw [hn]; exact key n
  · have hl : lastExp x = Int.log 2 |x| - 23 := by
      unfold lastExp at hle ⊢
      rcases max_cases (Int.log 2 |x| - 23) (-149) with ⟨h, -⟩ | ⟨h, -⟩
      · exact h
      · rw [h] at hle; omega
    obtain ⟨h1, -⟩ := log_bounds hx
    have hpow : (2 : ℝ) ^ Int.log 2 |x| = 2 ^ 23 * 2 ^ lastExp x := by
      rw [hl, zpow_sub₀ (by norm_num)]; norm_num; ring
    have hm' := mant_lt hm
    have hy : |(m : ℝ) * 2 ^ e| ≤ 2 ^ Int.log 2 |x| := by
      rw [abs_mul, abs_of_pos (pow_pos' e)]
      have : (2 : ℝ) ^ (e + 1) ≤ 2 ^ lastExp x := zpow_le_zpow_right₀ (by norm_num) (by omega)
      rw [zpow_add_one₀ (by norm_num)] at this
      rw [hpow]
      nlinarith [pow_pos' e]
    rcases lt_or_gt_of_ne hx with hneg | hpos
    · have h2 := key (-2 ^ 23)
      have e1 : (((-2 ^ 23 : ℤ) : ℝ)) * 2 ^ lastExp x - x = -(2 ^ Int.log 2 |x|) - x := by rw [hpow]; push_cast; ring
      rw [e1] at h2
      have e2 : |(-(2 ^ Int.log 2 |x|) - x : ℝ)| = -x - 2 ^ Int.log 2 |x| := by
        rw [abs_of_neg hneg] at h1 ⊢
        rw [abs_of_nonneg (by linarith)]; ring
      rw [e2] at h2
      have h3 := neg_abs_le ((m : ℝ) * 2 ^ e)
      have h4 := le_abs_self ((m : ℝ) * 2 ^ e - x)
      linarith
    · have h2 := key (2 ^ 23)
      have e1 : (((2 ^ 23 : ℤ) : ℝ)) * 2 ^ lastExp x - x = 2 ^ Int.log 2 |x| - x := by rw [hpow]; push_cast; ring
      rw [e1] at h2
      have e2 : |(2 ^ Int.log 2 |x| - x : ℝ)| = x - 2 ^ Int.log 2 |x| := by
        rw [abs_of_pos hpos] at h1 ⊢
        rw [abs_of_nonpos (by linarith)]; ring
      rw [e2] at h2
      have h3 := le_abs_self ((m : ℝ) * 2 ^ e)
      have h4 := neg_abs_le ((m : ℝ) * 2 ^ e - x)
      linarith

private theorem half_max : (2 : ℝ) ^ (128 : ℤ) - 2 ^ (103 : ℤ) = (2 ^ 24 - 1 / 2) * 2 ^ (104 : ℤ) := by norm_num

/-- numbers of at most 128 digits are rounded by at most `2¹⁰³` -/
theorem lastExp_104 {x : ℝ} (h : |x| < 2 ^ (128 : ℤ)) : lastExp x ≤ 104 := by
  by_cases hx : x = 0
  · subst hx; unfold lastExp; simp
  obtain ⟨h1, -⟩ := log_bounds hx
  have := (zpow_lt_zpow_iff_right₀ (by norm_num : (1 : ℝ) < 2)).1 (h1.trans_lt h)
  unfold lastExp
  omega

/-- no overflow below the middle between the largest number and `2¹²⁸` -/
theorem round_fin {x : ℝ} (h : |x| < 2 ^ (128 : ℤ) - 2 ^ (103 : ℤ)) : round x = fin (rnd x) := by
  unfold round
  rw [if_pos]
  have h0 := pow_pos' 103
  have hl := lastExp_104 (x := x) (by linarith)
  have h1 := rnd_err x
  have h2 : |rnd x| ≤ |x| + |rnd x - x| := by
    have := abs_add_le x (rnd x - x)
    rwa [add_sub_cancel] at this
  have h3 : (2 : ℝ) ^ lastExp x ≤ 2 ^ (104 : ℤ) := zpow_le_zpow_right₀ (by norm_num) hl
  have h4 : (2 : ℝ) ^ (104 : ℤ) / 2 = 2 ^ (103 : ℤ) := by norm_num
  linarith

/-- a number beyond the middle becomes an infinity -/
theorem round_inf {x : ℝ} (h : 2 ^ (128 : ℤ) - 2 ^ (103 : ℤ) < |x|) : round x = inf (decide (x < 0)) := by
  unfold round
  rw [if_neg]
  rw [not_lt]
  by_contra hn
  rw [not_le] at hn
  have h1 := rnd_nearest x (m := if x < 0 then -2 ^ 23 else 2 ^ 23) (e := 105) (by split <;> norm_num) (by norm_num)
  obtain ⟨m, e, hm, he, hr⟩ := rnd_isFloat x
  have hmax : |rnd x| ≤ 2 ^ (128 : ℤ) - 2 ^ (104 : ℤ) := by
    have hmR := mant_lt hm
    by_cases h104 : e ≤ 104
    · rw [hr, abs_mul, abs_of_pos (pow_pos' e)]
      have h3 : (2 : ℝ) ^ e ≤ 2 ^ (104 : ℤ) := zpow_le_zpow_right₀ (by norm_num) h104
      have h4 : |(m : ℝ)| ≤ 2 ^ 24 - 1 := by
        rw [← Int.cast_abs]
        have : |m| ≤ 2 ^ 24 - 1 := by omega
        calc ((|m| : ℤ) : ℝ) ≤ ((2 ^ 24 - 1 : ℤ) : ℝ) := Int.cast_le.2 this
          _ = _ := by norm_num
      calc |(m : ℝ)| * 2 ^ e ≤ (2 ^ 24 - 1) * 2 ^ (104 : ℤ) := mul_le_mul h4 h3 (pow_pos' e).le (by norm_num)
        _ = _ := by norm_num
    · obtain ⟨n, hn'⟩ := grid m e 104 (by omega)
      rw [hr, hn', abs_mul, abs_of_pos (pow_pos' 104)] at hn ⊢
      have e1 : (2 : ℝ) ^ (128 : ℤ) = 2 ^ 24 * 2 ^ (104 : ℤ) := by norm_num
      rw [e1] at hn ⊢
      have h5 := lt_of_mul_lt_mul_right hn (pow_pos' 104).le
      have h6 : |n| < 2 ^ 24 := by
        rw [← Int.cast_abs] at h5
        have : ((|n| : ℤ) : ℝ) < ((2 ^ 24 : ℤ) : ℝ) := by rw [show ((2 ^ 24 : ℤ) : ℝ) = 2 ^ 24 by norm_num]; exact h5
        exact Int.cast_lt.1 this
      have h7 : |(n : ℝ)| ≤ 2 ^ 24 - 1 := by
        rw [← Int.cast_abs]
        have : |n| ≤ 2 ^ 24 - 1 := by omega
        calc ((|n| : ℤ) : ℝ) ≤ ((2 ^ 24 - 1 : ℤ) : ℝ) := Int.cast_le.2 this
          _ = _ := by norm_num
      have := mul_le_mul_of_nonneg_right h7 (pow_pos' 104).le
      rw [sub_mul, one_mul] at this
      exact this
  have e128 : (((2 ^ 23 : ℤ) : ℝ) * 2 ^ (105 : ℤ)) = 2 ^ (128 : ℤ) := by norm_num
  have e104 : (2 : ℝ) ^ (104 : ℤ) = 2 * 2 ^ (103 : ℤ) := by norm_num
  obtain ⟨r1, r2⟩ := abs_le.1 hmax
  have p := pow_pos' 103
  rw [e104] at r1 r2
  split at h1
  · rename_i hx
    rw [abs_of_neg hx] at h
    have e : (((-2 ^ 23 : ℤ) : ℝ) * 2 ^ (105 : ℤ) - x) = -(x + 2 ^ (128 : ℤ)) := by rw [← e128]; push_cast; ring
    rw [e, abs_neg, abs_of_nonneg (a := rnd x - x) (by linarith)] at h1
    rcases le_abs'.1 h1 with h1 | h1 <;> linarith
  · rename_i hx
    rw [abs_of_nonneg (not_lt.1 hx)] at h
    rw [e128, abs_of_nonpos (a := rnd x - x) (by linarith)] at h1
    rcases le_abs'.1 h1 with h1 | h1 <;> linarith

end NumIrr.F32
