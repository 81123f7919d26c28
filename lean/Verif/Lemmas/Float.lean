/-
Rounding to binary64.
-/
import Verif.Model.Float
import Mathlib.Tactic.Linarith
import Mathlib.Tactic.Positivity
import Mathlib.Tactic.FieldSimp
import Mathlib.Tactic.Ring

namespace NumIrr.F64

theorem rne_near (y : ℝ) : |(rne y : ℝ) - y| ≤ 1 / 2 := by
  have h1 := Int.floor_le y
  have h2 := Int.lt_floor_add_one y
  unfold rne
  split
  · rw [abs_le]; constructor <;> linarith
  · split
    · push_cast; rw [abs_le]; constructor <;> linarith
    · split
      · rw [abs_le]; constructor <;> linarith
      · push_cast; rw [abs_le]; constructor <;> linarith

/-- the nearest integer, if it is unique -/
theorem rne_eq {y : ℝ} {m : ℤ} (h : |(m : ℝ) - y| < 1 / 2) : rne y = m := by
  have h1 := rne_near y
  rw [abs_lt] at h
  rw [abs_le] at h1
  have h2 : ((rne y - m : ℤ) : ℝ) < 1 := by push_cast; linarith
  have h3 : (-1 : ℝ) < ((rne y - m : ℤ) : ℝ) := by push_cast; linarith
  have h2' : rne y - m < 1 := by exact_mod_cast h2
  have h3' : -1 < rne y - m := by exact_mod_cast h3
  omega

theorem rne_int (m : ℤ) : rne m = m := rne_eq (by simp)

/-- no integer is nearer -/
theorem rne_nearest (y : ℝ) (m : ℤ) : |(rne y : ℝ) - y| ≤ |(m : ℝ) - y| := by
  by_cases h : |(m : ℝ) - y| < 1 / 2
  · rw [rne_eq h]
  · exact (rne_near y).trans (not_lt.mp h)

theorem pow_pos' (e : ℤ) : (0 : ℝ) < 2 ^ e := by positivity

/-- the error of rounding is at most half of the last digit -/
theorem rnd_err (x : ℝ) : |rnd x - x| ≤ 2 ^ lastExp x / 2 := by
  have h := rne_near (x / 2 ^ lastExp x)
  have hp := pow_pos' (lastExp x)
  have e : rnd x - x = ((rne (x / 2 ^ lastExp x) : ℝ) - x / 2 ^ lastExp x) * 2 ^ lastExp x := by
    unfold rnd; field_simp
  rw [e, abs_mul, abs_of_pos hp]
  nlinarith

theorem log_bounds {x : ℝ} (hx : x ≠ 0) : (2 : ℝ) ^ Int.log 2 |x| ≤ |x| ∧ |x| < 2 ^ (Int.log 2 |x| + 1) := by
  have h0 : 0 < |x| := abs_pos.mpr hx
  exact ⟨by exact_mod_cast Int.zpow_log_le_self (b := 2) (by norm_num) h0,
    by exact_mod_cast Int.lt_zpow_succ_log_self (b := 2) (by norm_num) |x|⟩

/-- the least error that does not depend on the number -/
noncomputable def tiny : ℝ := 2 ^ (-1075 : ℤ)

theorem tiny_pos : 0 < tiny := pow_pos' _

theorem tiny_le (e : ℤ) (h : -1075 ≤ e) : tiny ≤ 2 ^ e := zpow_le_zpow_right₀ (by norm_num) h

theorem rnd_zero : rnd 0 = 0 := by
  unfold rnd
  rw [zero_div, show (0 : ℝ) = ((0 : ℤ) : ℝ) by norm_num, rne_int]
  simp

/-- relative error `2⁻⁵³` unless the number is tiny -/
theorem rnd_rel_big {x : ℝ} (h : (2 : ℝ) ^ (-1022 : ℤ) ≤ |x|) : |rnd x - x| ≤ |x| / 2 ^ 53 := by
  have hp := pow_pos' (-1022)
  have hx : x ≠ 0 := by rintro rfl; rw [abs_zero] at h; linarith
  obtain ⟨h1, h2⟩ := log_bounds hx
  have hl : -1022 ≤ Int.log 2 |x| := by
    have := (zpow_lt_zpow_iff_right₀ (by norm_num : (1 : ℝ) < 2)).1 (h.trans_lt h2)
    omega
  refine (rnd_err x).trans ?_
  have e0 : lastExp x = Int.log 2 |x| - 52 := max_eq_left (by omega)
  rw [e0, zpow_sub₀ (by norm_num)]
  have e : ((2 : ℝ) ^ Int.log 2 |x| / 2 ^ (52 : ℤ)) / 2 = 2 ^ Int.log 2 |x| / 2 ^ 53 := by
    norm_num; ring
  rw [e]
  gcongr

/-- relative error `2⁻⁵³`, and an absolute one for tiny numbers -/
theorem rnd_rel (x : ℝ) : |rnd x - x| ≤ |x| / 2 ^ 53 + tiny := by
  have ht := tiny_pos
  by_cases h : (2 : ℝ) ^ (-1022 : ℤ) ≤ |x|
  · have := rnd_rel_big h; linarith
  · by_cases hx : x = 0
    · subst hx
      rw [rnd_zero]; simp; linarith
    refine (rnd_err x).trans ?_
    obtain ⟨h1, h2⟩ := log_bounds hx
    have hl : Int.log 2 |x| < -1022 :=
      (zpow_lt_zpow_iff_right₀ (by norm_num : (1 : ℝ) < 2)).1 (h1.trans_lt (not_le.1 h))
    have e0 : lastExp x = -1074 := max_eq_right (by omega)
    rw [e0]
    have : (0 : ℝ) ≤ |x| / 2 ^ 53 := by positivity
    have e : (2 : ℝ) ^ (-1074 : ℤ) / 2 = tiny := by
      unfold tiny
      rw [show (-1074 : ℤ) = -1075 + 1 by norm_num, zpow_add_one₀ (by norm_num)]
      ring
    linarith

theorem rnd_nonneg {x : ℝ} (h : 0 ≤ x) : 0 ≤ rnd x := by
  have h1 := rne_near (x / 2 ^ lastExp x)
  have h2 : 0 ≤ x / 2 ^ lastExp x := div_nonneg h (pow_pos' _).le
  rw [abs_le] at h1
  have h3 : (-1 : ℝ) < ((rne (x / 2 ^ lastExp x) : ℤ) : ℝ) := by linarith
  have h4 : -1 < rne (x / 2 ^ lastExp x) := by exact_mod_cast h3
  have h5 : 0 ≤ rne (x / 2 ^ lastExp x) := by omega
  unfold rnd
  exact mul_nonneg (by exact_mod_cast h5) (pow_pos' _).le

/-- the float next to a number, given by its 53 digits -/
theorem rnd_eq {x : ℝ} {m k : ℤ} (hk : -1022 ≤ k) (h1 : (2 : ℝ) ^ k ≤ |x|) (h2 : |x| < 2 ^ (k + 1))
    (h : |(m : ℝ) - x / 2 ^ (k - 52)| < 1 / 2) : rnd x = m * 2 ^ (k - 52) := by
  have hx : x ≠ 0 := by rintro rfl; rw [abs_zero] at h1; linarith [pow_pos' k]
  obtain ⟨h3, h4⟩ := log_bounds hx
  have h5 := (zpow_lt_zpow_iff_right₀ (by norm_num : (1 : ℝ) < 2)).1 (h1.trans_lt h4)
  have h6 := (zpow_lt_zpow_iff_right₀ (by norm_num : (1 : ℝ) < 2)).1 (h3.trans_lt h2)
  have e : lastExp x = k - 52 := by unfold lastExp; rw [max_eq_left (by omega)]; omega
  unfold rnd
  rw [e, rne_eq h]

theorem mant_lt {m : ℤ} (hm : |m| < 2 ^ 53) : |(m : ℝ)| < 2 ^ 53 := by
  rw [← Int.cast_abs]
  calc ((|m| : ℤ) : ℝ) < ((2 ^ 53 : ℤ) : ℝ) := Int.cast_lt.2 hm
    _ = 2 ^ 53 := by norm_num

theorem lastExp_le {m e : ℤ} (hm : |m| < 2 ^ 53) (he : -1074 ≤ e) : lastExp ((m : ℝ) * 2 ^ e) ≤ e ∨ m = 0 := by
  by_cases h0 : m = 0
  · exact Or.inr h0
  · left
    have hx : (m : ℝ) * 2 ^ e ≠ 0 := mul_ne_zero (by exact_mod_cast h0) (pow_pos' e).ne'
    obtain ⟨h3, -⟩ := log_bounds hx
    have hm' : |(m : ℝ)| < 2 ^ (53 : ℤ) := by exact_mod_cast mant_lt hm
    have h4 : |(m : ℝ) * 2 ^ e| < 2 ^ (53 + e) := by
      rw [abs_mul, abs_of_pos (pow_pos' e), zpow_add₀ (by norm_num)]
      exact mul_lt_mul_of_pos_right hm' (pow_pos' e)
    have h5 := (zpow_lt_zpow_iff_right₀ (by norm_num : (1 : ℝ) < 2)).1 (h3.trans_lt h4)
    exact max_le (by omega) he

theorem grid (m e l : ℤ) (h : l ≤ e) : ∃ n : ℤ, (m : ℝ) * 2 ^ e = n * 2 ^ l := by
  refine ⟨m * 2 ^ (e - l).toNat, ?_⟩
  push_cast
  rw [mul_assoc, ← zpow_natCast, Int.toNat_of_nonneg (by omega), ← zpow_add₀ (by norm_num)]
  congr 2; omega

/-- floats are not changed -/
theorem rnd_float {m e : ℤ} (hm : |m| < 2 ^ 53) (he : -1074 ≤ e) : rnd ((m : ℝ) * 2 ^ e) = m * 2 ^ e := by
  rcases lastExp_le hm he with h | h
  · obtain ⟨n, hn⟩ := grid m e _ h
    unfold rnd
    have hp := (pow_pos' (lastExp ((m : ℝ) * 2 ^ e))).ne'
    have e1 : (m : ℝ) * 2 ^ e / 2 ^ lastExp ((m : ℝ) * 2 ^ e) = n := by
      rw [div_eq_iff hp]; exact hn
    rw [e1, rne_int]
    exact hn.symm
  · subst h; simp [rnd_zero]

/-- integers of 53 binary digits are floats -/
theorem rnd_int {n : ℤ} (h : |n| ≤ 2 ^ 53) : rnd n = n := by
  rcases lt_or_eq_of_le h with h | h
  · have := rnd_float (m := n) (e := 0) h (by norm_num)
    simpa using this
  · rcases abs_eq (by norm_num : (0 : ℤ) ≤ 2 ^ 53) |>.1 h with e | e
    · have := rnd_float (m := 2 ^ 52) (e := 1) (by norm_num) (by norm_num)
      rw [e]; norm_num at this ⊢; exact this
    · have := rnd_float (m := -2 ^ 52) (e := 1) (by norm_num) (by norm_num)
      rw [e]; norm_num at this ⊢; exact this

/-- rounding gives a float -/
theorem rnd_isFloat (x : ℝ) : ∃ m e : ℤ, |m| < 2 ^ 53 ∧ -1074 ≤ e ∧ rnd x = m * 2 ^ e := by
  have he : -1074 ≤ lastExp x := le_max_right _ _
  by_cases hx : x = 0
  · subst hx; exact ⟨0, 0, by norm_num, by norm_num, by rw [rnd_zero]; simp⟩
  obtain ⟨-, h2⟩ := log_bounds hx
  have hp := pow_pos' (lastExp x)
  have hle : |x / 2 ^ lastExp x| ≤ 2 ^ 53 := by
    rw [abs_div, abs_of_pos hp, div_le_iff₀ hp]
    have : (2 : ℝ) ^ (Int.log 2 |x| + 1) ≤ 2 ^ (53 + lastExp x) :=
      zpow_le_zpow_right₀ (by norm_num) (by have := le_max_left (Int.log 2 |x| - 52) (-1074); unfold lastExp; omega)
    have e : (2 : ℝ) ^ (53 + lastExp x) = 2 ^ 53 * 2 ^ lastExp x := by
      rw [zpow_add₀ (by norm_num)]; norm_num
    rw [e] at this
    linarith
  have hn := rne_near (x / 2 ^ lastExp x)
  have hm : |((rne (x / 2 ^ lastExp x) : ℤ) : ℝ)| < 2 ^ 53 + 1 := by
    have := abs_sub_abs_le_abs_sub ((rne (x / 2 ^ lastExp x) : ℤ) : ℝ) (x / 2 ^ lastExp x)
    linarith
  have hm' : |rne (x / 2 ^ lastExp x)| ≤ 2 ^ 53 := by
    rw [← Int.cast_abs] at hm
    have : |rne (x / 2 ^ lastExp x)| < 2 ^ 53 + 1 := by
      have h : ((|rne (x / 2 ^ lastExp x)| : ℤ) : ℝ) < ((2 ^ 53 + 1 : ℤ) : ℝ) := by
        rw [show ((2 ^ 53 + 1 : ℤ) : ℝ) = 2 ^ 53 + 1 by norm_num]; exact hm
      exact Int.cast_lt.1 h
    omega
  rcases lt_or_eq_of_le hm' with h | h
  · exact ⟨_, _, h, he, rfl⟩
  · rcases abs_eq (by norm_num : (0 : ℤ) ≤ 2 ^ 53) |>.1 h with e | e
    · refine ⟨2 ^ 52, lastExp x + 1, by norm_num, by omega, ?_⟩
      unfold rnd
      rw [e, zpow_add_one₀ (by norm_num)]; push_cast; ring
    · refine ⟨-2 ^ 52, lastExp x + 1, by norm_num, by omega, ?_⟩
      unfold rnd
      rw [e, zpow_add_one₀ (by norm_num)]; push_cast; ring

/-- no float is nearer than the rounded one -/
theorem rnd_nearest (x : ℝ) {m e : ℤ} (hm : |m| < 2 ^ 53) (he : -1074 ≤ e) :
    |rnd x - x| ≤ |(m : ℝ) * 2 ^ e - x| := by
  have hp := pow_pos' (lastExp x)
  have key : ∀ n : ℤ, |rnd x - x| ≤ |(n : ℝ) * 2 ^ lastExp x - x| := by
    intro n
    have h := rne_nearest (x / 2 ^ lastExp x) n
    have e1 : rnd x - x = ((rne (x / 2 ^ lastExp x) : ℝ) - x / 2 ^ lastExp x) * 2 ^ lastExp x := by
      unfold rnd; field_simp
    have e2 : (n : ℝ) * 2 ^ lastExp x - x = ((n : ℝ) - x / 2 ^ lastExp x) * 2 ^ lastExp x := by field_simp
    rw [e1, e2, abs_mul, abs_mul]
    exact mul_le_mul_of_nonneg_right h (abs_nonneg _)
  by_cases hx : x = 0
  · subst hx; rw [rnd_zero, sub_self, abs_zero]; exact abs_nonneg _
  by_cases hle : lastExp x ≤ e
  · obtain ⟨n, hn⟩ := grid m e _ hle
    rw [hn]; exact key n
  · have hl : lastExp x = Int.log 2 |x| - 52 := by
      unfold lastExp at hle ⊢
      rcases max_cases (Int.log 2 |x| - 52) (-1074) with ⟨h, -⟩ | ⟨h, -⟩
      · exact h
      · rw [h] at hle; omega
    obtain ⟨h1, -⟩ := log_bounds hx
    have hpow : (2 : ℝ) ^ Int.log 2 |x| = 2 ^ 52 * 2 ^ lastExp x := by
      rw [hl, zpow_sub₀ (by norm_num)]; norm_num; ring
    have hm' := mant_lt hm
    have hy : |(m : ℝ) * 2 ^ e| ≤ 2 ^ Int.log 2 |x| := by
      rw [abs_mul, abs_of_pos (pow_pos' e)]
      have : (2 : ℝ) ^ (e + 1) ≤ 2 ^ lastExp x := zpow_le_zpow_right₀ (by norm_num) (by omega)
      rw [zpow_add_one₀ (by norm_num)] at this
      rw [hpow]
      nlinarith [pow_pos' e]
    rcases lt_or_gt_of_ne hx with hneg | hpos
    · have h2 := key (-2 ^ 52)
      have e1 : (((-2 ^ 52 : ℤ) : ℝ)) * 2 ^ lastExp x - x = -(2 ^ Int.log 2 |x|) - x := by rw [hpow]; push_cast; ring
      rw [e1] at h2
      have e2 : |(-(2 ^ Int.log 2 |x|) - x : ℝ)| = -x - 2 ^ Int.log 2 |x| := by
        rw [abs_of_neg hneg] at h1 ⊢
        rw [abs_of_nonneg (by linarith)]; ring
      rw [e2] at h2
      have h3 := neg_abs_le ((m : ℝ) * 2 ^ e)
      have h4 := le_abs_self ((m : ℝ) * 2 ^ e - x)
      linarith
    · have h2 := key (2 ^ 52)
      have e1 : (((2 ^ 52 : ℤ) : ℝ)) * 2 ^ lastExp x - x = 2 ^ Int.log 2 |x| - x := by rw [hpow]; push_cast; ring
      rw [e1] at h2
      have e2 : |(2 ^ Int.log 2 |x| - x : ℝ)| = x - 2 ^ Int.log 2 |x| := by
        rw [abs_of_pos hpos] at h1 ⊢
        rw [abs_of_nonpos (by linarith)]; ring
      rw [e2] at h2
      have h3 := le_abs_self ((m : ℝ) * 2 ^ e)
      have h4 := neg_abs_le ((m : ℝ) * 2 ^ e - x)
      linarith

/-- no overflow for numbers of moderate size -/
theorem round_fin {x : ℝ} (h : |x| ≤ 2 ^ (1000 : ℤ)) : round x = fin (rnd x) := by
  unfold round
  rw [if_pos]
  have h1 := rnd_rel x
  have h2 : |rnd x| ≤ |x| + |rnd x - x| := by
    have := abs_add_le x (rnd x - x)
    rwa [add_sub_cancel] at this
  have ht : tiny ≤ 2 ^ (1000 : ℤ) := tiny_le _ (by norm_num)
  have h3 : |x| / 2 ^ 53 ≤ |x| := div_le_self (abs_nonneg x) (by norm_num)
  have h4 : (2 : ℝ) ^ (1024 : ℤ) = 2 ^ (1000 : ℤ) * 2 ^ (24 : ℤ) := by rw [← zpow_add₀ (by norm_num)]; norm_num
  have h5 := pow_pos' 1000
  rw [h4]
  have h6 : (2 : ℝ) ^ (24 : ℤ) = 16777216 := by norm_num
  rw [h6]
  clear h4 h6
  generalize (2 : ℝ) ^ (1000 : ℤ) = K at *
  linarith

/-- `x'` is `x` up to the relative error `p` -/
def Near (p x' x : ℝ) : Prop := |x' - x| ≤ p * |x|

/-- a number that is 0 or at least 1 in absolute value -/
def NotSmall (x : ℝ) : Prop := x = 0 ∨ 1 ≤ |x|

theorem big_of_half {x : ℝ} (h : 1 / 2 ≤ |x|) : (2 : ℝ) ^ (-1022 : ℤ) ≤ |x| := by
  refine le_trans ?_ h
  rw [show (1 / 2 : ℝ) = 2 ^ (-1 : ℤ) by norm_num]
  exact zpow_le_zpow_right₀ (by norm_num) (by norm_num)

/-- rounding adds `2⁻⁵³` to the relative error -/
theorem Near.rnd {p x' x : ℝ} (h : Near p x' x) (hp : p ≤ 1 / 2) (hx : NotSmall x) :
    Near (p + (1 + p) / 2 ^ 53) (rnd x') x := by
  unfold Near at *
  have hx0 := abs_nonneg x
  rcases hx with rfl | hx
  · rw [abs_zero, mul_zero, sub_zero] at *
    have : x' = 0 := abs_eq_zero.1 (le_antisymm h (abs_nonneg _))
    rw [this, rnd_zero, abs_zero]
  · have h1 : |x| - |x'| ≤ |x' - x| := by
      have := abs_sub_abs_le_abs_sub x x'; rwa [abs_sub_comm] at this
    have h2 : |x'| - |x| ≤ |x' - x| := abs_sub_abs_le_abs_sub x' x
    have h3 : 1 / 2 ≤ |x'| := by nlinarith
    have h4 := rnd_rel_big (big_of_half h3)
    have h5 : |F64.rnd x' - x| ≤ |F64.rnd x' - x'| + |x' - x| := by
      have := abs_add_le (F64.rnd x' - x') (x' - x)
      rwa [sub_add_sub_cancel] at this
    have h6 : |x'| / 2 ^ 53 ≤ (1 + p) * |x| / 2 ^ 53 := by
      gcongr; linarith
    have h7 : (p + (1 + p) / 2 ^ 53) * |x| = p * |x| + (1 + p) * |x| / 2 ^ 53 := by ring
    linarith

theorem Near.refl (x : ℝ) : Near 0 x x := by unfold Near; simp

theorem near_rnd {x : ℝ} (hx : NotSmall x) : Near (1 / 2 ^ 53) (F64.rnd x) x := by
  have := (Near.refl x).rnd (by norm_num) hx
  simpa using this

theorem notSmall_int (n : ℤ) : NotSmall (n : ℝ) := by
  by_cases h : n = 0
  · left; exact_mod_cast h
  · right
    rw [← Int.cast_abs]
    exact_mod_cast Int.one_le_abs h

theorem Near.mul {p q x' x y' y : ℝ} (h1 : Near p x' x) (h2 : Near q y' y) : Near (p + q + p * q) (x' * y') (x * y) := by
  unfold Near at *
  have e : x' * y' - x * y = (x' - x) * (y' - y) + (x' - x) * y + x * (y' - y) := by ring
  have a1 : |(x' - x) * (y' - y)| ≤ p * |x| * (q * |y|) := by
    rw [abs_mul]
    exact mul_le_mul h1 h2 (abs_nonneg _) ((abs_nonneg _).trans h1)
  have a2 : |(x' - x) * y| ≤ p * |x| * |y| := by
    rw [abs_mul]; exact mul_le_mul_of_nonneg_right h1 (abs_nonneg _)
  have a3 : |x * (y' - y)| ≤ |x| * (q * |y|) := by
    rw [abs_mul]; exact mul_le_mul_of_nonneg_left h2 (abs_nonneg _)
  have a4 := abs_add_three ((x' - x) * (y' - y)) ((x' - x) * y) (x * (y' - y))
  rw [e, abs_mul x y]
  nlinarith

theorem Near.sqrt {p x' x : ℝ} (h : Near p x' x) (hp : p ≤ 1) (hx : 0 ≤ x) :
    Near p (Real.sqrt x') (Real.sqrt x) := by
  unfold Near at *
  rw [abs_of_nonneg hx] at h
  rw [abs_of_nonneg (Real.sqrt_nonneg x)]
  have hs := Real.sqrt_nonneg x
  have hsq := Real.mul_self_sqrt hx
  obtain ⟨h1, h2⟩ := abs_le.1 h
  by_cases hx0 : x = 0
  · subst hx0
    have : x' = 0 := by linarith
    rw [this]; simp
  have hxp : 0 < x := lt_of_le_of_ne hx (Ne.symm hx0)
  have hp0 : 0 ≤ p := by
    by_contra hn
    have := abs_nonneg (x' - x)
    nlinarith
  have hx' : 0 ≤ x' := by nlinarith
  have b1 : Real.sqrt x' ≤ (1 + p) * Real.sqrt x := by
    rw [Real.sqrt_le_left (by positivity), mul_pow, Real.sq_sqrt hx]
    nlinarith [mul_nonneg hp0 hx, mul_nonneg (mul_nonneg hp0 hp0) hx]
  have b2 : (1 - p) * Real.sqrt x ≤ Real.sqrt x' := by
    apply Real.le_sqrt_of_sq_le
    rw [mul_pow, Real.sq_sqrt hx]
    nlinarith [mul_nonneg hp0 hx, mul_nonneg (mul_nonneg hp0 (by linarith : 0 ≤ 1 - p)) hx]
  rw [abs_le]; constructor <;> linarith

theorem Near.mono {p q x' x : ℝ} (h : Near p x' x) (hpq : p ≤ q) : Near q x' x :=
  le_trans h (mul_le_mul_of_nonneg_right hpq (abs_nonneg _))

/-- the largest float error, `2⁻⁵³` -/
theorem notSmall_sqrt (n : ℤ) : NotSmall (Real.sqrt (n : ℝ)) := by
  by_cases h : n ≤ 0
  · left; exact Real.sqrt_eq_zero_of_nonpos (by exact_mod_cast h)
  · right
    rw [abs_of_nonneg (Real.sqrt_nonneg _)]
    apply Real.le_sqrt_of_sq_le
    have : (1 : ℝ) ≤ n := by exact_mod_cast (by omega : 1 ≤ n)
    linarith

theorem NotSmall.mul {x y : ℝ} (hx : NotSmall x) (hy : NotSmall y) : NotSmall (x * y) := by
  rcases hx with rfl | hx
  · left; simp
  · rcases hy with rfl | hy
    · left; simp
    · right; rw [abs_mul]; nlinarith

theorem Near.abs {p x' x : ℝ} (h : Near p x' x) : Near p |x'| |x| := by
  unfold Near at *
  rw [abs_abs]
  exact (abs_abs_sub_abs_le x' x).trans h

/-- the product `b·√r` as it is computed -/
theorem near_prod (b r : ℤ) (hr : 0 ≤ r) {R : ℝ} (hR : Near (1 / 2 ^ 53) R r) :
    Near (65 / 16 / 2 ^ 53) (F64.rnd (F64.rnd b * F64.rnd (Real.sqrt R))) (b * Real.sqrt r) := by
  have h1 := near_rnd (notSmall_int b)
  have h3 := (hR.sqrt (by norm_num) (by exact_mod_cast hr)).rnd (by norm_num) (notSmall_sqrt r)
  have h4 := (h1.mul h3).rnd (by norm_num) ((notSmall_int b).mul (notSmall_sqrt r))
  exact h4.mono (by norm_num)

/-- the sum of two numbers with small relative errors -/
theorem sum_err {A P a p : ℝ} (hA : Near (1 / 2 ^ 53) A a) (hP : Near (65 / 16 / 2 ^ 53) P p) (hS : 1 ≤ |a| + |p|) :
    |F64.rnd (A + P) - (a + p)| ≤ 41 / 8 / 2 ^ 53 * (|a| + |p|) := by
  unfold Near at *
  have h1 := rnd_rel (A + P)
  have ha := abs_nonneg a
  have hp := abs_nonneg p
  have ht : tiny ≤ 1 / 2 ^ 60 := by
    have := tiny_le (-60) (by norm_num)
    rw [zpow_neg] at this
    norm_num at this ⊢
    exact this
  have e1 : |(A + P) - (a + p)| ≤ 65 / 16 / 2 ^ 53 * (|a| + |p|) := by
    have : (A + P) - (a + p) = (A - a) + (P - p) := by ring
    rw [this]
    have h3 := abs_add_le (A - a) (P - p)
    have : 1 / 2 ^ 53 * |a| ≤ 65 / 16 / 2 ^ 53 * |a| := by gcongr; norm_num
    linarith
  have e2 : |A + P| ≤ (1 + 65 / 16 / 2 ^ 53) * (|a| + |p|) := by
    have h3 := abs_sub_abs_le_abs_sub (A + P) (a + p)
    have h4 := abs_add_le a p
    linarith
  have e3 : |F64.rnd (A + P) - (a + p)| ≤ |F64.rnd (A + P) - (A + P)| + |(A + P) - (a + p)| := by
    have := abs_add_le (F64.rnd (A + P) - (A + P)) ((A + P) - (a + p))
    rwa [sub_add_sub_cancel] at this
  have e4 : |A + P| / 2 ^ 53 ≤ (1 + 65 / 16 / 2 ^ 53) * (|a| + |p|) / 2 ^ 53 := by gcongr
  generalize |a| + |p| = S at *
  have : (1 : ℝ) / 2 ^ 60 ≤ 1 / 2 ^ 60 * S := by nlinarith
  have : (65 / 16 / 2 ^ 53 + (1 + 65 / 16 / 2 ^ 53) / 2 ^ 53 + 1 / 2 ^ 60 : ℝ) * S ≤ 41 / 8 / 2 ^ 53 * S := by gcongr; norm_num
  linarith

/-- a quotient by an integer, as it is computed: absolute error `k·2⁻⁵³·S` of the numerator -/
theorem quot_err {T s S : ℝ} {k : ℝ} {c : ℤ} (hc : 0 < c) (hcL : (c : ℝ) ≤ 2 ^ (500 : ℤ)) (hS : 1 ≤ S) (hs : |s| ≤ S)
    (hk0 : 0 ≤ k) (hk : k ≤ 100) (hT : |T - s| ≤ k / 2 ^ 53 * S) :
    0 < F64.rnd c ∧ |F64.rnd (T / F64.rnd c) - s / c| ≤ (k + 2 + 1 / 4) / 2 ^ 53 * (S / c) := by
  have hcR : (1 : ℝ) ≤ c := by exact_mod_cast hc
  have hC := near_rnd (notSmall_int c)
  unfold Near at hC
  rw [abs_of_nonneg (by linarith : (0 : ℝ) ≤ c)] at hC
  obtain ⟨hC1, hC2⟩ := abs_le.1 hC
  generalize F64.rnd c = C at *
  have hCpos : 0 < C := by nlinarith
  refine ⟨hCpos, ?_⟩
  have hCc : (1 - 1 / 2 ^ 53) * c ≤ C := by linarith
  have hTS : |T| ≤ (1 + k / 2 ^ 53) * S := by
    have h3 := abs_sub_abs_le_abs_sub T s
    linarith
  have hz : |T / C| ≤ (1 + (k + 1 + 1 / 16) / 2 ^ 53) * (S / c) := by
    rw [abs_div, abs_of_pos hCpos, div_le_iff₀ hCpos]
    have h1 : (1 + (k + 1 + 1 / 16) / 2 ^ 53) * (S / c) * ((1 - 1 / 2 ^ 53) * c) ≤
        (1 + (k + 1 + 1 / 16) / 2 ^ 53) * (S / c) * C := by gcongr
    have h2 : (1 + (k + 1 + 1 / 16) / 2 ^ 53) * (S / c) * ((1 - 1 / 2 ^ 53) * c) =
        (1 + (k + 1 + 1 / 16) / 2 ^ 53) * (1 - 1 / 2 ^ 53) * S := by field_simp
    have h3 : (1 + k / 2 ^ 53 : ℝ) ≤ (1 + (k + 1 + 1 / 16) / 2 ^ 53) * (1 - 1 / 2 ^ 53) := by
      have : (k + 1 + 1 / 16) / 2 ^ 53 * (1 / 2 ^ 53) ≤ (1 / 16) / (2 : ℝ) ^ 53 := by
        have : (k + 1 + 1 / 16) * (1 / 2 ^ 53) ≤ (1 / 16 : ℝ) := by norm_num; linarith
        calc _ = (k + 1 + 1 / 16) * (1 / 2 ^ 53) / 2 ^ 53 := by ring
          _ ≤ _ := by gcongr
      ring_nf at this ⊢
      linarith
    have h4 : (1 + k / 2 ^ 53 : ℝ) * S ≤ (1 + (k + 1 + 1 / 16) / 2 ^ 53) * (1 - 1 / 2 ^ 53) * S := by gcongr
    linarith
  have hzs : |T / C - s / c| ≤ (k + 1 + 1 / 16) / 2 ^ 53 * (S / c) := by
    have e : T / C - s / c = ((T - s) * c + s * (c - C)) / (C * c) := by field_simp; ring
    rw [e, abs_div, abs_of_pos (by positivity : 0 < C * c), div_le_iff₀ (by positivity)]
    have h1 : |(T - s) * c + s * (c - C)| ≤ k / 2 ^ 53 * S * c + S * (1 / 2 ^ 53 * c) := by
      refine (abs_add_le _ _).trans ?_
      rw [abs_mul, abs_mul, abs_of_pos (by linarith : (0 : ℝ) < c)]
      have : |(c : ℝ) - C| ≤ 1 / 2 ^ 53 * c := by rw [abs_sub_comm]; exact hC
      gcongr
    have h2 : (k + 1 + 1 / 16) / 2 ^ 53 * (S / c) * (C * c) = (k + 1 + 1 / 16) / 2 ^ 53 * S * C := by field_simp
    have h3 : (k + 1 + 1 / 16) / 2 ^ 53 * S * ((1 - 1 / 2 ^ 53) * c) ≤ (k + 1 + 1 / 16) / 2 ^ 53 * S * C := by gcongr
    have h4 : (k + 1) / 2 ^ 53 ≤ (k + 1 + 1 / 16) / 2 ^ 53 * (1 - 1 / 2 ^ 53 : ℝ) := by
      have : (k + 1 + 1 / 16) * (1 / 2 ^ 53) ≤ (1 / 16 : ℝ) := by norm_num; linarith
      rw [div_mul_eq_mul_div]
      gcongr
      linarith
    have h5 : (k + 1) / 2 ^ 53 * (S * c) ≤ (k + 1 + 1 / 16) / 2 ^ 53 * (1 - 1 / 2 ^ 53 : ℝ) * (S * c) := by gcongr
    have h6 : k / 2 ^ 53 * S * c + S * (1 / 2 ^ 53 * c) = (k + 1) / 2 ^ 53 * (S * c) := by ring
    have h7 : (k + 1 + 1 / 16) / 2 ^ 53 * S * ((1 - 1 / 2 ^ 53) * c) =
        (k + 1 + 1 / 16) / 2 ^ 53 * (1 - 1 / 2 ^ 53 : ℝ) * (S * c) := by ring
    linarith
  have hSc : (2 : ℝ) ^ (-500 : ℤ) ≤ S / c := by
    rw [le_div_iff₀ (by linarith)]
    have : (2 : ℝ) ^ (-500 : ℤ) * 2 ^ (500 : ℤ) = 1 := by rw [← zpow_add₀ (by norm_num)]; norm_num
    have : (2 : ℝ) ^ (-500 : ℤ) * c ≤ 2 ^ (-500 : ℤ) * 2 ^ (500 : ℤ) := mul_le_mul_of_nonneg_left hcL (pow_pos' _).le
    linarith
  have ht : tiny ≤ 1 / 16 / 2 ^ 53 * (S / c) := by
    have h1 : tiny ≤ 2 ^ (-557 : ℤ) := tiny_le _ (by norm_num)
    have h2 : (2 : ℝ) ^ (-557 : ℤ) = 1 / 16 / 2 ^ 53 * 2 ^ (-500 : ℤ) := by
      rw [show (-557 : ℤ) = -57 + -500 by norm_num, zpow_add₀ (by norm_num)]
      norm_num
    have h3 : (1 / 16 / 2 ^ 53 : ℝ) * 2 ^ (-500 : ℤ) ≤ 1 / 16 / 2 ^ 53 * (S / c) := by gcongr
    linarith
  have hr := rnd_rel (T / C)
  have e3 : |F64.rnd (T / C) - s / c| ≤ |F64.rnd (T / C) - T / C| + |T / C - s / c| := by
    have := abs_add_le (F64.rnd (T / C) - T / C) (T / C - s / c)
    rwa [sub_add_sub_cancel] at this
  have e4 : |T / C| / 2 ^ 53 ≤ (1 + (k + 1 + 1 / 16) / 2 ^ 53) * (S / c) / 2 ^ 53 := by gcongr
  have hSc0 : 0 ≤ S / c := by positivity
  have e5 : (1 + (k + 1 + 1 / 16) / 2 ^ 53) * (S / c) / 2 ^ 53 ≤ (1 + 1 / 16) / 2 ^ 53 * (S / c) := by
    have : (1 + (k + 1 + 1 / 16) / 2 ^ 53 : ℝ) ≤ 1 + 1 / 16 := by
      norm_num
      linarith
    calc _ = (1 + (k + 1 + 1 / 16) / 2 ^ 53) / 2 ^ 53 * (S / c) := by ring
      _ ≤ _ := by gcongr
  have e6 : (k + 2 + 1 / 4) / 2 ^ 53 * (S / c) = (k + 1 + 1 / 16) / 2 ^ 53 * (S / c) +
      (1 + 1 / 16) / 2 ^ 53 * (S / c) + 1 / 8 / 2 ^ 53 * (S / c) := by ring
  have e7 : 1 / 16 / 2 ^ 53 * (S / c) ≤ 1 / 8 / 2 ^ 53 * (S / c) := by gcongr; norm_num
  linarith

end NumIrr.F64
