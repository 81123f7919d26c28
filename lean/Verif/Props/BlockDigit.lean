/-
C97: exactly when a digit of a block is right for every argument.
-/
import Verif.Props.BlockOps

namespace NumIrr
namespace Block

private theorem IsTrunc.lt {y : ℝ} {i : ℤ} (h : IsTrunc y i) : |y| < |(i : ℝ)| + 1 := by
  rcases le_total 0 y with h0 | h0
  · have := Int.lt_floor_add_one y
    rw [h.1 h0] at this
    rw [abs_of_nonneg h0]
    linarith [le_abs_self (i : ℝ)]
  · have := Int.ceil_lt_add_one y
    have h2 := Int.le_ceil (y - 1)
    have h3 : (⌈y⌉ : ℝ) - 1 < y := by linarith
    rw [h.2 h0] at h3
    rw [abs_of_nonpos h0]
    linarith [neg_abs_le (i : ℝ)]

/-- **C97** a digit that is given is the value rounded towards zero at every argument from zero on (except at the pole) exactly if the entries
of the denominator have the same sign, or the block stands for a constant. -/
theorem block_digit_iff (m : Block) (i : ℤ) (h : m.reduceRecip.1 = some i) :
    (∀ x : ℝ, 0 ≤ x → m.qm1 * x + m.qm2 ≠ 0 → IsTrunc (m.mob x) i) ↔
      0 < m.qm1 * m.qm2 ∨ m.pm1 * m.qm2 = m.pm2 * m.qm1 := by
  obtain ⟨h1, h2, h3, h4⟩ := ((block_outputs m 1).1 i).1 h
  have k1 : (m.qm1 : ℝ) ≠ 0 := by exact_mod_cast h1
  have k2 : (m.qm2 : ℝ) ≠ 0 := by exact_mod_cast h2
  constructor
  · intro H
    by_contra hc
    push Not at hc
    obtain ⟨hs, hdet⟩ := hc
    have hs' : (m.qm1 : ℝ) * m.qm2 < 0 := by
      have : m.qm1 * m.qm2 < 0 := lt_of_le_of_ne hs (mul_ne_zero h1 h2)
      exact_mod_cast this
    have hx0 : 0 < -(m.qm2 : ℝ) / m.qm1 := by
      rw [show -(m.qm2 : ℝ) / m.qm1 = -(m.qm1 * m.qm2) / (m.qm1 * m.qm1) by
        rw [← mul_neg, mul_div_mul_left _ _ k1]]
      have : 0 < (m.qm1 : ℝ) * m.qm1 := mul_self_pos.2 k1
      exact div_pos (by linarith) this
    generalize hp : -(m.qm2 : ℝ) / m.qm1 = x0 at hx0
    have hp' : (m.qm1 : ℝ) * x0 + m.qm2 = 0 := by rw [← hp, mul_div_cancel₀ _ k1]; ring
    have hN : (m.pm1 : ℝ) * x0 + m.pm2 ≠ 0 := by
      intro e
      apply hdet
      have : (m.pm1 : ℝ) * m.qm2 = m.pm2 * m.qm1 := by linear_combination m.pm1 * hp' - m.qm1 * e
      exact_mod_cast this
    generalize hNd : (m.pm1 : ℝ) * x0 + m.pm2 = N at hN
    have hNpos : 0 < |N| := abs_pos.2 hN
    have hq1 : 0 < |(m.qm1 : ℝ)| := abs_pos.2 k1
    have hden : 0 < (|(i : ℝ)| + 1) * |(m.qm1 : ℝ)| + |(m.pm1 : ℝ)| := by positivity
    obtain ⟨t, ht0, ht⟩ : ∃ t : ℝ, 0 < t ∧ t * ((|(i : ℝ)| + 1) * |(m.qm1 : ℝ)| + |(m.pm1 : ℝ)|) = |N| :=
      ⟨_, div_pos hNpos hden, div_mul_cancel₀ _ hden.ne'⟩
    have e1 : (m.qm1 : ℝ) * (x0 + t) + m.qm2 = m.qm1 * t := by linear_combination hp'
    have e2 : (m.pm1 : ℝ) * (x0 + t) + m.pm2 = N + m.pm1 * t := by linear_combination hNd
    have hqt : (m.qm1 : ℝ) * t ≠ 0 := mul_ne_zero k1 ht0.ne'
    have := (H (x0 + t) (by positivity) (by rw [e1]; exact hqt)).lt
    unfold mob at this
    rw [e1, e2, abs_div, div_lt_iff₀ (abs_pos.2 hqt), abs_mul, abs_of_pos ht0] at this
    have h5 : |N| - |(m.pm1 : ℝ) * t| ≤ |N + m.pm1 * t| := by
      have := abs_sub_abs_le_abs_sub N (-(m.pm1 * t))
      rwa [abs_neg, sub_neg_eq_add] at this
    rw [abs_mul, abs_of_pos ht0] at h5
    nlinarith
  · rintro (hs | hdet) x hx hx'
    · exact ((block_digit_partial m hs i).1 h).1 x hx
    · have e : m.mob x = m.pm1 / m.qm1 := by
        unfold mob
        rw [div_eq_div_iff hx' k1]
        have : (m.pm1 : ℝ) * m.qm2 = m.pm2 * m.qm1 := by exact_mod_cast hdet
        linear_combination -this
      rw [e]
      exact h3

example : Block.reduceRecip ⟨3, 7, 2, 4⟩ = (some 1, ⟨2, 4, 1, 3⟩) ∧ (0 : ℤ) < 2 * 4 ∧
    (Block.reduceRecip ⟨3, -5, 2, -3⟩).1 = some 1 ∧ ¬ ((0 : ℤ) < 2 * -3 ∨ (3 : ℤ) * -3 = -5 * 2) := by decide +kernel

end Block
end NumIrr
