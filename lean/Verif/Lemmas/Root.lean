/- Helper lemmas: integer square roots, gcd, and the complex root `rootC`. -/
import Verif.Spec.Surd
import Mathlib.NumberTheory.Real.Irrational
import Mathlib.Tactic.Linarith
import Mathlib.Tactic.Ring
import Mathlib.Tactic.FieldSimp
import Mathlib.Tactic.LinearCombination
import Mathlib.Tactic.Positivity

namespace NumIrr

theorem isqrt_nonneg (n : ℤ) : 0 ≤ isqrt n := by unfold isqrt; positivity

theorem isqrt_mul_self_eq_iff {n : ℤ} (h : 0 ≤ n) : isqrt n * isqrt n = n ↔ IsSquare n := by
  unfold isqrt
  constructor
  · intro e; exact ⟨_, e.symm⟩
  · rintro ⟨k, hk⟩
    have : n.toNat = k.natAbs * k.natAbs := by
      have : (n.toNat : ℤ) = k.natAbs * k.natAbs := by
        rw [Int.toNat_of_nonneg h, hk]
        exact (Int.natAbs_mul_self' k).symm
      exact_mod_cast this
    rw [this, Nat.sqrt_eq, hk]
    simp [← sq]

theorem isqrt_le (n : ℤ) (h : 0 ≤ n) : isqrt n * isqrt n ≤ n := by
  unfold isqrt
  have := Nat.sqrt_le n.toNat
  zify at this
  rwa [Int.toNat_of_nonneg h] at this

theorem lt_succ_isqrt (n : ℤ) : n < (isqrt n + 1) * (isqrt n + 1) := by
  unfold isqrt
  have := Nat.lt_succ_sqrt n.toNat
  zify at this
  exact lt_of_le_of_lt (Int.self_le_toNat n) this

/-- bounds on the real square root -/
theorem isqrt_le_sqrt (n : ℤ) (h : 0 ≤ n) : (isqrt n : ℝ) ≤ Real.sqrt n := by
  apply Real.le_sqrt_of_sq_le
  have := isqrt_le n h
  rw [sq]; exact_mod_cast this

theorem sqrt_lt_isqrt (n : ℤ) : Real.sqrt n < (isqrt n : ℝ) + 1 := by
  have h0 := isqrt_nonneg n
  rw [Real.sqrt_lt' (by have : (0:ℝ) ≤ isqrt n := by exact_mod_cast h0
                        linarith)]
  have := lt_succ_isqrt n
  rw [sq]; exact_mod_cast this

theorem igcd_dvd_left (a b : ℤ) : igcd a b ∣ a := Int.gcd_dvd_left ..
theorem igcd_dvd_right (a b : ℤ) : igcd a b ∣ b := Int.gcd_dvd_right ..
theorem igcd_nonneg (a b : ℤ) : 0 ≤ igcd a b := by unfold igcd; positivity
theorem igcd_pos_right (a : ℤ) {b : ℤ} (h : b ≠ 0) : 0 < igcd a b := by
  have := Int.gcd_pos_of_ne_zero_right a h
  unfold igcd; exact_mod_cast this
theorem igcd_pos_left {a : ℤ} (b : ℤ) (h : a ≠ 0) : 0 < igcd a b := by
  have := Int.gcd_pos_of_ne_zero_left b h
  unfold igcd; exact_mod_cast this
theorem dvd_igcd {d a b : ℤ} (ha : d ∣ a) (hb : d ∣ b) : d ∣ igcd a b := Int.dvd_coe_gcd ha hb

/-- Exact division. -/
theorem tdiv_mul_of_dvd {a g : ℤ} (h : g ∣ a) : a.tdiv g * g = a := Int.tdiv_mul_cancel h

theorem rootC_mul_self (r : ℤ) : rootC r * rootC r = r := by
  unfold rootC
  split
  · next h =>
    have : (0:ℝ) ≤ r := by exact_mod_cast h
    rw [← Complex.ofReal_mul, Real.mul_self_sqrt this]; simp
  · next h =>
    have : (0:ℝ) ≤ -r := by
      have : r ≤ 0 := by omega
      have : (r:ℝ) ≤ 0 := by exact_mod_cast this
      linarith
    have e : Complex.I * ((Real.sqrt (-r) : ℝ) : ℂ) * (Complex.I * ((Real.sqrt (-r) : ℝ) : ℂ))
        = (Complex.I * Complex.I) * ((Real.sqrt (-r) * Real.sqrt (-r) : ℝ) : ℂ) := by
      push_cast; ring
    rw [e, Real.mul_self_sqrt this]; simp

theorem rootC_sq (r : ℤ) : rootC r ^ 2 = r := by rw [sq, rootC_mul_self]

@[simp] theorem rootC_zero : rootC 0 = 0 := by simp [rootC]

theorem rootC_ne_zero {r : ℤ} (h : r ≠ 0) : rootC r ≠ 0 := by
  intro e
  have := rootC_mul_self r
  rw [e] at this; simp at this; exact h (by exact_mod_cast this.symm)

theorem rootC_of_nonneg {r : ℤ} (h : 0 ≤ r) : rootC r = ((Real.sqrt r : ℝ) : ℂ) := by
  simp [rootC, h]

/-- pulling a square factor out of the root -/
theorem rootC_sq_mul {k : ℤ} (hk : 0 ≤ k) (r : ℤ) : rootC (k * k * r) = k * rootC r := by
  have hkk : (0:ℝ) ≤ k := by exact_mod_cast hk
  rcases eq_or_lt_of_le hk with h0 | h0
  · subst h0; simp
  unfold rootC
  by_cases hr : 0 ≤ r
  · have h1 : 0 ≤ k * k * r := by positivity
    rw [if_pos h1, if_pos hr]
    push_cast
    rw [Real.sqrt_mul (by positivity), Real.sqrt_mul_self hkk]; push_cast; ring
  · have h1 : ¬ 0 ≤ k * k * r := by
      push Not at hr ⊢
      have : 0 < k * k := by positivity
      nlinarith
    rw [if_neg h1, if_neg hr]
    push_cast
    have e : (-((k:ℝ) * k * r)) = k * k * (-r) := by ring
    rw [e, Real.sqrt_mul (by positivity), Real.sqrt_mul_self hkk]; push_cast; ring

theorem rootC_square {k : ℤ} (hk : 0 ≤ k) : rootC (k * k) = k := by
  have := rootC_sq_mul hk 1
  rw [mul_one] at this
  rw [this]; simp [rootC]

/-- a rational square of an integer is a perfect square -/
theorem isSquare_of_rat {r : ℤ} {q : ℚ} (h : q * q = r) : IsSquare r := by
  have : IsSquare (r : ℚ) := ⟨q, h.symm⟩
  rwa [Rat.isSquare_intCast_iff] at this

/-- `1` and `√r` are linearly independent over ℚ for non-square `r`. -/
theorem root_lin_indep {r : ℤ} (hr : ¬ IsSquare r) {x y : ℚ}
    (h : (x : ℂ) + y * rootC r = 0) : x = 0 ∧ y = 0 := by
  have h2 : (x:ℂ) * x = y * y * r := by
    have e : (x:ℂ) = - (y * rootC r) := by linear_combination h
    rw [e]; linear_combination (y:ℂ)^2 * rootC_mul_self r
  have h3 : x * x = y * y * r := by exact_mod_cast h2
  by_cases hy : y = 0
  · subst hy; simp at h; exact ⟨h, rfl⟩
  · exfalso
    apply hr
    apply isSquare_of_rat (q := x / y)
    field_simp
    linear_combination h3

theorem root_coeff_eq {r : ℤ} (hr : ¬ IsSquare r) {x y x' y' : ℚ}
    (h : (x : ℂ) + y * rootC r = x' + y' * rootC r) : x = x' ∧ y = y' := by
  have := root_lin_indep hr (x := x - x') (y := y - y') (by push_cast; linear_combination h)
  constructor <;> linarith [this.1, this.2]

theorem not_isSquare_ne_zero {r : ℤ} (hr : ¬ IsSquare r) : r ≠ 0 := by
  rintro rfl; exact hr ⟨0, by simp⟩

theorem not_isSquare_of_neg {r : ℤ} (h : r < 0) : ¬ IsSquare r := by
  rintro ⟨k, hk⟩; nlinarith [mul_self_nonneg k]

theorem Surd.valC_eq_val {s : Surd} (h : 0 ≤ s.r) : s.valC = ((s.val : ℝ) : ℂ) := by
  unfold Surd.valC Surd.val quadC quadR
  rw [rootC_of_nonneg h]; push_cast; rfl

/-- a perfect square in the Rust sense (integer root of the absolute value) -/
theorem isqrt_natAbs_iff (r : ℤ) : isqrt (r.natAbs : ℤ) * isqrt (r.natAbs : ℤ) = r ↔ IsSquare r := by
  rcases le_or_gt 0 r with h | h
  · have e : (r.natAbs : ℤ) = r := Int.natAbs_of_nonneg h
    rw [e, isqrt_mul_self_eq_iff h]
  · constructor
    · intro e; exact ⟨_, e.symm⟩
    · intro e; exact absurd e (not_isSquare_of_neg h)

end NumIrr
