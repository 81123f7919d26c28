/- Helper lemmas: floors of `(a ± √n)/c`. -/
import Verif.Lemmas.SurdBin
import Verif.Spec.Round

namespace NumIrr

theorem sqrtR_ok {n : ℤ} (h : 0 ≤ n) : sqrtR n = .ok (isqrt n) := by
  unfold sqrtR; rw [if_neg (not_lt.mpr h)]

theorem divR_ok {a b : ℤ} (h : b ≠ 0) : divR a b = .ok (a.tdiv b) := by
  unfold divR; rw [if_neg h]

theorem floor_sqrt (n : ℤ) (h : 0 ≤ n) : ⌊Real.sqrt n⌋ = isqrt n := by
  rw [Int.floor_eq_iff]
  exact ⟨isqrt_le_sqrt n h, sqrt_lt_isqrt n⟩

theorem ceil_sqrt (n : ℤ) (h : 0 ≤ n) (hn : ¬ IsSquare n) : ⌈Real.sqrt n⌉ = isqrt n + 1 := by
  rw [Int.ceil_eq_iff]
  push_cast
  refine ⟨?_, (sqrt_lt_isqrt n).le⟩
  have h1 := isqrt_le_sqrt n h
  have : (isqrt n : ℝ) ≠ Real.sqrt n := by
    intro e
    apply hn
    refine ⟨isqrt n, ?_⟩
    have : ((isqrt n : ℤ) : ℝ) * isqrt n = n := by
      rw [e, Real.mul_self_sqrt (by exact_mod_cast h)]
    exact_mod_cast this.symm
  have := lt_of_le_of_ne h1 this
  linarith

/-- `⌊x/c⌋ = ⌊x⌋ div c` for a positive integer `c` -/
theorem floor_div_int (x : ℝ) {c : ℤ} (hc : 0 < c) : ⌊x / c⌋ = ⌊x⌋ / c := by
  have h := Int.floor_div_natCast x c.toNat
  have hcc : ((c.toNat : ℕ) : ℤ) = c := Int.toNat_of_nonneg hc.le
  have h2 : ((c.toNat : ℕ) : ℝ) = (c : ℝ) := by exact_mod_cast hcc
  rw [h2, hcc] at h
  exact h

/-- truncating division after the adjustment of surd.rs:609-613 is floor division -/
theorem tdiv_adjust (num : ℤ) {c : ℤ} (hc : 0 < c) :
    (if 0 ≤ num then num else num - c + 1).tdiv c = num / c := by
  split
  · next h => exact Int.tdiv_eq_ediv_of_nonneg h
  · next h =>
    push Not at h
    have e : num - c + 1 = -(c - 1 - num) := by ring
    rw [e, Int.neg_tdiv, Int.tdiv_eq_ediv_of_nonneg (by omega)]
    -- -((c-1-num)/c) = num / c
    have h1 := Int.emod_add_mul_ediv num c
    have h2 := Int.emod_nonneg num hc.ne'
    have h3 := Int.emod_lt_of_pos num hc
    have : (c - 1 - num) / c = - (num / c) := by
      rw [Int.ediv_eq_iff_of_pos hc]
      constructor <;> nlinarith
    omega

theorem sqrt_sq_mul {b : ℤ} (r : ℤ) : Real.sqrt ((b * b * r : ℤ) : ℝ) = |(b:ℝ)| * Real.sqrt r := by
  push_cast
  rw [Real.sqrt_mul (mul_self_nonneg _), Real.sqrt_mul_self_eq_abs]

theorem not_square_bbr {b r : ℤ} (hb : b ≠ 0) (hr : ¬ IsSquare r) : ¬ IsSquare (b * b * r) := by
  rintro ⟨k, hk⟩
  apply hr
  apply isSquare_of_rat (q := (k : ℚ) / b)
  have : (b:ℚ) ≠ 0 := by exact_mod_cast hb
  have e : (b:ℚ) * b * r = k * k := by exact_mod_cast hk
  field_simp
  linear_combination -e

namespace Surd
variable {cfg : Cfg} {s : Surd}

theorem panicIfComplex_ok (h : 0 ≤ s.r) : panicIfComplex cfg s = .ok () := by
  unfold panicIfComplex; rw [if_neg (by omega)]

theorem val_eq (s : Surd) : s.val = ((s.a : ℝ) + s.b * Real.sqrt s.r) / s.c := rfl

theorem RealOk.c_pos' (h : s.RealOk) : (0:ℝ) < s.c := by exact_mod_cast h.c_pos

theorem RealOk.bbr_nonneg (h : s.RealOk) : 0 ≤ s.b * s.b * s.r :=
  mul_nonneg (mul_self_nonneg _) h.real

/-- floor of the numerator `a + b√r` -/
theorem floor_num (h : s.RealOk) : ⌊(s.a : ℝ) + s.b * Real.sqrt s.r⌋ =
    (if 0 ≤ s.b then s.a + isqrt (s.b * s.b * s.r) else s.a - isqrt (s.b * s.b * s.r) - 1) := by
  have hn := h.bbr_nonneg
  have hs := sqrt_sq_mul (b := s.b) s.r
  split
  · next hb =>
    have hb' : (0:ℝ) ≤ s.b := by exact_mod_cast hb
    rw [abs_of_nonneg hb'] at hs
    rw [← hs, Int.floor_intCast_add, floor_sqrt _ hn]
  · next hb =>
    push Not at hb
    have hb' : (s.b : ℝ) < 0 := by exact_mod_cast hb
    rw [abs_of_neg hb'] at hs
    have hr : s.r ≠ 0 := fun e => by have := h.rational.mpr e; omega
    have hns := not_square_bbr hb.ne (h.irrational hr)
    have e : (s.a : ℝ) + s.b * Real.sqrt s.r = s.a + -Real.sqrt ((s.b * s.b * s.r : ℤ) : ℝ) := by
      rw [hs]; ring
    rw [e, Int.floor_intCast_add, Int.floor_neg, ceil_sqrt _ hn hns]
    ring

theorem floor_spec (h : s.RealOk) : floor cfg s = .ok (ofInt ⌊s.val⌋) := by
  have hn := h.bbr_nonneg
  unfold floor
  rw [panicIfComplex_ok h.real, ok_bind, sqrtR_ok hn, ok_bind]
  simp only
  rw [divR_ok h.c_pos.ne', ok_bind, tdiv_adjust _ h.c_pos]
  rw [val_eq, floor_div_int _ h.c_pos, floor_num h]
  rfl

end Surd
end NumIrr
