/-
C93: conversion of surds to single precision complex numbers.
-/
import Verif.Lemmas.Float32
import Verif.Spec.Float32
import Verif.Props.Float

namespace NumIrr
open F64 (pow_pos')

/-- **C93** `to_complex32` never gives `None`. -/
theorem surd_toComplex32_some (s : Surd) : ∃ x y, s.toComplex32 = some (x, y) := by
  unfold Surd.toComplex32 Surd.toComplex64 Surd.toF64
  split <;> simp

/-- two roundings, one after the other -/
private theorem double {v x ε : ℝ} (h : |v - x| ≤ ε) : Near32 ε (F32.ofF64 (.fin v)) x := by
  have h3 : |v| ≤ |x| + ε := by
    have := abs_sub_abs_le_abs_sub v x
    linarith
  constructor
  · intro hx
    have hf := F32.round_fin (h3.trans_lt hx)
    have hr := F32.rnd_rel v
    have ht : F32.tiny = 1 / 2 ^ 150 := by unfold F32.tiny; norm_num
    rw [ht] at hr
    refine ⟨F32.rnd v, hf, F32.rnd_isFloat v, ?_, ?_⟩
    · have e1 := abs_sub_le (F32.rnd v) v x
      have e2 : |v| / 2 ^ 24 ≤ (|x| + ε) / 2 ^ 24 := by gcongr
      linarith
    · rintro _ ⟨m, e, hm, he, rfl⟩
      have e0 := F32.rnd_nearest v hm he
      have e1 := abs_sub_le (F32.rnd v) v x
      have e2 := abs_sub_le ((m : ℝ) * 2 ^ e) x v
      rw [abs_sub_comm x v] at e2
      linarith
  · intro hx
    have h0 : (0 : ℝ) < 2 ^ (128 : ℤ) - 2 ^ (103 : ℤ) := by norm_num
    have hε : 0 ≤ ε := (abs_nonneg _).trans h
    obtain ⟨h1, h2⟩ := abs_le.1 h
    have h4 : 2 ^ (128 : ℤ) - 2 ^ (103 : ℤ) < |v| := by
      have := abs_sub_abs_le_abs_sub x v
      rw [abs_sub_comm x v] at this
      linarith
    have e : F32.ofF64 (.fin v) = .inf (decide (v < 0)) := F32.round_inf h4
    rw [e]
    congr 1
    rw [decide_eq_decide]
    generalize (2 : ℝ) ^ (128 : ℤ) - 2 ^ (103 : ℤ) = M at *
    rcases le_or_gt 0 x with h5 | h5
    · rw [abs_of_nonneg h5] at hx
      constructor <;> intro h6 <;> linarith
    · rw [abs_of_neg h5] at hx
      constructor <;> intro h6 <;> linarith

/-- **C93** partial: for fields of at most `2¹²⁸` (so for every primitive type), the two parts of the result for a negative
root are the nearest `f32` up to a relative error of `2⁻⁴⁹` (twice `2⁻⁵⁰`), or an infinity if there is none.  Missing from the
full claim: that it is the nearest one, which is false (`surd_toComplex32_nearest_refuted`). -/
theorem surd_toComplex32_partial (s : Surd) (hs : s.Small (2 ^ 128)) (hc : 0 < s.c) (hr : s.r < 0) :
    ∃ x y, s.toComplex32 = some (x, y) ∧ Near32 (|(s.a : ℝ) / s.c| / 2 ^ 50) x (s.a / s.c) ∧
      Near32 (|(s.b : ℝ) * Real.sqrt (-s.r) / s.c| / 2 ^ 50) y (s.b * Real.sqrt (-s.r) / s.c) := by
  obtain ⟨x, y, h, hx, hy⟩ := surd_toComplex64_error s hs hc hr
  refine ⟨_, _, ?_, double hx, double hy⟩
  unfold Surd.toComplex32
  rw [h]; rfl

example : (Surd.mk 1 (-2) 3 (-5)).Small (2 ^ 128) := by unfold Surd.Small; decide

/-- **C93** partial: for a surd without a negative root the imaginary part is 0, and the real part is the nearest `f32` up to
the error of `to_f64` (C81). -/
theorem surd_toComplex32_real_partial (s : Surd) (hs : s.Small (2 ^ 128)) (hc : 0 < s.c) (hr : 0 ≤ s.r) :
    ∃ x, s.toComplex32 = some (x, .fin 0) ∧
      Near32 ((|(s.a : ℝ)| + |(s.b : ℝ)| * Real.sqrt s.r) / s.c / 2 ^ 50) x s.val := by
  obtain ⟨v, h, hv⟩ := surd_toF64_error s hs hc hr
  refine ⟨_, ?_, double hv⟩
  unfold Surd.toComplex32
  rw [surd_toComplex64_real s hr, h]
  show some (_, F32.ofF64 (.fin 0)) = _
  have : F32.ofF64 (.fin 0) = .fin 0 := by
    show F32.round 0 = _
    rw [F32.round_fin (by norm_num), F32.rnd_zero]
  rw [this]

example : (Surd.mk 1 1 2 5).Small (2 ^ 128) := by unfold Surd.Small; decide

private theorem small_fin {x : ℝ} (h : |x| ≤ 2 ^ 256) : F64.round x = .fin (F64.rnd x) := by
  refine F64.round_fin (h.trans ?_)
  rw [← zpow_natCast]
  exact zpow_le_zpow_right₀ (by norm_num) (by norm_num)

private theorem cast_small {n : ℤ} {k : ℕ} (h : |n| ≤ 2 ^ k) : |(n : ℝ)| ≤ 2 ^ k := by
  rw [← Int.cast_abs]
  calc ((|n| : ℤ) : ℝ) ≤ ((2 ^ k : ℤ) : ℝ) := Int.cast_le.2 h
    _ = 2 ^ k := by push_cast; rfl

private theorem ofInt_exact {n : ℤ} (h : |n| ≤ 2 ^ 53) : F64.ofInt n = .fin n := by
  unfold F64.ofInt
  rw [small_fin ((cast_small h).trans (by norm_num)), F64.rnd_int h]

/-- **C93** the Gaussian integers with parts of at most 24 binary digits are converted exactly. -/
theorem surd_toComplex32_gauss (a b : ℤ) (ha : |a| ≤ 2 ^ 24) (hb : |b| ≤ 2 ^ 24) :
    (Surd.mk a b 1 (-1)).toComplex32 = some (.fin a, .fin b) := by
  have hL : (2 : ℤ) ^ 24 ≤ 2 ^ 53 := by norm_num
  have ex : ∀ n : ℤ, |n| ≤ 2 ^ 24 → F32.ofF64 (F64.round n) = .fin n := by
    intro n hn
    have h1 : F64.round n = .fin n := ofInt_exact (hn.trans hL)
    rw [h1]
    show F32.round n = _
    rw [F32.round_fin ((cast_small hn).trans_lt (by norm_num)), F32.rnd_int hn]
  have h1 : F64.ofInt 1 = .fin 1 := by simpa using ofInt_exact (n := 1) (by norm_num)
  have hm : F64.ofInt (-1) = .fin (-1) := by simpa using ofInt_exact (n := -1) (by norm_num)
  have hs : (F64.fin 1).sqrt = .fin 1 := by
    show (if (1 : ℝ) < 0 then _ else F64.round (Real.sqrt 1)) = _
    rw [if_neg (by norm_num), Real.sqrt_one]
    simpa [F64.ofInt] using ofInt_exact (n := 1) (by norm_num)
  unfold Surd.toComplex32 Surd.toComplex64
  show Option.map _ (if (-1 : ℤ) < 0 then _ else _) = _
  rw [if_pos (by norm_num)]
  show some (F32.ofF64 ((F64.ofInt a).div (F64.ofInt 1)),
    F32.ofF64 (((F64.ofInt b).mul (F64.ofInt (-1)).abs.sqrt).div (F64.ofInt 1))) = _
  have hab : (F64.fin (-1)).abs = .fin 1 := by show F64.fin |(-1 : ℝ)| = _; norm_num
  have d1 : ∀ n : ℤ, (F64.fin (n : ℝ)).div (.fin 1) = F64.round n := by
    intro n
    show (if (1 : ℝ) = 0 then _ else F64.round ((n : ℝ) / 1)) = _
    rw [if_neg (by norm_num), div_one]
  have m1 : (F64.fin (b : ℝ)).mul (.fin 1) = .fin b := by
    show F64.round ((b : ℝ) * 1) = _
    rw [mul_one]
    exact ofInt_exact (hb.trans hL)
  rw [hm, hab, hs, h1, ofInt_exact (ha.trans hL), ofInt_exact (hb.trans hL), m1, d1, d1, ex a ha, ex b hb]

/-- 3 - 5i -/
example : |(3 : ℤ)| ≤ 2 ^ 24 ∧ |(-5 : ℤ)| ≤ 2 ^ 24 := by norm_num

/-- C93 is false: the result is not always the nearest `f32`.  The `i64` number `2^60 + 2^36 + 1` is first rounded to the
`f64` `2^60 + 2^36`, and then, to even, to `2^60`; the `f32` `2^60 + 2^37` is nearer. -/
theorem surd_toComplex32_nearest_refuted (cfg : Cfg) : ∃ s : Surd, ∃ w v : ℝ, s.Ok cfg ∧ 0 ≤ s.r ∧ (⟨64, true⟩ : Fx).HoldsS s ∧
    s.toComplex32 = some (.fin w, .fin 0) ∧ IsF32 v ∧ |v - s.val| < |w - s.val| := by
  have hok : (Surd.mk (2 ^ 60 + 2 ^ 36 + 1) 0 1 0).Ok cfg := by
    obtain ⟨c, d⟩ := cfg; cases c <;> cases d <;> decide +kernel
  refine ⟨⟨2 ^ 60 + 2 ^ 36 + 1, 0, 1, 0⟩, 2 ^ 60, 2 ^ 60 + 2 ^ 37, hok, le_rfl, by unfold Fx.HoldsS Fx.Holds; decide, ?_,
    ⟨2 ^ 23 + 1, 37, by norm_num, by norm_num, by norm_num⟩, ?_⟩
  · have r1 : F64.rnd ((2 ^ 60 + 2 ^ 36 + 1 : ℤ) : ℝ) = 2 ^ 60 + 2 ^ 36 := by
      have := F64.rnd_eq (x := ((2 ^ 60 + 2 ^ 36 + 1 : ℤ) : ℝ)) (m := 2 ^ 52 + 2 ^ 28) (k := 60) (by norm_num)
        (by push_cast; rw [abs_of_nonneg (by norm_num)]; norm_num) (by push_cast; rw [abs_of_nonneg (by norm_num)]; norm_num)
        (by push_cast; rw [abs_lt]; norm_num)
      rw [this]; norm_num
    have r2 : F64.rnd ((2 : ℝ) ^ 60 + 2 ^ 36) = 2 ^ 60 + 2 ^ 36 := by
      have := F64.rnd_float (m := 2 ^ 24 + 1) (e := 36) (by norm_num) (by norm_num)
      norm_num at this ⊢; exact this
    have r3 : F32.rnd ((2 : ℝ) ^ 60 + 2 ^ 36) = 2 ^ 60 := by
      have hx : ((2 : ℝ) ^ 60 + 2 ^ 36) ≠ 0 := by norm_num
      have h0 : (0 : ℝ) ≤ 2 ^ 60 + 2 ^ 36 := by norm_num
      obtain ⟨h3, h4⟩ := F64.log_bounds hx
      rw [abs_of_nonneg h0] at h3 h4
      have h5 : (60 : ℤ) < Int.log 2 ((2 : ℝ) ^ 60 + 2 ^ 36) + 1 := by
        refine (zpow_lt_zpow_iff_right₀ (by norm_num : (1 : ℝ) < 2)).1 (lt_of_lt_of_le ?_ h4.le)
        norm_num
      have h6 : Int.log 2 ((2 : ℝ) ^ 60 + 2 ^ 36) < 61 := by
        refine (zpow_lt_zpow_iff_right₀ (by norm_num : (1 : ℝ) < 2)).1 (lt_of_le_of_lt h3 ?_)
        norm_num
      have e : F32.lastExp ((2 : ℝ) ^ 60 + 2 ^ 36) = 37 := by
        unfold F32.lastExp; rw [abs_of_nonneg h0]; omega
      unfold F32.rnd
      rw [e]
      have hf : ⌊((2 : ℝ) ^ 60 + 2 ^ 36) / 2 ^ (37 : ℤ)⌋ = 2 ^ 23 := by
        rw [Int.floor_eq_iff]; norm_num
      have : F64.rne (((2 : ℝ) ^ 60 + 2 ^ 36) / 2 ^ (37 : ℤ)) = 2 ^ 23 := by
        unfold F64.rne
        rw [hf, if_neg (by norm_num), if_neg (by norm_num), if_pos (by decide)]
      rw [this]; norm_num
    have h0 : F64.ofInt 0 = .fin 0 := by simpa using ofInt_exact (n := 0) (by norm_num)
    have h1 : F64.ofInt 1 = .fin 1 := by simpa using ofInt_exact (n := 1) (by norm_num)
    have z0 : F64.round 0 = .fin 0 := by simpa [F64.ofInt] using ofInt_exact (n := 0) (by norm_num)
    have hs : (F64.fin 0).sqrt = .fin 0 := by
      show (if (0 : ℝ) < 0 then _ else F64.round (Real.sqrt 0)) = _
      rw [if_neg (by norm_num), Real.sqrt_zero, z0]
    have hm : (F64.fin 0).mul (.fin 0) = .fin 0 := by
      show F64.round (0 * 0) = _
      rw [mul_zero, z0]
    have ha : F64.ofInt (2 ^ 60 + 2 ^ 36 + 1) = .fin (2 ^ 60 + 2 ^ 36) := by
      unfold F64.ofInt
      rw [small_fin (by push_cast; rw [abs_of_nonneg (by norm_num)]; norm_num), r1]
    have r4 : F64.round ((2 : ℝ) ^ 60 + 2 ^ 36) = .fin (2 ^ 60 + 2 ^ 36) := by
      rw [small_fin (by rw [abs_of_nonneg (by norm_num)]; norm_num), r2]
    have hadd : (F64.fin ((2 : ℝ) ^ 60 + 2 ^ 36)).add (.fin 0) = .fin (2 ^ 60 + 2 ^ 36) := by
      show F64.round _ = _
      rw [add_zero, r4]
    have hdiv : (F64.fin ((2 : ℝ) ^ 60 + 2 ^ 36)).div (.fin 1) = .fin (2 ^ 60 + 2 ^ 36) := by
      show (if (1 : ℝ) = 0 then _ else F64.round (_ / 1)) = _
      rw [if_neg (by norm_num), div_one, r4]
    unfold Surd.toComplex32
    rw [surd_toComplex64_real _ (le_refl _)]
    unfold Surd.toF64
    rw [if_neg (lt_irrefl _)]
    show some (F32.ofF64 (((F64.ofInt (2 ^ 60 + 2 ^ 36 + 1)).add ((F64.ofInt 0).mul (F64.ofInt 0).sqrt)).div (F64.ofInt 1)),
      F32.ofF64 (.fin 0)) = _
    rw [h0, h1, hs, hm, ha, hadd, hdiv]
    show some (F32.round _, F32.round 0) = _
    rw [F32.round_fin (by rw [abs_of_nonneg (by norm_num)]; norm_num), r3, F32.round_fin (by norm_num), F32.rnd_zero]
  · unfold Surd.val quadR
    push_cast
    rw [abs_of_nonneg (by norm_num), abs_of_nonpos (by norm_num)]
    norm_num

end NumIrr
