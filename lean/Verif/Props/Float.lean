/-
C81: conversion of surds to floating point numbers.  C82: the floating point constants and `from_f64`.
-/
import Verif.Lemmas.Float
import Verif.Spec.Fixed
import Verif.Props.SurdRound
import Verif.Lemmas.SurdDecide
import Mathlib.Analysis.Real.Pi.Bounds
import Mathlib.Analysis.Complex.ExponentialBounds

namespace NumIrr
open F64

/-- **C81** `to_f64` gives `None` exactly for surds with a negative root. -/
theorem surd_toF64_none (s : Surd) : s.toF64 = none ↔ s.r < 0 := by
  unfold Surd.toF64
  split <;> simp [*]

/-- the rounding of the model is to nearest, ties to even -/
example : F64.rne (1 / 2) = 0 ∧ F64.rne (3 / 2) = 2 ∧ F64.rne (-1 / 2) = 0 ∧ F64.rne (7 / 4) = 2 ∧ F64.rne (-5 / 4) = -1 := by
  have f : ∀ (q : ℝ) (n : ℤ), (n : ℝ) ≤ q → q < n + 1 → ⌊q⌋ = n := fun q n h1 h2 => Int.floor_eq_iff.2 ⟨h1, h2⟩
  unfold F64.rne
  rw [f (1 / 2) 0 (by norm_num) (by norm_num), f (3 / 2) 1 (by norm_num) (by norm_num),
    f (-1 / 2) (-1) (by norm_num) (by norm_num), f (7 / 4) 1 (by norm_num) (by norm_num),
    f (-5 / 4) (-2) (by norm_num) (by norm_num)]
  norm_num

private theorem cast_small {n : ℤ} (h : |n| ≤ 2 ^ 128) : |(n : ℝ)| ≤ 2 ^ 128 := by
  rw [← Int.cast_abs]
  calc ((|n| : ℤ) : ℝ) ≤ ((2 ^ 128 : ℤ) : ℝ) := Int.cast_le.2 h
    _ = 2 ^ 128 := by norm_num

/-- the square root of a moderate integer is moderate -/
private theorem sqrt_small {n : ℤ} (h : |n| ≤ 2 ^ 128) : |Real.sqrt n| ≤ 2 ^ 64 := by
  have h1 := (le_abs_self _).trans (cast_small h)
  rw [abs_of_nonneg (Real.sqrt_nonneg _)]
  refine Real.sqrt_le_iff.2 ⟨by norm_num, ?_⟩
  norm_num at h1 ⊢
  linarith

private theorem near_le {p x' x K : ℝ} (h : Near p x' x) (hp : p ≤ 1) (hx : |x| ≤ K) : |x'| ≤ 2 * K := by
  unfold Near at h
  have := abs_sub_abs_le_abs_sub x' x
  have := abs_nonneg x
  nlinarith

private theorem small_fin {x : ℝ} (h : |x| ≤ 2 ^ 256) : F64.round x = .fin (F64.rnd x) := by
  refine round_fin (h.trans ?_)
  rw [← zpow_natCast]
  exact zpow_le_zpow_right₀ (by norm_num) (by norm_num)

private theorem ofInt_fin {n : ℤ} (h : |n| ≤ 2 ^ 128) : F64.ofInt n = .fin (F64.rnd n) := by
  refine small_fin ((cast_small h).trans ?_)
  norm_num

/-- the computation of `b·√r` -/
private theorem prod_fin {b r : ℤ} {R : ℝ} (hb : |b| ≤ 2 ^ 128) (hr : |r| ≤ 2 ^ 128) (hr0 : 0 ≤ r) (hR0 : 0 ≤ R)
    (hR : Near (1 / 2 ^ 53) R r) :
    (F64.ofInt b).mul (F64.fin R).sqrt = .fin (F64.rnd (F64.rnd b * F64.rnd (Real.sqrt R))) ∧
    Near (65 / 16 / 2 ^ 53) (F64.rnd (F64.rnd b * F64.rnd (Real.sqrt R))) (b * Real.sqrt r) ∧
    |(b : ℝ) * Real.sqrt r| ≤ 2 ^ 192 := by
  have hb' := near_rnd (notSmall_int b)
  have hs := hR.sqrt (by norm_num) (by exact_mod_cast hr0)
  have hq := hs.rnd (by norm_num) (notSmall_sqrt r)
  have hs1 := near_le hs (by norm_num) (sqrt_small hr)
  have hq1 := near_le hq (by norm_num) (sqrt_small hr)
  have hb1 := near_le hb' (by norm_num) (cast_small hb)
  have e1 : (F64.fin R).sqrt = .fin (F64.rnd (Real.sqrt R)) := by
    show (if R < 0 then _ else F64.round (Real.sqrt R)) = _
    rw [if_neg (not_lt.2 hR0)]
    exact small_fin (hs1.trans (by norm_num))
  refine ⟨?_, near_prod b r hr0 hR, ?_⟩
  · rw [ofInt_fin hb, e1]
    refine small_fin ?_
    rw [abs_mul]
    calc _ ≤ (2 * 2 ^ 128 : ℝ) * (2 * 2 ^ 64) := mul_le_mul hb1 hq1 (abs_nonneg _) (by norm_num)
      _ ≤ _ := by norm_num
  · rw [abs_mul]
    calc _ ≤ (2 ^ 128 : ℝ) * 2 ^ 64 := mul_le_mul (cast_small hb) (sqrt_small hr) (abs_nonneg _) (by norm_num)
      _ = _ := by norm_num

/-- a division by the rounded denominator -/
private theorem quot_fin {T s S k : ℝ} {c : ℤ} (hc : 0 < c) (hcB : |c| ≤ 2 ^ 128) (hS : S = 0 ∨ 1 ≤ S) (hSB : S ≤ 2 ^ 193)
    (hs : |s| ≤ S) (hk0 : 0 ≤ k) (hk : k ≤ 100) (hT : |T - s| ≤ k / 2 ^ 53 * S) :
    ∃ v, (F64.fin T).div (F64.ofInt c) = .fin v ∧ |v - s / c| ≤ (k + 2 + 1 / 4) / 2 ^ 53 * (S / c) := by
  have hcR : (1 : ℝ) ≤ c := by exact_mod_cast hc
  have hC := near_rnd (notSmall_int c)
  unfold Near at hC
  rw [abs_of_nonneg (by linarith : (0 : ℝ) ≤ c)] at hC
  have hC0 : 1 / 2 ≤ F64.rnd c := by have := (abs_le.1 hC).1; linarith
  rw [ofInt_fin hcB]
  have e : (F64.fin T).div (.fin (F64.rnd c)) = F64.round (T / F64.rnd c) := by
    show (if F64.rnd c = 0 then _ else _) = _
    rw [if_neg (by linarith)]
  refine ⟨F64.rnd (T / F64.rnd c), ?_, ?_⟩
  · rw [e]
    refine small_fin ?_
    rw [abs_div, abs_of_pos (by linarith : 0 < F64.rnd c), div_le_iff₀ (by linarith)]
    have h3 := abs_sub_abs_le_abs_sub T s
    have hS0 : 0 ≤ S := (abs_nonneg s).trans hs
    have hk2 : k / 2 ^ 53 * S ≤ 1 * S := by gcongr; rw [div_le_one (by norm_num)]; linarith
    have : (2 : ℝ) ^ 256 * (1 / 2) ≤ 2 ^ 256 * F64.rnd c := by gcongr
    norm_num at hSB this ⊢
    linarith
  · rcases hS with hS | hS
    · rw [hS, mul_zero] at hT
      have hs0 : s = 0 := abs_eq_zero.1 (le_antisymm (hS ▸ hs) (abs_nonneg _))
      have hT0 : T = 0 := by
        have := abs_eq_zero.1 (le_antisymm hT (abs_nonneg _)); rw [hs0] at this; linarith
      rw [hS, hs0, hT0]; simp [F64.rnd_zero]
    · refine (quot_err hc ?_ hS hs hk0 hk hT).2
      refine ((le_abs_self _).trans (cast_small hcB)).trans ?_
      rw [← zpow_natCast]
      exact zpow_le_zpow_right₀ (by norm_num) (by norm_num)

private theorem notSmall_abs_add {x y : ℝ} (hx : NotSmall x) (hy : NotSmall y) : |x| + |y| = 0 ∨ 1 ≤ |x| + |y| := by
  have := abs_nonneg x
  have := abs_nonneg y
  rcases hx with rfl | hx
  · rcases hy with rfl | hy
    · left; simp
    · right; linarith
  · right; linarith

/-- **C81** error bound: for fields of at most `2¹²⁸` (so for every primitive type) `to_f64` of a real surd is a finite number
whose error is at most `2⁻⁵⁰·(|a| + |b|√r)/c`. -/
theorem surd_toF64_error (s : Surd) (hs : s.Small (2 ^ 128)) (hc : 0 < s.c) (hr : 0 ≤ s.r) :
    ∃ v, s.toF64 = some (.fin v) ∧ |v - s.val| ≤ (|(s.a : ℝ)| + |(s.b : ℝ)| * Real.sqrt s.r) / s.c / 2 ^ 50 := by
  obtain ⟨ha, hb, hcB, hrB⟩ := hs
  have hR := near_rnd (notSmall_int s.r)
  have hR0 : 0 ≤ F64.rnd s.r := rnd_nonneg (by exact_mod_cast hr)
  obtain ⟨p1, p2, p3⟩ := prod_fin hb hrB hr hR0 hR
  have hA := near_rnd (notSmall_int s.a)
  have hbs : |(s.b : ℝ) * Real.sqrt s.r| = |(s.b : ℝ)| * Real.sqrt s.r := by
    rw [abs_mul, abs_of_nonneg (Real.sqrt_nonneg _)]
  have hSn := notSmall_abs_add (notSmall_int s.a) ((notSmall_int s.b).mul (notSmall_sqrt s.r))
  have hsum : |F64.rnd (F64.rnd s.a + F64.rnd (F64.rnd s.b * F64.rnd (Real.sqrt (F64.rnd s.r)))) -
      (s.a + s.b * Real.sqrt s.r)| ≤ 41 / 8 / 2 ^ 53 * (|(s.a : ℝ)| + |(s.b : ℝ) * Real.sqrt s.r|) := by
    rcases hSn with h0 | h1
    · have a0 := abs_nonneg (s.a : ℝ)
      have b0 := abs_nonneg ((s.b : ℝ) * Real.sqrt s.r)
      have ea : |(s.a : ℝ)| = 0 := by linarith
      have eb : |(s.b : ℝ) * Real.sqrt s.r| = 0 := by linarith
      unfold Near at hA p2
      rw [ea, mul_zero] at hA
      rw [eb, mul_zero] at p2
      have ea' := abs_eq_zero.1 ea
      have eb' := abs_eq_zero.1 eb
      have hA' := abs_eq_zero.1 (le_antisymm hA (abs_nonneg _))
      have hP' := abs_eq_zero.1 (le_antisymm p2 (abs_nonneg _))
      rw [ea', sub_zero] at hA'
      rw [eb', sub_zero] at hP'
      rw [ea', hP', eb', F64.rnd_zero]
      simp [F64.rnd_zero]
    · exact sum_err hA p2 h1
  have hA1 := near_le hA (by norm_num) (cast_small ha)
  have hP1 := near_le p2 (by norm_num) p3
  have hSB : |(s.a : ℝ)| + |(s.b : ℝ) * Real.sqrt s.r| ≤ 2 ^ 193 := by
    have := cast_small ha
    norm_num at this p3 ⊢
    linarith
  obtain ⟨v, v1, v2⟩ := quot_fin hc hcB hSn hSB (abs_add_le _ _) (by norm_num) (by norm_num) hsum
  refine ⟨v, ?_, ?_⟩
  · unfold Surd.toF64
    rw [if_neg (by omega), ofInt_fin hrB, p1, ofInt_fin ha]
    have e : (F64.fin (F64.rnd s.a)).add (.fin (F64.rnd (F64.rnd s.b * F64.rnd (Real.sqrt (F64.rnd s.r))))) =
        .fin (F64.rnd (F64.rnd s.a + F64.rnd (F64.rnd s.b * F64.rnd (Real.sqrt (F64.rnd s.r))))) := by
      refine small_fin ?_
      refine (abs_add_le _ _).trans ?_
      norm_num at hA1 hP1 ⊢
      linarith
    rw [e, v1]
  · unfold Surd.val quadR
    rw [hbs] at v2
    refine v2.trans ?_
    have hcR : (0 : ℝ) < s.c := by exact_mod_cast hc
    have hS0 : 0 ≤ (|(s.a : ℝ)| + |(s.b : ℝ)| * Real.sqrt s.r) / s.c := by positivity
    rw [div_eq_mul_one_div _ ((2 : ℝ) ^ 50), mul_comm]
    exact mul_le_mul_of_nonneg_left (by norm_num) hS0

/-- (1+√2)/3, and the extreme `i128` surd -/
example : (Surd.mk 1 1 3 2).Small (2 ^ 128) ∧
    (Surd.mk (-2 ^ 127) (-2 ^ 127) (2 ^ 127 - 1) (2 ^ 127 - 1)).Small (2 ^ 128) := by
  unfold Surd.Small; decide

/-- **C81** partial: if the two terms of the numerator do not have opposite signs, `to_f64` has a relative error of at most
`2⁻⁵⁰`, and the right sign.
Missing from the full claim: surds with cancellation, for which even the sign is wrong (`surd_toF64_sign_refuted`), and fields
beyond `2¹²⁸` (`surd_toF64_nan_refuted`). -/
theorem surd_toF64_partial (s : Surd) (hs : s.Small (2 ^ 128)) (hc : 0 < s.c) (hr : 0 ≤ s.r) (hab : 0 ≤ s.a * s.b) :
    ∃ v, s.toF64 = some (.fin v) ∧ |v - s.val| ≤ |s.val| / 2 ^ 50 ∧ (0 < v ↔ 0 < s.val) ∧ (v < 0 ↔ s.val < 0) := by
  obtain ⟨v, h1, h2⟩ := surd_toF64_error s hs hc hr
  have hcR : (0 : ℝ) < s.c := by exact_mod_cast hc
  have hv : |s.val| = (|(s.a : ℝ)| + |(s.b : ℝ)| * Real.sqrt s.r) / s.c := by
    unfold Surd.val quadR
    rw [abs_div, abs_of_pos hcR]
    congr 1
    have hsq := Real.sqrt_nonneg (s.r : ℝ)
    rcases mul_nonneg_iff.1 hab with ⟨a0, b0⟩ | ⟨a0, b0⟩
    · have a0' : (0 : ℝ) ≤ s.a := by exact_mod_cast a0
      have b0' : (0 : ℝ) ≤ s.b := by exact_mod_cast b0
      rw [abs_of_nonneg a0', abs_of_nonneg b0', abs_of_nonneg (by positivity)]
    · have a0' : (s.a : ℝ) ≤ 0 := by exact_mod_cast a0
      have b0' : (s.b : ℝ) ≤ 0 := by exact_mod_cast b0
      rw [abs_of_nonpos a0', abs_of_nonpos b0', abs_of_nonpos (by nlinarith)]
      ring
  rw [← hv] at h2
  refine ⟨v, h1, h2, ?_, ?_⟩
  · obtain ⟨l, u⟩ := abs_le.1 h2
    constructor
    · intro h
      by_contra hn
      rw [abs_of_nonpos (not_lt.1 hn)] at u
      norm_num at u
      linarith [not_lt.1 hn]
    · intro h
      rw [abs_of_pos h] at l
      norm_num at l
      linarith
  · obtain ⟨l, u⟩ := abs_le.1 h2
    constructor
    · intro h
      by_contra hn
      rw [abs_of_nonneg (not_lt.1 hn)] at l
      norm_num at l
      linarith [not_lt.1 hn]
    · intro h
      rw [abs_of_neg h] at u
      norm_num at u
      linarith

example : (Surd.mk (-3) (-5) 7 11).Small (2 ^ 128) ∧ 0 ≤ (-3 : ℤ) * (-5) := by unfold Surd.Small; decide

/-- **C81** a rational surd whose numerator and denominator have at most 53 binary digits is converted to the nearest float:
the result is a float, and no float is nearer. -/
theorem surd_toF64_rational (a c : ℤ) (ha : |a| ≤ 2 ^ 53) (hc : 0 < c) (hcB : c ≤ 2 ^ 53) :
    ∃ v, (Surd.mk a 0 c 0).toF64 = some (.fin v) ∧ (∃ m e : ℤ, |m| < 2 ^ 53 ∧ -1074 ≤ e ∧ v = m * 2 ^ e) ∧
      ∀ m e : ℤ, |m| < 2 ^ 53 → -1074 ≤ e → |v - a / c| ≤ |(m : ℝ) * 2 ^ e - a / c| := by
  have hL : (2 : ℤ) ^ 53 ≤ 2 ^ 128 := by norm_num
  have h0 : F64.ofInt 0 = .fin 0 := by
    rw [ofInt_fin (by norm_num)]; simp [F64.rnd_zero]
  have hcR : (1 : ℝ) ≤ c := by exact_mod_cast hc
  have hcr : F64.rnd c = c := rnd_int (by rw [abs_of_pos hc]; exact hcB)
  have har : F64.rnd a = a := rnd_int ha
  have hf : ∀ x : ℝ, |x| ≤ 2 ^ 53 → F64.round x = .fin (F64.rnd x) := fun x hx =>
    small_fin (hx.trans (by norm_num))
  have haR : |(a : ℝ)| ≤ 2 ^ 53 := by
    rw [← Int.cast_abs]
    calc ((|a| : ℤ) : ℝ) ≤ ((2 ^ 53 : ℤ) : ℝ) := Int.cast_le.2 ha
      _ = 2 ^ 53 := by norm_num
  refine ⟨F64.rnd (a / c), ?_, rnd_isFloat _, fun m e hm he => rnd_nearest _ hm he⟩
  unfold Surd.toF64
  show (if (0 : ℤ) < 0 then _ else _) = _
  rw [if_neg (lt_irrefl _)]
  show some (((F64.ofInt a).add ((F64.ofInt 0).mul (F64.ofInt 0).sqrt)).div (F64.ofInt c)) = _
  have hs0 : (F64.fin 0).sqrt = .fin 0 := by
    show (if (0 : ℝ) < 0 then _ else F64.round (Real.sqrt 0)) = _
    rw [if_neg (lt_irrefl _), Real.sqrt_zero, hf 0 (by norm_num), F64.rnd_zero]
  have hm0 : (F64.fin 0).mul (.fin 0) = .fin 0 := by
    show F64.round (0 * 0) = _
    rw [mul_zero, hf 0 (by norm_num), F64.rnd_zero]
  have hadd : (F64.ofInt a).add (.fin 0) = .fin a := by
    rw [ofInt_fin (ha.trans hL), har]
    show F64.round (a + 0) = _
    rw [add_zero, hf _ haR, har]
  have hco : F64.ofInt c = .fin c := by
    rw [ofInt_fin (by rw [abs_of_pos hc]; exact hcB.trans hL), hcr]
  rw [h0, hs0, hm0, hadd, hco]
  show some (if (c : ℝ) = 0 then _ else F64.round (a / c)) = _
  rw [if_neg (by linarith), hf]
  rw [abs_div, abs_of_pos (by linarith : (0 : ℝ) < c)]
  exact (div_le_self (abs_nonneg _) hcR).trans haR

/-- integers of 53 digits are converted exactly -/
example : (Surd.mk 9007199254740992 0 1 0).toF64 = some (.fin 9007199254740992) := by
  obtain ⟨v, h1, -, h3⟩ := surd_toF64_rational 9007199254740992 1 (by norm_num) (by norm_num) (by norm_num)
  have := h3 (2 ^ 52) 1 (by norm_num) (by norm_num)
  norm_num at this
  rw [h1, sub_eq_zero.1 this]

/-- **C81** is false for surds with cancellation: `to_f64` of an `i64` surd that is negative, and whose `is_negative` is
`true`, is `1.0`. -/
theorem surd_toF64_sign_refuted (cfg : Cfg) : ∃ s : Surd, s.Ok cfg ∧ (⟨64, true⟩ : Fx).HoldsS s ∧ s.val < 0 ∧
    Surd.isNegative cfg s = .ok true ∧ s.toF64 = some (.fin 1) := by
  have hok : (Surd.mk (-9007199254735350) 6369051672521783 1 2).Ok cfg := by
    obtain ⟨c, d⟩ := cfg; cases c <;> cases d <;> decide +kernel
  have hval : (Surd.mk (-9007199254735350) 6369051672521783 1 2).val < 0 := by
    have h2 := Real.sq_sqrt (by norm_num : (0 : ℝ) ≤ 2)
    have h0 := Real.sqrt_nonneg (2 : ℝ)
    unfold Surd.val quadR
    push_cast
    rw [div_one]
    have : (6369051672521783 : ℝ) * Real.sqrt 2 < 9007199254735350 := by
      nlinarith
    linarith
  refine ⟨⟨-9007199254735350, 6369051672521783, 1, 2⟩, hok, by unfold Fx.HoldsS Fx.Holds; decide, hval, ?_, ?_⟩
  · obtain ⟨b, hb, hbv⟩ := surd_isNegative cfg _ ⟨hok.toNormal, by norm_num⟩
    rw [hb, hbv.mpr hval]
  · have hint : ∀ n : ℤ, |n| ≤ 2 ^ 53 → F64.ofInt n = .fin n := fun n hn => by
      rw [ofInt_fin (hn.trans (by norm_num)), rnd_int hn]
    have hfl : F64.rnd (Real.sqrt 2) = 6369051672525773 / 2 ^ 52 := by
      have h2 := Real.sq_sqrt (by norm_num : (0 : ℝ) ≤ 2)
      have h0 := Real.sqrt_nonneg (2 : ℝ)
      have l : 6369051672525772.55 / 2 ^ 52 < Real.sqrt 2 := by
        rw [Real.lt_sqrt (by norm_num)]; norm_num
      have u : Real.sqrt 2 < 6369051672525773.4 / 2 ^ 52 := by
        rw [Real.sqrt_lt' (by norm_num)]; norm_num
      have := rnd_eq (x := Real.sqrt 2) (m := 6369051672525773) (k := 0) (by norm_num)
        (by rw [abs_of_nonneg h0, zpow_zero]; refine le_trans ?_ l.le; norm_num) (by rw [abs_of_nonneg h0]; refine u.trans ?_; norm_num)
        (by rw [abs_lt]; norm_num at l u ⊢; constructor <;> linarith)
      rw [this]; norm_num
    have hsqrt : (F64.ofInt 2).sqrt = .fin (6369051672525773 / 2 ^ 52) := by
      rw [hint 2 (by norm_num)]
      show (if ((2 : ℤ) : ℝ) < 0 then _ else F64.round (Real.sqrt ((2 : ℤ) : ℝ))) = _
      push_cast
      rw [if_neg (by norm_num), small_fin, hfl]
      rw [abs_of_nonneg (Real.sqrt_nonneg _)]
      refine Real.sqrt_le_iff.2 ⟨by norm_num, by norm_num⟩
    have hmul : (F64.fin ((6369051672521783 : ℤ) : ℝ)).mul (.fin (6369051672525773 / 2 ^ 52)) = .fin 9007199254735351 := by
      show F64.round _ = _
      rw [small_fin (by rw [abs_of_nonneg (by norm_num)]; norm_num)]
      have := rnd_eq (x := ((6369051672521783 : ℤ) : ℝ) * (6369051672525773 / 2 ^ 52)) (m := 9007199254735351) (k := 52)
        (by norm_num) (by rw [abs_of_nonneg (by norm_num)]; norm_num) (by rw [abs_of_nonneg (by norm_num)]; norm_num)
        (by rw [abs_lt]; norm_num)
      rw [this]; norm_num
    unfold Surd.toF64
    show (if (2 : ℤ) < 0 then _ else some (((F64.ofInt (-9007199254735350)).add ((F64.ofInt 6369051672521783).mul
      (F64.ofInt 2).sqrt)).div (F64.ofInt 1))) = _
    rw [if_neg (by norm_num), hsqrt, hint 6369051672521783 (by norm_num), hmul, hint _ (by norm_num), hint 1 (by norm_num)]
    have e1 : F64.rnd 1 = 1 := by simpa using rnd_int (n := 1) (by norm_num)
    have r1 : F64.round 1 = .fin 1 := by rw [small_fin (by norm_num), e1]
    have hadd : (F64.fin ((-9007199254735350 : ℤ) : ℝ)).add (.fin 9007199254735351) = .fin 1 := by
      show F64.round _ = _
      rw [← r1]; norm_num
    rw [hadd]
    show some (if ((1 : ℤ) : ℝ) = 0 then _ else F64.round (1 / ((1 : ℤ) : ℝ))) = _
    rw [if_neg (by norm_num), Int.cast_one, div_one, r1]

/-- a number beyond `2¹⁰²⁵` becomes an infinity -/
private theorem round_inf {x : ℝ} (h : (2 : ℝ) ^ (1025 : ℤ) ≤ x) : F64.round x = .inf false := by
  have h0 := pow_pos' 1025
  have hx : 0 < x := h0.trans_le h
  unfold F64.round
  rw [if_neg, decide_eq_false (not_lt.2 hx.le)]
  have h1 := rnd_rel x
  have ht : tiny ≤ 2 ^ (1000 : ℤ) := tiny_le _ (by norm_num)
  have e1 : (2 : ℝ) ^ (1025 : ℤ) = 2 ^ (1000 : ℤ) * 2 ^ (25 : ℤ) := by rw [← zpow_add₀ (by norm_num)]; norm_num
  have e2 : (2 : ℝ) ^ (1024 : ℤ) = 2 ^ (1000 : ℤ) * 2 ^ (24 : ℤ) := by rw [← zpow_add₀ (by norm_num)]; norm_num
  have h5 := pow_pos' 1000
  rw [e1] at h
  rw [e2, not_lt]
  clear e1 e2 h0
  generalize (2 : ℝ) ^ (1000 : ℤ) = L at *
  norm_num at h ⊢
  rw [abs_of_pos hx] at h1
  have h6 := (abs_le.1 h1).1
  refine le_trans ?_ (le_abs_self _)
  norm_num at h6
  linarith

/-- **C81** is false for big integers beyond the range of the floats: `to_f64` of a number between 1 and 2 is NaN, not a number
near it (nor `None`). -/
theorem surd_toF64_nan_refuted (cfg : Cfg) : ∃ s : Surd, s.Ok cfg ∧ 1 < s.val ∧ s.val < 2 ∧ s.toF64 = some .nan := by
  have hbig : (2 : ℝ) ^ (1025 : ℤ) ≤ (((2 ^ 1100 : ℕ) : ℤ) : ℝ) := by
    push_cast
    rw [← zpow_natCast]
    exact zpow_le_zpow_right₀ (by norm_num) (by norm_num)
  have h1 : (1 : ℝ) < (((2 ^ 1100 : ℕ) : ℤ) : ℝ) := by
    refine lt_of_lt_of_le ?_ hbig
    exact one_lt_zpow₀ (by norm_num) (by norm_num)
  have hok : (Surd.mk (((2 ^ 1100 : ℕ) : ℤ) + 1) 0 ((2 ^ 1100 : ℕ) : ℤ) 0).Ok cfg := by
    obtain ⟨c, d⟩ := cfg; cases c <;> cases d <;> decide +kernel
  generalize ((2 ^ 1100 : ℕ) : ℤ) = N at *
  refine ⟨⟨N + 1, 0, N, 0⟩, hok, ?_, ?_, ?_⟩
  · clear hbig
    unfold Surd.val quadR
    push_cast
    rw [lt_div_iff₀ (by linarith)]
    linarith
  · clear hbig
    unfold Surd.val quadR
    push_cast
    rw [div_lt_iff₀ (by linarith)]
    linarith
  · have e1 : F64.ofInt N = .inf false := round_inf hbig
    have e2 : F64.ofInt (N + 1) = .inf false := round_inf (by push_cast; linarith)
    have h0 : F64.ofInt 0 = .fin 0 := by
      rw [ofInt_fin (by norm_num)]; simp [F64.rnd_zero]
    have r0 : F64.round 0 = .fin 0 := by rw [small_fin (by norm_num), F64.rnd_zero]
    unfold Surd.toF64
    show (if (0 : ℤ) < 0 then _ else some (((F64.ofInt (N + 1)).add ((F64.ofInt 0).mul (F64.ofInt 0).sqrt)).div
      (F64.ofInt N))) = _
    have hs0 : (F64.fin 0).sqrt = .fin 0 := by
      show (if (0 : ℝ) < 0 then _ else F64.round (Real.sqrt 0)) = _
      rw [if_neg (lt_irrefl _), Real.sqrt_zero, r0]
    have hm0 : (F64.fin 0).mul (.fin 0) = .fin 0 := by
      show F64.round (0 * 0) = _
      rw [mul_zero, r0]
    rw [if_neg (lt_irrefl _), e1, e2, h0, hs0, hm0]
    rfl

/-- **C81** `to_complex64` of a surd with a negative root: both parts have a relative error of at most `2⁻⁵⁰`. -/
theorem surd_toComplex64_error (s : Surd) (hs : s.Small (2 ^ 128)) (hc : 0 < s.c) (hr : s.r < 0) :
    ∃ x y, s.toComplex64 = some (.fin x, .fin y) ∧
      |x - s.a / s.c| ≤ |(s.a : ℝ) / s.c| / 2 ^ 50 ∧
      |y - s.b * Real.sqrt (-s.r) / s.c| ≤ |(s.b : ℝ) * Real.sqrt (-s.r) / s.c| / 2 ^ 50 := by
  obtain ⟨ha, hb, hcB, hrB⟩ := hs
  have hcR : (0 : ℝ) < s.c := by exact_mod_cast hc
  have hnr : (0 : ℤ) ≤ -s.r := by omega
  have hR : Near (1 / 2 ^ 53) |F64.rnd s.r| ((-s.r : ℤ) : ℝ) := by
    have := (near_rnd (notSmall_int s.r)).abs
    rw [abs_of_neg (by exact_mod_cast hr : (s.r : ℝ) < 0)] at this
    push_cast
    exact this
  obtain ⟨p1, p2, p3⟩ := prod_fin hb (by rw [abs_neg]; exact hrB) hnr (abs_nonneg _) hR
  have hA := near_rnd (notSmall_int s.a)
  have hmono : ∀ k z : ℝ, k ≤ 8 → k / 2 ^ 53 * (|z| / s.c) ≤ |z / s.c| / 2 ^ 50 := by
    intro k z hk
    rw [abs_div, abs_of_pos hcR, div_eq_mul_one_div _ ((2 : ℝ) ^ 50), mul_comm]
    refine mul_le_mul_of_nonneg_left ?_ (by positivity)
    rw [div_le_div_iff₀ (by norm_num) (by norm_num)]
    norm_num
    linarith
  have hns : ∀ z : ℝ, NotSmall z → |z| = 0 ∨ 1 ≤ |z| := by
    intro z hz
    rcases hz with rfl | hz
    · left; simp
    · right; exact hz
  obtain ⟨x, x1, x2⟩ := quot_fin (T := F64.rnd s.a) (s := s.a) (k := 1) hc hcB (hns _ (notSmall_int s.a))
    ((cast_small ha).trans (by norm_num)) le_rfl (by norm_num) (by norm_num) hA
  obtain ⟨y, y1, y2⟩ := quot_fin (k := 65 / 16) hc hcB (hns _ ((notSmall_int s.b).mul (notSmall_sqrt (-s.r))))
    (p3.trans (by norm_num)) le_rfl (by norm_num) (by norm_num) p2
  refine ⟨x, y, ?_, x2.trans (hmono _ _ (by norm_num)), ?_⟩
  · unfold Surd.toComplex64
    rw [if_pos hr, ofInt_fin ha, x1, ofInt_fin hrB]
    show some (_, (F64.mul _ (F64.fin |F64.rnd s.r|).sqrt).div _) = _
    rw [p1, y1]
  · push_cast at y2
    exact y2.trans (hmono _ _ (by norm_num))

example : (Surd.mk 1 (-2) 3 (-5)).Small (2 ^ 128) := by unfold Surd.Small; decide

/-- **C81** `to_complex64` of a surd without a negative root is `to_f64` with the imaginary part 0. -/
theorem surd_toComplex64_real (s : Surd) (hr : 0 ≤ s.r) : s.toComplex64 = s.toF64.map fun re => (re, .fin 0) := by
  unfold Surd.toComplex64
  rw [if_neg (by omega)]

/-- numbers between 2 and 4 are rounded to multiples of `2⁻⁵¹` -/
private theorem round_24 {x : ℝ} {m : ℤ} (h1 : 2 ≤ x) (h2 : x < 4) (l : ((m : ℝ) - 1 / 2) / 2 ^ 51 < x)
    (u : x < ((m : ℝ) + 1 / 2) / 2 ^ 51) : F64.round x = .fin (m / 2 ^ 51) := by
  have h0 : 0 ≤ x := by linarith
  rw [small_fin (by rw [abs_of_nonneg h0]; refine h2.le.trans ?_; norm_num)]
  have e : ((2 : ℝ) ^ ((1 : ℤ) - 52)) = 1 / 2 ^ 51 := by norm_num
  rw [rnd_eq (x := x) (m := m) (k := 1) (by norm_num) (by rw [abs_of_nonneg h0]; norm_num; exact h1)
    (by rw [abs_of_nonneg h0]; norm_num; exact h2) ?_, e, mul_one_div]
  rw [e, abs_lt]
  rw [div_lt_iff₀ (by norm_num)] at l
  rw [lt_div_iff₀ (by norm_num)] at u
  rw [div_div_eq_mul_div, div_one]
  constructor <;> linarith

/-- **C82** `E::value()` is the float nearest to the number e (and which float that is). -/
theorem e_float : eValue = F64.round (Real.exp 1) ∧ eValue = .fin (6121026514868073 / 2 ^ 51) := by
  have h := abs_le.1 Real.exp_one_near_20
  have h1 := h.1
  have h2 := h.2
  have e1 : eValue = .fin ((6121026514868073 : ℤ) / 2 ^ 51) := by
    refine round_24 ?_ ?_ ?_ ?_ <;> norm_num
  have e2 : F64.round (Real.exp 1) = .fin ((6121026514868073 : ℤ) / 2 ^ 51) := by
    refine round_24 ?_ ?_ ?_ ?_ <;> norm_num at h1 h2 ⊢ <;> linarith
  refine ⟨e1.trans e2.symm, ?_⟩
  rw [e1]; norm_num

/-- **C82** `Pi::value()` is the float nearest to π. -/
theorem pi_float : piValue = F64.round Real.pi ∧ piValue = .fin (7074237752028440 / 2 ^ 51) := by
  have h1 := Real.pi_gt_d20
  have h2 := Real.pi_lt_d20
  have e1 : piValue = .fin ((7074237752028440 : ℤ) / 2 ^ 51) := by
    refine round_24 ?_ ?_ ?_ ?_ <;> norm_num
  have e2 : F64.round Real.pi = .fin ((7074237752028440 : ℤ) / 2 ^ 51) := by
    refine round_24 ?_ ?_ ?_ ?_ <;> norm_num at h1 h2 ⊢ <;> linarith
  refine ⟨e1.trans e2.symm, ?_⟩
  rw [e1]; norm_num

/-- **C82** what rounding means in the two theorems above: no float is nearer. -/
theorem float_nearest (m e : ℤ) (hm : |m| < 2 ^ 53) (he : -1074 ≤ e) :
    |(6121026514868073 / 2 ^ 51 : ℝ) - Real.exp 1| ≤ |(m : ℝ) * 2 ^ e - Real.exp 1| ∧
    |(7074237752028440 / 2 ^ 51 : ℝ) - Real.pi| ≤ |(m : ℝ) * 2 ^ e - Real.pi| := by
  have key : ∀ x v : ℝ, |x| ≤ 4 → F64.round x = .fin v → v = F64.rnd x := by
    intro x v hx h
    rw [small_fin (hx.trans (by norm_num))] at h
    injection h with h
    exact h.symm
  have h1 := (e_float.1.symm.trans e_float.2)
  have h2 := (pi_float.1.symm.trans pi_float.2)
  rw [key _ _ (by rw [abs_of_pos (Real.exp_pos _)]; linarith [Real.exp_one_lt_d9]) h1,
    key _ _ (by rw [abs_of_pos Real.pi_pos]; exact Real.pi_le_four) h2]
  exact ⟨rnd_nearest _ hm he, rnd_nearest _ hm he⟩

/-- the nearest float is not e itself: 3·2⁰ and 5·2⁻¹ are floats as well -/
example : |(3 : ℤ)| < 2 ^ 53 ∧ (-1074 : ℤ) ≤ 0 ∧ |(5 : ℤ)| < 2 ^ 53 ∧ (-1074 : ℤ) ≤ -1 := by norm_num

/-- **C82** `from_f64` returns exactly the fraction that `Ratio::from_f64` finds, and `None` if there is none or it does not
fit. -/
theorem surd_fromF64 (cfg : Cfg) (fits : ℤ → Bool) (frac : Option ℚ) :
    (∀ s, Surd.fromF64 fits frac = some s → s.Ok cfg ∧ ∃ q : ℚ, frac = some q ∧ s.valC = q) ∧
    (Surd.fromF64 fits frac = none ↔ ∀ q : ℚ, frac = some q → fits q.num = false ∨ fits q.den = false) := by
  cases frac with
  | none => simp [Surd.fromF64]
  | some q =>
    unfold Surd.fromF64
    by_cases h : (fits q.num && fits q.den) = true
    · simp only [h, if_true]
      refine ⟨fun s e => ?_, by simp at h; simp [h]⟩
      injection e with e
      subst e
      exact ⟨surd_ofRat_normal cfg q, q, rfl, surd_ofRat_value q⟩
    · simp only [h]
      refine ⟨by simp, by simp at h ⊢; grind⟩

example : Surd.fromF64 (fun n => decide (|n| ≤ 127)) (some (5 / 4)) = some ⟨5, 0, 4, 0⟩ ∧
    Surd.fromF64 (fun n => decide (|n| ≤ 127)) (some (1 / 256)) = none := by decide +kernel

end NumIrr
