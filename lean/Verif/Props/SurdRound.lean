/-
C11-C15, C57: sign tests, rounding and primitive conversions of real surds.
-/
import Verif.Lemmas.Trunc
import Verif.Lemmas.SurdEq
import Verif.Lemmas.SurdDecide
import Verif.Model.SurdSqrt
import Verif.Props.SurdArith
import Verif.Props.SurdNew
import Verif.Props.SurdEq

namespace NumIrr
open Surd

/-! ### C11 sign tests -/

private theorem num_sign (s : Surd) (h : s.RealOk) :
    (0 < s.val ↔ 0 < (s.a:ℝ) + s.b * Real.sqrt s.r) ∧
    (s.val < 0 ↔ (s.a:ℝ) + s.b * Real.sqrt s.r < 0) := by
  constructor
  · rw [← not_le, val_nonpos_iff h, not_le]
  · rw [← not_le, val_nonneg_iff h, not_le]

private theorem sq_cmp {a b r : ℤ} (hr : 0 ≤ r) :
    ((a:ℝ) * a < ((b:ℝ) * Real.sqrt r) * (b * Real.sqrt r) ↔ a * a < b * b * r) ∧
    (((b:ℝ) * Real.sqrt r) * (b * Real.sqrt r) < (a:ℝ) * a ↔ b * b * r < a * a) := by
  have hr' : (0:ℝ) ≤ r := by exact_mod_cast hr
  have e : ((b:ℝ) * Real.sqrt r) * (b * Real.sqrt r) = ((b * b * r : ℤ) : ℝ) := by
    push_cast
    have := Real.mul_self_sqrt hr'
    linear_combination (b:ℝ)^2 * this
  rw [e]
  constructor
  · constructor <;> intro h <;> exact_mod_cast h
  · constructor <;> intro h <;> exact_mod_cast h

/-- **C11** `is_positive` decides `0 < x`. -/
theorem surd_isPositive (cfg : Cfg) (s : Surd) (h : s.RealOk) :
    ∃ b, Surd.isPositive cfg s = .ok b ∧ (b = true ↔ 0 < s.val) := by
  unfold Surd.isPositive
  rw [panicIfComplex_ok h.real, ok_bind]
  refine ⟨_, rfl, ?_⟩
  rw [(num_sign s h).1]
  have hs := Real.sqrt_nonneg (s.r : ℝ)
  obtain ⟨c1, c2⟩ := sq_cmp (a := s.a) (b := s.b) h.real
  split
  · next hb => simp [hb]
  next hb =>
  have hr : s.r ≠ 0 := fun e => hb (h.rational.mpr e)
  have hsp : 0 < Real.sqrt (s.r : ℝ) := Real.sqrt_pos.mpr (by
    have := h.real; exact_mod_cast lt_of_le_of_ne this (Ne.symm hr))
  split
  · next hb2 =>
    have hb' : (0:ℝ) < s.b := by exact_mod_cast hb2
    have hp : 0 < (s.b:ℝ) * Real.sqrt s.r := mul_pos hb' hsp
    split
    · next ha =>
      have : (0:ℝ) < s.a := by exact_mod_cast ha
      simp only [true_iff]; linarith
    · next ha =>
      push Not at ha
      have ha' : (s.a:ℝ) ≤ 0 := by exact_mod_cast ha
      rw [decide_eq_true_eq, ← c1]
      constructor
      · intro hlt; nlinarith
      · intro hlt; nlinarith
  · next hb2 =>
    have hb3 : s.b < 0 := by omega
    have hb' : (s.b:ℝ) < 0 := by exact_mod_cast hb3
    have hp : (s.b:ℝ) * Real.sqrt s.r < 0 := mul_neg_of_neg_of_pos hb' hsp
    split
    · next ha =>
      push Not at ha
      have ha' : (s.a:ℝ) ≤ 0 := by exact_mod_cast ha
      simp only [Bool.false_eq_true, false_iff, not_lt]; linarith
    · next ha =>
      push Not at ha
      have ha' : (0:ℝ) < s.a := by exact_mod_cast ha
      rw [decide_eq_true_eq, gt_iff_lt, ← c2]
      constructor
      · intro hlt; nlinarith
      · intro hlt; nlinarith
example : (Surd.mk 17 (-12) 1 2).RealOk ∧
    Surd.isPositive ⟨false, true⟩ ⟨17, -12, 1, 2⟩ = .ok true := by decide +kernel

/-- **C11** `is_negative` decides `x < 0`. -/
theorem surd_isNegative (cfg : Cfg) (s : Surd) (h : s.RealOk) :
    ∃ b, Surd.isNegative cfg s = .ok b ∧ (b = true ↔ s.val < 0) := by
  unfold Surd.isNegative
  rw [panicIfComplex_ok h.real, ok_bind]
  refine ⟨_, rfl, ?_⟩
  rw [(num_sign s h).2]
  obtain ⟨c1, c2⟩ := sq_cmp (a := s.a) (b := s.b) h.real
  split
  · next hb => simp [hb]
  next hb =>
  have hr : s.r ≠ 0 := fun e => hb (h.rational.mpr e)
  have hsp : 0 < Real.sqrt (s.r : ℝ) := Real.sqrt_pos.mpr (by
    have := h.real; exact_mod_cast lt_of_le_of_ne this (Ne.symm hr))
  split
  · next hb2 =>
    have hb' : (s.b:ℝ) < 0 := by exact_mod_cast hb2
    have hp : (s.b:ℝ) * Real.sqrt s.r < 0 := mul_neg_of_neg_of_pos hb' hsp
    split
    · next ha =>
      have : (s.a:ℝ) < 0 := by exact_mod_cast ha
      simp only [true_iff]; linarith
    · next ha =>
      push Not at ha
      have ha' : (0:ℝ) ≤ s.a := by exact_mod_cast ha
      rw [decide_eq_true_eq, ← c1]
      constructor
      · intro hlt; nlinarith
      · intro hlt; nlinarith
  · next hb2 =>
    have hb3 : 0 < s.b := by omega
    have hb' : (0:ℝ) < s.b := by exact_mod_cast hb3
    have hp : 0 < (s.b:ℝ) * Real.sqrt s.r := mul_pos hb' hsp
    split
    · next ha =>
      push Not at ha
      have ha' : (0:ℝ) ≤ s.a := by exact_mod_cast ha
      simp only [Bool.false_eq_true, false_iff, not_lt]; linarith
    · next ha =>
      push Not at ha
      have ha' : (s.a:ℝ) < 0 := by exact_mod_cast ha
      rw [decide_eq_true_eq, gt_iff_lt, ← c2]
      constructor
      · intro hlt; nlinarith
      · intro hlt; nlinarith
example : (Surd.mk 7 (-5) 1 2).RealOk ∧
    Surd.isNegative ⟨false, true⟩ ⟨7, -5, 1, 2⟩ = .ok true := by decide +kernel

/-- **C11** `is_zero` and `is_one` (real or complex surds). -/
theorem surd_isZero (cfg : Cfg) (s : Surd) (h : s.Ok cfg) : Surd.isZero s = true ↔ s.valC = 0 := by
  rw [valC_eq_zero_iff h.toNormal]; simp [Surd.isZero]
example : (Surd.mk 0 1 1 (-2)).Ok ⟨true, true⟩ ∧ Surd.isZero ⟨0, 1, 1, -2⟩ = false ∧
    Surd.new ⟨false, true⟩ 3 (-1) 5 9 = .ok ⟨0, 0, 1, 0⟩ ∧ Surd.isZero ⟨0, 0, 1, 0⟩ = true := by decide +kernel

theorem surd_isOne (cfg : Cfg) (s : Surd) (h : s.Ok cfg) : Surd.isOne s = true ↔ s.valC = 1 := by
  have h1 : Surd.one.Normal := by decide +kernel
  have hv : Surd.one.valC = 1 := by simp [Surd.valC, quadC, Surd.one]
  constructor
  · intro he
    simp only [Surd.isOne, Bool.and_eq_true, decide_eq_true_eq] at he
    obtain ⟨⟨ha, hb⟩, hc⟩ := he
    unfold Surd.valC quadC; simp [ha, hb, hc]
  · intro e
    rw [← hv] at e
    have hr : s.r = Surd.one.r := by
      by_contra hne
      exact valC_ne_of_rational h1 h.toNormal rfl (fun e => hne (e.trans rfl)) e.symm
    obtain ⟨h2, h3, h4⟩ := fields_of_valC_eq h.toNormal h1 hr e
    simp [Surd.isOne, h2, h3, h4, Surd.one]

/-- (17-12√2) is about 0.029: positive, not negative -/
example : (Surd.mk 17 (-12) 1 2).RealOk ∧
    Surd.isPositive ⟨false, true⟩ ⟨17, -12, 1, 2⟩ = .ok true ∧
    Surd.isNegative ⟨false, true⟩ ⟨17, -12, 1, 2⟩ = .ok false := by decide +kernel

/-! ### C12 floor -/

/-- **C12** `floor` returns the greatest integer not above the number. -/
theorem surd_floor (cfg : Cfg) (s : Surd) (h : s.RealOk) :
    Surd.floor cfg s = .ok (Surd.ofInt ⌊s.val⌋) := floor_spec h

example : (Surd.mk (-7) (-3) 2 5).RealOk ∧
    Surd.floor ⟨false, true⟩ ⟨-7, -3, 2, 5⟩ = .ok ⟨-7, 0, 1, 0⟩ := by decide +kernel

/-! ### C13 trunc and to_integer -/

/-- **C13** is false: `trunc(5-√2)` is `4`, but `5-√2 = 3.58…` truncates to `3`. -/
theorem surd_trunc_refuted : ∃ (cfg : Cfg) (s t : Surd), s.RealOk ∧
    Surd.trunc cfg s = .ok t ∧ t ≠ Surd.ofInt (truncZ s.val) := by
  have h : (Surd.mk 5 (-1) 1 2).RealOk := by decide +kernel
  refine ⟨⟨false, true⟩, ⟨5, -1, 1, 2⟩, ⟨4, 0, 1, 0⟩, h, by decide +kernel, ?_⟩
  have h2 : (1.4:ℝ) < Real.sqrt 2 := Real.lt_sqrt_of_sq_lt (by norm_num)
  have h3 : Real.sqrt 2 < 1.5 := by
    rw [Real.sqrt_lt' (by norm_num)]; norm_num
  have hv : Surd.val ⟨5, -1, 1, 2⟩ = 5 - Real.sqrt 2 := by
    simp [Surd.val, quadR]; ring
  have : truncZ (Surd.val ⟨5, -1, 1, 2⟩) = 3 := by
    rw [hv, truncZ_of_nonneg (by linarith), Int.floor_eq_iff]
    push_cast; constructor <;> linarith
  rw [this]
  decide

/-- **C13** partial: `trunc` rounds toward zero exactly when the irrational part does not have the
opposite sign of the number, or the (rounded) numerator is not a multiple of the denominator.
Missing from the full claim: the remaining case, in which the result is off by one. -/
theorem surd_trunc_partial (cfg : Cfg) (s : Surd) (h : s.RealOk) :
    ∃ t : ℤ, Surd.trunc cfg s = .ok (Surd.ofInt t) ∧
      ((0 ≤ s.b ∧ 0 ≤ s.val) ∨ (s.b ≤ 0 ∧ s.val ≤ 0) → t = truncZ s.val) ∧
      (t = truncZ s.val ↔ ((0 ≤ s.b ∧ 0 ≤ s.val) ∨ (s.b ≤ 0 ∧ s.val ≤ 0) ∨
        ¬ s.c ∣ s.a + s.b.sign * ⌊Real.sqrt (s.b * s.b * s.r)⌋)) ∧
      |s.val - t| < 1 := by
  have hfl : ⌊Real.sqrt (s.b * s.b * s.r)⌋ = isqrt (s.b * s.b * s.r) := by
    rw [← floor_sqrt _ h.bbr_nonneg]; push_cast; rfl
  refine ⟨_, trunc_real h, trunc_agree h, ?_, trunc_bound h⟩
  rw [hfl]
  change _ ↔ (_ ∨ _ ∨ ¬ s.c ∣ s.truncNum)
  by_cases h1 : (0 ≤ s.b ∧ 0 ≤ s.val) ∨ (s.b ≤ 0 ∧ s.val ≤ 0)
  · have := trunc_agree h h1; tauto
  · have h2 : (s.b < 0 ∧ 0 < s.val) ∨ (0 < s.b ∧ s.val < 0) := by
      push Not at h1
      obtain ⟨ha, hb⟩ := h1
      rcases lt_trichotomy s.b 0 with hlt | heq | hgt
      · exact .inl ⟨hlt, hb hlt.le⟩
      · have h3 := ha heq.ge; have h4 := hb heq.le; exfalso; linarith
      · exact .inr ⟨hgt, ha hgt.le⟩
    have := trunc_disagree h h2
    tauto
example : (Surd.mk (-7) (-3) 2 5).RealOk ∧ Surd.trunc ⟨false, true⟩ ⟨-7, -3, 2, 5⟩ = .ok ⟨-6, 0, 1, 0⟩ ∧
    (Surd.mk (-1) 1 1 5).RealOk ∧ Surd.trunc ⟨false, true⟩ ⟨-1, 1, 1, 5⟩ = .ok ⟨1, 0, 1, 0⟩ := by decide +kernel

/-- **C13** (complex surds, `complex` feature): both coordinates are rounded toward zero. -/
theorem surd_trunc_complex (cfg : Cfg) (s : Surd) (h : s.Ok cfg) (hc : cfg.complex = true)
    (hr : s.r < 0) :
    ∃ t, Surd.trunc cfg s = .ok t ∧ t.Ok cfg ∧
      t.valC = (truncZ s.valC.re : ℂ) + (truncZ s.valC.im : ℂ) * Complex.I := by
  have hc0 := h.c_pos
  have hre : s.valC.re = (s.a : ℝ) / s.c ∧ s.valC.im = s.b * Real.sqrt ((-s.r : ℤ) : ℝ) / s.c := by
    unfold Surd.valC quadC rootC
    rw [if_neg (not_le.mpr hr)]
    have hcast : ((s.c : ℤ) : ℂ) = ((s.c : ℝ) : ℂ) := by push_cast; rfl
    rw [hcast, Complex.div_ofReal_re, Complex.div_ofReal_im]
    simp
  unfold Surd.trunc
  rw [if_pos hr, sqrtR_ok (mul_nonneg (mul_self_nonneg _) (by omega)), ok_bind]
  simp only
  rw [divR_ok hc0.ne', ok_bind, divR_ok hc0.ne', ok_bind]
  obtain ⟨t, e, h3, h4⟩ := fromCoeffs_spec (cfg := cfg)
    (x := ⟨s.a.tdiv s.c, (s.b.sign * isqrt (s.b * s.b * -s.r)).tdiv s.c, 1⟩) (r := -1)
    (by norm_num) (by simp [hc])
  refine ⟨t, e, h4, ?_⟩
  rw [h3, hre.1, hre.2, truncZ_div_int _ hc0, truncZ_sqrt s.b (-s.r) (by omega) hc0]
  simp [quadC, rootC]

/-- **C13** `to_integer` returns what `trunc` returns, and is `Exact` exactly for integers. -/
theorem surd_toInteger (cfg : Cfg) (s : Surd) (h : s.RealOk) :
    ∃ v, Surd.toInteger cfg s = .ok v ∧ Surd.trunc cfg s = .ok (Surd.ofInt v.value) ∧
      ((∃ k : ℤ, s.val = k) ↔ ∃ k, v = .exact k) := by
  have htr := trunc_real (cfg := cfg) h
  unfold Surd.toInteger
  rw [panicIfComplex_ok h.real, ok_bind]
  have hint : s.isInteger = true ↔ ∃ k : ℤ, s.val = k := by
    constructor
    · intro hi
      simp only [Surd.isInteger, Bool.and_eq_true, decide_eq_true_eq] at hi
      have hb := h.rational.mpr (h.isRational_iff.mp hi.2)
      exact ⟨s.a, by rw [val_eq, hi.1, hb]; simp⟩
    · rintro ⟨k, hk⟩
      have hb : s.b = 0 := by
        by_contra hb
        apply not_int_num h hb (k * s.c)
        rw [val_eq, div_eq_iff h.c_pos'.ne'] at hk
        push_cast; exact hk
      have hr := h.rational.mp hb
      rw [val_eq, hb, div_eq_iff h.c_pos'.ne'] at hk
      simp only [Int.cast_zero, zero_mul, add_zero] at hk
      have hk' : s.a = k * s.c := by exact_mod_cast hk
      have hu := h.coprime s.c (hk' ▸ Dvd.intro_left _ rfl) (hb ▸ dvd_zero _) dvd_rfl
      have hc1 : s.c = 1 := by
        rcases Int.isUnit_iff.mp hu with e | e
        · exact e
        · have := h.c_pos; omega
      simp only [Surd.isInteger, Bool.and_eq_true, decide_eq_true_eq]
      exact ⟨hc1, h.isRational_iff.mpr hr⟩
  by_cases hi : s.isInteger = true
  · rw [if_pos hi]
    refine ⟨_, rfl, ?_, ?_⟩
    · simp only [Surd.isInteger, Bool.and_eq_true, decide_eq_true_eq] at hi
      have hb := h.rational.mpr (h.isRational_iff.mp hi.2)
      rw [htr]; simp [truncNum, hb, hi.1, Approx.value]
    · rw [← hint]; simp [hi]
  · rw [if_neg hi, htr]
    refine ⟨_, rfl, rfl, ?_⟩
    rw [← hint]; simp [hi]

example : (Surd.mk 7 3 2 5).RealOk ∧ Surd.trunc ⟨false, true⟩ ⟨7, 3, 2, 5⟩ = .ok ⟨6, 0, 1, 0⟩ ∧
    Surd.toInteger ⟨false, true⟩ ⟨7, 3, 2, 5⟩ = .ok (.approximated 6) ∧
    Surd.trunc ⟨true, true⟩ ⟨7, -9, 2, -3⟩ = .ok ⟨3, -7, 1, -1⟩ := by decide +kernel

/-! ### C14 fract -/

/-- **C14** for a real surd both `trunc` and `fract` return, and they add up to the number: adding
them with the library's own `+` returns a surd that is `==` to the original. -/
theorem surd_trunc_add_fract (cfg : Cfg) (s : Surd) (h : s.RealOk) :
    ∃ t f z, Surd.trunc cfg s = .ok t ∧ Surd.fract cfg s = .ok f ∧ Surd.add cfg t f = .ok z ∧
      t.val + f.val = s.val ∧ z.val = s.val ∧ Surd.eq z s = true ∧ |f.val| < 1 := by
  have htr := trunc_real (cfg := cfg) h
  obtain ⟨k, hk⟩ : ∃ k : ℤ, k = s.truncNum.tdiv s.c := ⟨_, rfl⟩
  have hOk : (Surd.ofInt k).Ok cfg := surd_ofInt_normal cfg k
  have hRk : (Surd.ofInt k).RealOk := ⟨hOk.toNormal, by simp [Surd.ofInt]⟩
  have hkv : (Surd.ofInt k).val = k := by simp [Surd.ofInt, Surd.val, quadR]
  obtain ⟨f, hf, _, hfo⟩ := (sub_spec (h.toOk cfg) hOk).1 (.inr (.inl rfl))
  obtain ⟨hfR, hfv⟩ := surd_sub_value_real cfg _ _ f h hRk hf
  obtain ⟨z, hz, _, _⟩ := (add_spec hOk hfo).1 (.inl rfl)
  obtain ⟨hzR, hzv⟩ := surd_add_value_real cfg _ _ z hRk hfR hz
  rw [← hk] at htr
  have e1 : (Surd.ofInt k).val + f.val = s.val := by rw [hfv]; ring
  have e2 : z.val = s.val := by rw [hzv, e1]
  refine ⟨_, f, z, htr, ?_, hz, e1, e2, ?_, ?_⟩
  · unfold Surd.fract; rw [htr, ok_bind, hf]
  · refine surd_eq_complete cfg z s (hzR.toOk cfg) (h.toOk cfg) ?_
    rw [hzR.valC, h.valC, e2]
  · rw [hfv, hkv, hk]; exact trunc_bound h

example : (Surd.mk 7 3 2 5).RealOk ∧
    Surd.fract ⟨false, true⟩ ⟨7, 3, 2, 5⟩ = .ok ⟨-5, 3, 2, 5⟩ := by decide +kernel

/-! ### C15 to_rational -/

/-- **C15** is false: `to_rational(-√2)` is `1/1`, more than 2 away (and of the wrong sign). -/
theorem surd_toRational_refuted : ∃ (cfg : Cfg) (s : Surd) (n d : ℤ), s.RealOk ∧
    Surd.toRational cfg s = .ok (.approximated (n, d)) ∧ 1 / (s.c : ℝ) < |s.val - n / d| := by
  refine ⟨⟨false, true⟩, ⟨0, -1, 1, 2⟩, 1, 1, by decide +kernel, by decide +kernel, ?_⟩
  have h2 : 0 < Real.sqrt 2 := Real.sqrt_pos.mpr (by norm_num)
  have hv : Surd.val ⟨0, -1, 1, 2⟩ = - Real.sqrt 2 := by simp [Surd.val, quadR]
  rw [hv, abs_of_neg (by simp; linarith)]
  simp

/-- **C15** partial: a rational surd gives its exact value (in lowest terms); an irrational one gives
an approximation from below of the number with the *absolute value* of the square root coefficient,
within `1/c`.  So for `b > 0` the claim holds.  Missing from the full claim: `b < 0`, where the
conjugate is approximated instead. -/
theorem surd_toRational_partial (cfg : Cfg) (s : Surd) (h : s.RealOk) :
    ∃ v : Approx (ℤ × ℤ), Surd.toRational cfg s = .ok v ∧ 0 < v.value.2 ∧
      (s.r = 0 → (∃ p, v = .exact p) ∧ s.val = v.value.1 / v.value.2 ∧
        IsCoprime v.value.1 v.value.2) ∧
      (s.r ≠ 0 → (∃ p, v = .approximated p) ∧ v.value.2 = s.c ∧
        (0 < s.b → (v.value.1 / v.value.2 : ℝ) ≤ s.val ∧ s.val < v.value.1 / v.value.2 + 1 / s.c) ∧
        (s.b < 0 → (v.value.1 / v.value.2 : ℝ) ≤ s.conj.val ∧
          s.conj.val < v.value.1 / v.value.2 + 1 / s.c)) := by
  unfold Surd.toRational
  rw [panicIfComplex_ok h.real, ok_bind]
  have hc := h.c_pos'
  by_cases hr : s.r = 0
  · rw [if_pos hr]
    refine ⟨_, rfl, h.c_pos, fun _ => ⟨⟨_, rfl⟩, ?_, ?_⟩, fun h' => absurd hr h'⟩
    · rw [val_eq, h.rational.mpr hr]; simp [Approx.value]
    · rw [Approx.value, Int.isCoprime_iff_gcd_eq_one]
      have := h.coprime (Int.gcd s.a s.c) (Int.gcd_dvd_left ..)
        ((h.rational.mpr hr) ▸ dvd_zero _) (Int.gcd_dvd_right ..)
      rw [Int.isUnit_iff] at this
      simp only
      omega
  · rw [if_neg hr, sqrtR_ok h.bbr_nonneg, ok_bind]
    refine ⟨_, rfl, h.c_pos, fun h' => absurd h' hr, fun _ => ⟨⟨_, rfl⟩, rfl, ?_, ?_⟩⟩
    all_goals
      intro hb
      have h1 := isqrt_le_sqrt _ h.bbr_nonneg
      have h2 := sqrt_lt_isqrt (s.b * s.b * s.r)
      rw [sqrt_sq_mul] at h1 h2
      simp only [Approx.value]
    · have hb' : (0:ℝ) < s.b := by exact_mod_cast hb
      rw [abs_of_pos hb'] at h1 h2
      rw [val_eq, ← add_div]
      push_cast
      constructor
      · gcongr
      · rw [div_lt_div_iff_of_pos_right hc]; linarith
    · have hb' : (s.b:ℝ) < 0 := by exact_mod_cast hb
      rw [abs_of_neg hb'] at h1 h2
      rw [val_eq, ← add_div]
      simp only [Surd.conj, Surd.coeffs, Coeffs.conj]
      push_cast
      constructor
      · gcongr
      · rw [div_lt_div_iff_of_pos_right hc]; linarith

example : (Surd.mk 7 3 2 5).RealOk ∧
    Surd.toRational ⟨false, true⟩ ⟨7, 3, 2, 5⟩ = .ok (.approximated (13, 2)) ∧
    Surd.toRational ⟨false, true⟩ ⟨7, 0, 2, 0⟩ = .ok (.exact (7, 2)) := by decide +kernel

/-! ### C57 primitive conversions -/

/-- **C57** `to_i64`/`to_u64` always return, and return `Some(v)` exactly when the surd is the number
`v` and `v` lies in the target range. -/
theorem surd_toPrim (cfg : Cfg) (inRange : ℤ → Bool) (s : Surd) (h : s.Ok cfg) :
    ∃ o, Surd.toPrim cfg inRange s = .ok o ∧
      ∀ v : ℤ, o = some v ↔ s.valC = v ∧ inRange v = true := by
  unfold Surd.toPrim
  by_cases hr : s.r < 0
  · rw [if_pos hr]
    refine ⟨none, rfl, fun v => ⟨fun e => by simp at e, ?_⟩⟩
    rintro ⟨e, _⟩
    have h1 := surd_ofInt_normal cfg v
    rw [← surd_ofInt_value] at e
    exact absurd e.symm (valC_ne_of_rational h1.toNormal h.toNormal rfl (by omega))
  · rw [if_neg hr]
    have hR : s.RealOk := ⟨h.toNormal, by omega⟩
    obtain ⟨w, hw, htr, hex⟩ := surd_toInteger cfg s hR
    rw [hw, ok_bind, hR.valC]
    have hcast : ∀ v : ℤ, ((s.val : ℝ) : ℂ) = v ↔ s.val = v := fun v => by
      constructor <;> intro e
      · exact_mod_cast e
      · rw [e]; simp
    cases w with
    | exact k =>
      obtain ⟨m, hm⟩ := hex.mpr ⟨k, rfl⟩
      have hmk : m = k := by
        obtain ⟨t, ht, h1, h2, h3⟩ := surd_trunc_partial cfg s hR
        rw [htr] at ht
        have e0 : k = t := by
          have := congrArg Surd.a (Except.ok.inj ht); simpa [Surd.ofInt, Approx.value] using this
        rw [hm, ← e0, ← Int.cast_sub, ← Int.cast_abs] at h3
        have : |m - k| < 1 := by exact_mod_cast h3
        rw [Int.abs_lt_one_iff] at this; omega
      refine ⟨_, rfl, fun v => ?_⟩
      rw [hcast, hm, hmk]
      by_cases hk : inRange k = true
      · simp only [hk, if_true, Option.some.injEq]
        constructor
        · rintro rfl; exact ⟨rfl, hk⟩
        · rintro ⟨e, _⟩; exact_mod_cast e
      · simp only [hk]
        constructor
        · intro e; simp at e
        · rintro ⟨e, e2⟩
          have : k = v := by exact_mod_cast e
          rw [this] at hk; exact absurd e2 hk
    | approximated k =>
      refine ⟨none, rfl, fun v => ⟨fun e => by simp at e, ?_⟩⟩
      rintro ⟨e, _⟩
      rw [hcast] at e
      obtain ⟨k', hk'⟩ := hex.mp ⟨v, e⟩
      simp at hk'
example : (Surd.mk (-7) 0 1 0).Ok ⟨true, true⟩ ∧
    Surd.toPrim ⟨true, true⟩ (fun v => decide (-128 ≤ v ∧ v ≤ 127)) ⟨-7, 0, 1, 0⟩ = .ok (some (-7)) ∧
    Surd.toPrim ⟨true, true⟩ (fun v => decide (0 ≤ v)) ⟨-7, 0, 1, 0⟩ = .ok none := by decide +kernel

/-- **C57** `from_i64`/`from_u64` keep the number and the round trip gives it back. -/
theorem surd_prim_roundtrip (cfg : Cfg) (fitsT inRange : ℤ → Bool) (n : ℤ) (hT : fitsT n = true)
    (hn : inRange n = true) :
    ∃ s, Surd.fromPrim fitsT n = some s ∧ s.valC = n ∧ s.Ok cfg ∧
      Surd.toPrim cfg inRange s = .ok (some n) := by
  have h1 := surd_ofInt_normal cfg n
  obtain ⟨o, ho, hv⟩ := surd_toPrim cfg inRange _ h1
  refine ⟨_, by unfold Surd.fromPrim; rw [if_pos hT], surd_ofInt_value n, h1, ?_⟩
  rw [ho, (hv n).mpr ⟨surd_ofInt_value n, hn⟩]

/-- **C57** `from_i64`/`from_u64` return `None` only if the number does not fit the integer type. -/
theorem surd_fromPrim_none (fitsT : ℤ → Bool) (n : ℤ) :
    Surd.fromPrim fitsT n = none ↔ fitsT n = false := by
  unfold Surd.fromPrim; by_cases h : fitsT n = true <;> simp [h]

example : Surd.toPrim ⟨true, true⟩ (fun v => decide (0 ≤ v)) ⟨7, 0, 1, 0⟩ = .ok (some 7) ∧
    Surd.toPrim ⟨true, true⟩ (fun v => decide (0 ≤ v)) ⟨-7, 0, 1, 0⟩ = .ok none ∧
    Surd.toPrim ⟨true, true⟩ (fun _ => true) ⟨7, 1, 1, 2⟩ = .ok none := by decide +kernel

end NumIrr
