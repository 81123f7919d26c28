/-
C02 (every reachable surd is in normal form) and C20 (classification predicates).
-/
import Verif.Lemmas.SurdReach
import Verif.Lemmas.SurdIntegral
import Mathlib.Algebra.Squarefree.Basic
import Mathlib.RingTheory.Int.Basic

namespace NumIrr
open Surd

/-! ### C02 -/

/-- **C02** every surd obtainable through the public API is in normal form: positive denominator, no
common divisor, no root for rationals, a non-square root otherwise, and no negative root without the
`complex` feature. -/
theorem surd_reach_ok (cfg : Cfg) (fits : ℤ → Bool) (s : Surd) (h : Surd.Reach cfg fits s) :
    s.Ok cfg := (reach_good h).ok

example : Surd.Reach ⟨false, true⟩ (fun _ => true) ⟨1, 1, 2, 5⟩ :=
  .new (a := -2) (b := -2) (c := -4) (r := 5) (by decide +kernel)

/-! ### C20 -/

/-- **C20** `is_rational` decides rationality. -/
theorem surd_isRational (cfg : Cfg) (s : Surd) (h : s.Ok cfg) :
    s.isRational = true ↔ ∃ q : ℚ, s.valC = q := by
  constructor
  · intro e
    exact ⟨_, valC_of_r_zero h.toNormal (h.isRational_iff.mp e)⟩
  · rintro ⟨q, hq⟩
    rw [h.isRational_iff]
    by_contra hr
    refine valC_ne_of_rational (surd_ofRat_normal cfg q).toNormal h.toNormal rfl hr ?_
    rw [surd_ofRat_value, hq]
example : (Surd.mk 3 0 2 0).Ok ⟨false, true⟩ ∧ (Surd.mk 3 0 2 0).isRational = true ∧
    (Surd.mk 3 1 2 5).Ok ⟨false, true⟩ ∧ (Surd.mk 3 1 2 5).isRational = false := by decide +kernel

/-- **C20** `is_integer` decides integrality. -/
theorem surd_isInteger (cfg : Cfg) (s : Surd) (h : s.Ok cfg) :
    s.isInteger = true ↔ ∃ k : ℤ, s.valC = k := by
  constructor
  · intro e
    simp only [Surd.isInteger, Bool.and_eq_true, decide_eq_true_eq] at e
    have hb := h.rational.mpr (h.isRational_iff.mp e.2)
    exact ⟨s.a, by unfold Surd.valC quadC; rw [e.1, hb]; simp⟩
  · rintro ⟨k, hk⟩
    have hr : s.isRational = true := (surd_isRational cfg s h).mpr ⟨k, by rw [hk]; simp⟩
    have hr0 := h.isRational_iff.mp hr
    have hb := h.rational.mpr hr0
    have hcC : (s.c : ℂ) ≠ 0 := by exact_mod_cast h.ne_zero
    have e : (s.a : ℂ) = k * s.c := by
      unfold Surd.valC quadC at hk; rw [hb, div_eq_iff hcC] at hk; simpa using hk
    have e' : s.a = k * s.c := by exact_mod_cast e
    have := h.coprime s.c (e' ▸ Dvd.intro_left _ rfl) (hb ▸ dvd_zero _) dvd_rfl
    have hc1 : s.c = 1 := by
      rcases Int.isUnit_iff.mp this with e | e
      · exact e
      · have := h.c_pos; omega
    simp [Surd.isInteger, hc1, hr]
example : (Surd.mk (-3) 0 1 0).Ok ⟨false, true⟩ ∧ (Surd.mk (-3) 0 1 0).isInteger = true ∧
    (Surd.mk 3 0 2 0).isInteger = false := by decide +kernel

/-- **C20** `is_complex` decides whether the number is non-real. -/
theorem surd_isComplex (cfg : Cfg) (s : Surd) (h : s.Ok cfg) :
    s.isComplex = true ↔ s.valC.im ≠ 0 := by
  simp only [Surd.isComplex, decide_eq_true_eq]
  constructor
  · intro hr e
    have : s.valC = ((s.valC.re : ℝ) : ℂ) := by
      apply Complex.ext <;> simp [e]
    exact absurd (real_of_valC h.toNormal this) (not_le.mpr hr)
  · intro e
    by_contra hr
    apply e
    rw [valC_eq_val (not_lt.mp hr)]; simp
example : (Surd.mk 3 1 2 (-5)).Ok ⟨true, true⟩ ∧ (Surd.mk 3 1 2 (-5)).isComplex = true ∧
    (Surd.mk 3 1 2 5).isComplex = false := by decide +kernel

/-- **C20** `is_pure` is true exactly for irrational square roots of rationals. -/
theorem surd_isPure (cfg : Cfg) (s : Surd) (h : s.Ok cfg) :
    s.isPure = true ↔ (¬ ∃ q : ℚ, s.valC = q) ∧ ∃ q : ℚ, s.valC ^ 2 = q := by
  rw [← surd_isRational cfg s h, h.isRational_iff]
  simp only [Surd.isPure, Bool.and_eq_true, decide_eq_true_eq]
  have hcC : (s.c : ℂ) ≠ 0 := by exact_mod_cast h.ne_zero
  have hs := rootC_mul_self s.r
  constructor
  · rintro ⟨ha, hb⟩
    refine ⟨fun e => hb (h.rational.mpr e), s.b * s.b * s.r / (s.c * s.c), ?_⟩
    unfold Surd.valC quadC
    rw [ha]; push_cast
    field_simp
    linear_combination (s.b:ℂ)^2 * hs
  · rintro ⟨hr, q, hq⟩
    have hb : s.b ≠ 0 := fun e => hr (h.rational.mp e)
    refine ⟨?_, hb⟩
    have e : ((((s.a * s.a + s.b * s.b * s.r) / (s.c * s.c) - q : ℚ)) : ℂ) +
        ((2 * s.a * s.b / (s.c * s.c) : ℚ) : ℂ) * rootC s.r = 0 := by
      unfold Surd.valC quadC at hq
      push_cast
      rw [← hq]; field_simp
      linear_combination -(s.b:ℂ)^2 * hs
    have := (root_lin_indep (h.irrational hr) e).2
    have hcQ : (s.c : ℚ) ≠ 0 := by exact_mod_cast h.ne_zero
    rw [div_eq_zero_iff] at this
    rcases this with h1 | h1
    · have : 2 * s.a * s.b = 0 := by exact_mod_cast h1
      rcases mul_eq_zero.mp this with h2 | h2
      · omega
      · exact absurd h2 hb
    · exact absurd h1 (mul_ne_zero hcQ hcQ)
example : (Surd.mk 0 3 2 5).Ok ⟨false, true⟩ ∧ (Surd.mk 0 3 2 5).isPure = true ∧
    (Surd.mk 1 3 2 5).isPure = false := by decide +kernel

/-- **C20** is false for `is_quadint`: `(1+√5)/2` is a quadratic integer. -/
theorem surd_isQuadint_refuted : ∃ s : Surd, s.RealOk ∧ IsIntegral ℤ s.valC ∧ s.isQuadint = false := by
  have h : (Surd.mk 1 1 2 5).RealOk := by decide +kernel
  refine ⟨⟨1, 1, 2, 5⟩, h, ?_, rfl⟩
  rw [integral_iff h.toNormal (by decide)]
  decide

/-- **C20** partial: `is_quadint` is sound (a positive answer means the number is an algebraic
integer), and it is exact for rational surds and for square-free roots that are not 1 modulo 4.
Missing from the full claim: half-integers `(a+b√r)/2` with `r ≡ 1 (mod 4)`, and roots with square
factors. -/
theorem surd_isQuadint_partial (cfg : Cfg) (s : Surd) (h : s.Ok cfg) :
    (s.isQuadint = true → IsIntegral ℤ s.valC) ∧
    (s.r = 0 ∨ (Squarefree s.r ∧ s.r % 4 ≠ 1) → IsIntegral ℤ s.valC → s.isQuadint = true) := by
  simp only [Surd.isQuadint, decide_eq_true_eq]
  constructor
  · intro hc
    by_cases hr : s.r = 0
    · exact (integral_of_rational h.toNormal hr).mpr hc
    · rw [integral_iff h.toNormal hr, hc]; simp
  · rintro hr hi
    by_cases hr0 : s.r = 0
    · exact (integral_of_rational h.toNormal hr0).mp hi
    obtain ⟨hsf, h4⟩ := hr.resolve_left hr0
    rw [integral_iff h.toNormal hr0] at hi
    obtain ⟨h1, h2⟩ := hi
    by_contra hc1
    have hcpos := h.c_pos
    -- a prime divisor of the denominator
    obtain ⟨p, hp, hpc⟩ := Int.exists_prime_and_dvd (n := s.c) (by omega)
    have hpp : p * p ∣ s.a * s.a - s.b * s.b * s.r := (mul_dvd_mul hpc hpc).trans h2
    -- p does not divide both a and b
    have hnot : ¬ (p ∣ s.a ∧ p ∣ s.b) := fun e => hp.not_isUnit (h.coprime p e.1 e.2 hpc)
    by_cases hpa : p ∣ s.a
    · have hpb : ¬ p ∣ s.b := fun e => hnot ⟨hpa, e⟩
      have h3 : p * p ∣ s.b * s.b * s.r := by
        have := dvd_sub (mul_dvd_mul hpa hpa) hpp
        rwa [show s.a * s.a - (s.a * s.a - s.b * s.b * s.r) = s.b * s.b * s.r by ring] at this
      have hcop : IsCoprime (p * p) (s.b * s.b) := by
        have : IsCoprime p s.b := (Prime.coprime_iff_not_dvd hp).mpr hpb
        exact (this.mul_left this).mul_right (this.mul_left this)
      have := hsf p (hcop.dvd_of_dvd_mul_left h3)
      exact hp.not_isUnit this
    · -- then p = ±2, a is odd
      have hp2 : p ∣ 2 := (hp.dvd_or_dvd (hpc.trans h1)).resolve_right hpa
      have h22 : (2:ℤ) ∣ p := by
        obtain ⟨k, hk⟩ := hp2
        have : Prime (2:ℤ) := Int.prime_two
        rcases this.dvd_or_dvd (show (2:ℤ) ∣ p * k from ⟨1, by omega⟩) with e | e
        · exact e
        · exfalso
          obtain ⟨l, rfl⟩ := e
          apply hp.not_isUnit
          exact isUnit_of_dvd_one ⟨l, by linarith⟩
      have ha : ¬ (2:ℤ) ∣ s.a := fun e => hpa (hp2.trans e)
      have hq : (4:ℤ) ∣ s.a * s.a - s.b * s.b * s.r := (mul_dvd_mul h22 h22).trans hpp
      have ha1 : s.a * s.a % 4 = 1 := by
        have : s.a % 4 = 1 ∨ s.a % 4 = 3 := by omega
        rcases this with e | e <;> rw [Int.mul_emod, e] <;> rfl
      have hb1 : s.b * s.b % 4 = 0 ∨ s.b * s.b % 4 = 1 := by
        have : s.b % 4 = 0 ∨ s.b % 4 = 1 ∨ s.b % 4 = 2 ∨ s.b % 4 = 3 := by omega
        rcases this with e | e | e | e <;> rw [Int.mul_emod, e] <;> simp
      have hbr : s.b * s.b * s.r % 4 = 1 := by omega
      rw [Int.mul_emod] at hbr
      rcases hb1 with e | e <;> rw [e] at hbr
      · simp at hbr
      · omega

example : (Surd.mk 3 2 1 7).Ok ⟨false, true⟩ ∧ (Surd.mk 3 2 1 7).isQuadint = true ∧
    (7:ℤ) % 4 ≠ 1 ∧ Prime (7:ℤ) :=
  ⟨by decide +kernel, rfl, by decide, by
    rw [← Nat.cast_ofNat, ← Nat.prime_iff_prime_int]; decide⟩

/-- **C20** is false for `is_gaussint`: `√2` is reported as a Gaussian integer. -/
theorem surd_isGaussint_refuted : ∃ s : Surd, s.RealOk ∧ s.isGaussint = true ∧
    ¬ ∃ m n : ℤ, s.valC = m + n * Complex.I := by
  have h : (Surd.mk 0 1 1 2).RealOk := by decide +kernel
  refine ⟨⟨0, 1, 1, 2⟩, h, rfl, ?_⟩
  rintro ⟨m, n, e⟩
  have him : (Surd.mk 0 1 1 2).valC.im = 0 := by rw [h.valC]; simp
  rw [e] at him
  simp at him
  have hn : n = 0 := by exact_mod_cast him
  rw [hn] at e
  have := (surd_isInteger ⟨true, true⟩ _ (h.toOk _)).mpr ⟨m, by rw [e]; simp⟩
  exact absurd this (by decide)

/-- **C20** partial: `is_gaussint` is complete on every surd a program can obtain (it answers `true`
for each Gaussian integer), and exact for rational surds and for the root `-1`.
Missing from the full claim: a positive answer for other roots says nothing. -/
theorem surd_isGaussint_partial (cfg : Cfg) (fits : ℤ → Bool) (s : Surd)
    (hs : Surd.Reach cfg fits s) :
    ((∃ m n : ℤ, s.valC = m + n * Complex.I) → s.isGaussint = true) ∧
    (s.r = 0 ∨ s.r = -1 → s.isGaussint = true → ∃ m n : ℤ, s.valC = m + n * Complex.I) := by
  obtain ⟨h, hg⟩ := reach_good hs
  simp only [Surd.isGaussint, decide_eq_true_eq]
  constructor
  · rintro ⟨m, n, e⟩
    by_cases hr : 0 ≤ s.r
    · have him : s.valC.im = 0 := by rw [valC_eq_val hr]; simp
      have hn : n = 0 := by
        rw [e] at him; simp at him; exact_mod_cast him
      have := (surd_isInteger cfg s h).mpr ⟨m, by rw [e, hn]; simp⟩
      simp only [Surd.isInteger, Bool.and_eq_true, decide_eq_true_eq] at this
      exact this.1
    · push Not at hr
      have hcR : (s.c : ℝ) ≠ 0 := by exact_mod_cast h.ne_zero
      have hre : s.valC.re = (s.a : ℝ) / s.c ∧
          s.valC.im = s.b * Real.sqrt ((-s.r : ℤ) : ℝ) / s.c := by
        unfold Surd.valC quadC rootC
        rw [if_neg (not_le.mpr hr)]
        have hcast : ((s.c : ℤ) : ℂ) = ((s.c : ℝ) : ℂ) := by push_cast; rfl
        rw [hcast, Complex.div_ofReal_re, Complex.div_ofReal_im]
        simp
      obtain ⟨e1, e2⟩ := hre
      rw [e] at e1 e2
      simp only [Complex.add_re, Complex.intCast_re, Complex.mul_re, Complex.I_re, mul_zero,
        Complex.intCast_im, Complex.I_im, mul_one, sub_self, add_zero, Complex.add_im,
        Complex.mul_im, zero_add] at e1 e2
      rw [eq_div_iff hcR] at e1 e2
      have ha : s.a = m * s.c := by exact_mod_cast e1.symm
      have hb : s.b ≠ 0 := fun e0 => hr.ne (h.rational.mp e0)
      have hsq : n * s.c * (n * s.c) = s.b * s.b * (-s.r) := by
        have h0 : (0:ℝ) ≤ ((-s.r : ℤ) : ℝ) := by exact_mod_cast (by omega : (0:ℤ) ≤ -s.r)
        have h1 := Real.mul_self_sqrt h0
        have : ((n:ℝ) * s.c) * (n * s.c) = s.b * s.b * ((-s.r : ℤ) : ℝ) := by
          rw [e2]; linear_combination (s.b:ℝ)^2 * h1
        exact_mod_cast this
      have hsqr : IsSquare (-s.r) := by
        apply isSquare_of_rat (q := n * s.c / s.b)
        have hbQ : (s.b : ℚ) ≠ 0 := by exact_mod_cast hb
        have : (n * s.c * (n * s.c) : ℚ) = s.b * s.b * ((-s.r : ℤ) : ℚ) := by exact_mod_cast hsq
        rw [div_mul_div_comm, this]; field_simp
      have hca : s.c ∣ s.a := ⟨m, by rw [ha]; ring⟩
      have hcop : IsCoprime s.c s.b := by
        rw [Int.isCoprime_iff_gcd_eq_one]
        have := h.coprime (Int.gcd s.c s.b) ((Int.gcd_dvd_left ..).trans hca)
          (Int.gcd_dvd_right ..) (Int.gcd_dvd_left ..)
        rw [Int.isUnit_iff] at this
        omega
      have hcr : s.c * s.c ∣ s.r := by
        have h1 : s.c * s.c ∣ (s.b * s.b) * (-s.r) := ⟨n * n, by rw [← hsq]; ring⟩
        have h2 : IsCoprime (s.c * s.c) (s.b * s.b) :=
          (hcop.mul_left hcop).mul_right (hcop.mul_left hcop)
        exact (dvd_neg.mp (h2.dvd_of_dvd_mul_left h1))
      rcases Int.isUnit_iff.mp (hg hsqr hca hcr) with h1 | h1
      · exact h1
      · have := h.c_pos; omega
  · rintro hr hc
    rcases hr with hr | hr
    · refine ⟨s.a, 0, ?_⟩
      unfold Surd.valC quadC; rw [hc, h.rational.mpr hr]; simp
    · refine ⟨s.a, s.b, ?_⟩
      unfold Surd.valC quadC rootC; rw [hc, hr]; simp

example : Surd.Reach ⟨true, true⟩ (fun _ => true) ⟨1, 3, 1, -1⟩ :=
  .new (a := 2) (b := 3) (c := 2) (r := -4) (by decide +kernel)

end NumIrr
