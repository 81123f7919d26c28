/- When a quadratic surd is an algebraic integer. -/
import Verif.Lemmas.SurdEq
import Mathlib.RingTheory.Polynomial.RationalRoot
import Mathlib.RingTheory.IntegralClosure.IntegrallyClosed
import Mathlib.RingTheory.IntegralClosure.IsIntegral.Basic
import Mathlib.Analysis.Complex.Basic

namespace NumIrr
namespace Surd
open Polynomial

theorem aeval_conj (r : ℤ) (p q : ℚ) (P : ℤ[X]) : ∃ A B : ℚ,
    aeval ((p : ℂ) + q * rootC r) P = A + B * rootC r ∧
    aeval ((p : ℂ) - q * rootC r) P = A - B * rootC r := by
  induction P using Polynomial.induction_on' with
  | add f g hf hg =>
    obtain ⟨A, B, h1, h2⟩ := hf
    obtain ⟨A', B', h3, h4⟩ := hg
    refine ⟨A + A', B + B', ?_, ?_⟩
    · rw [map_add, h1, h3]; push_cast; ring
    · rw [map_add, h2, h4]; push_cast; ring
  | monomial n k =>
    have : ∀ n : ℕ, ∃ A B : ℚ, ((p : ℂ) + q * rootC r) ^ n = A + B * rootC r ∧
        ((p : ℂ) - q * rootC r) ^ n = A - B * rootC r := by
      intro n
      induction n with
      | zero => exact ⟨1, 0, by simp, by simp⟩
      | succ n ih =>
        obtain ⟨A, B, h1, h2⟩ := ih
        have hs := rootC_mul_self r
        refine ⟨A * p + B * q * r, A * q + B * p, ?_, ?_⟩
        · rw [pow_succ, h1]; push_cast; linear_combination (B:ℂ) * q * hs
        · rw [pow_succ, h2]; push_cast; linear_combination (B:ℂ) * q * hs
    obtain ⟨A, B, h1, h2⟩ := this n
    refine ⟨k * A, k * B, ?_, ?_⟩
    · rw [aeval_monomial, h1]; simp; ring
    · rw [aeval_monomial, h2]; simp; ring

theorem conj_integral {r : ℤ} (hr : ¬ IsSquare r) {p q : ℚ}
    (h : IsIntegral ℤ ((p : ℂ) + q * rootC r)) : IsIntegral ℤ ((p : ℂ) - q * rootC r) := by
  obtain ⟨P, hm, he⟩ := h
  obtain ⟨A, B, h1, h2⟩ := aeval_conj r p q P
  have he' : aeval ((p : ℂ) + q * rootC r) P = 0 := he
  rw [h1] at he'
  obtain ⟨hA, hB⟩ := root_lin_indep hr he'
  refine ⟨P, hm, ?_⟩
  change aeval ((p : ℂ) - q * rootC r) P = 0
  rw [h2, hA, hB]; simp

theorem int_of_integral_rat {u : ℚ} (h : IsIntegral ℤ ((u : ℚ) : ℂ)) : ∃ k : ℤ, u = k := by
  have h' : IsIntegral ℤ (algebraMap ℚ ℂ u) := h
  rw [isIntegral_algebraMap_iff (algebraMap ℚ ℂ).injective] at h'
  obtain ⟨k, hk⟩ := IsIntegrallyClosed.isIntegral_iff.mp h'
  exact ⟨k, by rw [← hk]; rfl⟩

theorem integral_iff {s : Surd} (h : s.Normal) (hr : s.r ≠ 0) :
    IsIntegral ℤ s.valC ↔ s.c ∣ 2 * s.a ∧ s.c * s.c ∣ s.a * s.a - s.b * s.b * s.r := by
  have hc : (s.c : ℚ) ≠ 0 := by exact_mod_cast h.c_pos.ne'
  have hcC : (s.c : ℂ) ≠ 0 := by exact_mod_cast h.c_pos.ne'
  have hs := rootC_mul_self s.r
  constructor
  · intro hi
    have hv : s.valC = ((s.a / s.c : ℚ) : ℂ) + ((s.b / s.c : ℚ) : ℂ) * rootC s.r := by
      unfold valC quadC; push_cast; ring
    rw [hv] at hi
    have hci := conj_integral (h.irrational hr) hi
    constructor
    · have hsum := hi.add hci
      have e : ((s.a / s.c : ℚ) : ℂ) + ((s.b / s.c : ℚ) : ℂ) * rootC s.r +
          (((s.a / s.c : ℚ) : ℂ) - ((s.b / s.c : ℚ) : ℂ) * rootC s.r) = ((2 * s.a / s.c : ℚ) : ℂ) := by
        push_cast; ring
      rw [e] at hsum
      obtain ⟨k, hk⟩ := int_of_integral_rat hsum
      refine ⟨k, ?_⟩
      rw [div_eq_iff hc] at hk
      have : (2 * s.a : ℚ) = s.c * k := by rw [hk]; ring
      exact_mod_cast this
    · have hprod := hi.mul hci
      have e : (((s.a / s.c : ℚ) : ℂ) + ((s.b / s.c : ℚ) : ℂ) * rootC s.r) *
          (((s.a / s.c : ℚ) : ℂ) - ((s.b / s.c : ℚ) : ℂ) * rootC s.r) =
          (((s.a * s.a - s.b * s.b * s.r) / (s.c * s.c) : ℚ) : ℂ) := by
        push_cast
        field_simp
        linear_combination -(s.b:ℂ)^2 * hs
      rw [e] at hprod
      obtain ⟨k, hk⟩ := int_of_integral_rat hprod
      refine ⟨k, ?_⟩
      rw [div_eq_iff (mul_ne_zero hc hc)] at hk
      have : (s.a * s.a - s.b * s.b * s.r : ℚ) = s.c * s.c * k := by rw [hk]; ring
      exact_mod_cast this
  · rintro ⟨⟨t, ht⟩, ⟨n, hn⟩⟩
    refine ⟨X ^ 2 - C t * X + C n, by monicity!, ?_⟩
    have htC : (2 * s.a : ℂ) = s.c * t := by exact_mod_cast ht
    have hnC : (s.a * s.a - s.b * s.b * s.r : ℂ) = s.c * s.c * n := by exact_mod_cast hn
    simp only [eval₂_add, eval₂_sub, eval₂_mul, eval₂_pow, eval₂_X, eval₂_C, algebraMap_int_eq,
      Int.coe_castRingHom]
    unfold valC quadC
    field_simp
    linear_combination (s.b:ℂ)^2 * hs - hnC + (s.a + s.b * rootC s.r) * htC

theorem integral_of_rational {s : Surd} (h : s.Normal) (hr : s.r = 0) :
    IsIntegral ℤ s.valC ↔ s.c = 1 := by
  have hcC : (s.c : ℂ) ≠ 0 := by exact_mod_cast h.c_pos.ne'
  have hc : (s.c : ℚ) ≠ 0 := by exact_mod_cast h.c_pos.ne'
  have hb := h.rational.mpr hr
  have hv : s.valC = ((s.a / s.c : ℚ) : ℂ) := by unfold valC quadC; rw [hb]; simp
  constructor
  · intro hi
    rw [hv] at hi
    obtain ⟨k, hk⟩ := int_of_integral_rat hi
    rw [div_eq_iff hc] at hk
    have hk' : s.a = k * s.c := by exact_mod_cast hk
    have := h.coprime s.c (hk' ▸ Dvd.intro_left _ rfl) (hb ▸ dvd_zero _) dvd_rfl
    rcases Int.isUnit_iff.mp this with e | e
    · exact e
    · have := h.c_pos; omega
  · intro e
    rw [hv, e]
    simp only [Int.cast_one, div_one, Rat.cast_intCast]
    exact isIntegral_algebraMap (R := ℤ) (A := ℂ) (x := s.a)

end Surd
end NumIrr
