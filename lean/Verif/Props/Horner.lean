/-
C141: polynomials evaluated at surds, and solutions of quadratic equations put back into the equation.
-/
import Verif.Spec.Horner
import Verif.Props.SurdSqrt
import Verif.Props.StoredForm

namespace NumIrr
namespace Surd

variable {cfg : Cfg} {x y z s : Surd}

/-- the root of `z` is that of `s` without a square factor, or `z` is rational -/
def Under (s z : Surd) : Prop := z.r = 0 ∨ ∃ k : ℤ, 0 < k ∧ s.r = k * k * z.r

private theorem fc_root {l : Coeffs} {r : ℤ} (h : fromCoeffs cfg l r = .ok z) : z.r = 0 ∨ ∃ k : ℤ, 0 < k ∧ r = k * k * z.r := by
  have h : new cfg l.a l.b l.c r = .ok z := h
  obtain ⟨h1, h2⟩ := new_inv h
  obtain ⟨t, e, -, -, -, h3⟩ := new_spec (cfg := cfg) (a := l.a) (b := l.b) h1 h2
  rw [h] at e; cases e
  rcases h3 with h3 | ⟨-, -, h4⟩
  · exact .inl h3.1
  · exact .inr h4

private theorem under_trans {r : ℤ} (h : s.r = r ∨ ∃ k : ℤ, 0 < k ∧ s.r = k * k * r)
    (hz : z.r = 0 ∨ ∃ k : ℤ, 0 < k ∧ r = k * k * z.r) : Under s z := by
  rcases hz with hz | ⟨m, hm, e⟩
  · exact .inl hz
  · rcases h with h | ⟨k, hk, h⟩
    · exact .inr ⟨m, hm, h.trans e⟩
    · exact .inr ⟨k * m, mul_pos hk hm, by rw [h, e]; ring⟩

private theorem under_addRat (hx : Under s x) (q : ℚ) (h : addRat cfg x q = .ok z) : Under s z := by
  have h1 := fc_root h
  rcases hx with hx | hx
  · rcases h1 with h1 | ⟨k, hk, h1⟩
    · exact .inl h1
    · rw [hx] at h1
      rcases mul_eq_zero.1 h1.symm with h2 | h2
      · exact absurd h2 (mul_pos hk hk).ne'
      · exact .inl h2
  · exact under_trans (.inr hx) h1

/-- a surd in normal form with a rational value is the one `From<Ratio>` makes -/
theorem eq_ofRat_of_valC (cfg : Cfg) (z : Surd) (h : z.Ok cfg) (q : ℚ) (hv : z.valC = (q : ℂ)) : z = ofRat q := by
  have h3 := surd_ofRat_normal cfg q
  have h0 : z.r = 0 := by
    by_contra hz
    refine valC_ne_of_rational h3.toNormal h.toNormal rfl hz ?_
    rw [surd_ofRat_value, hv]
  exact stored_unique z (ofRat q) h.toNormal h3.toNormal (.inl h0) (by rw [surd_ofRat_value, hv])

/-- a product with `s` itself -/
theorem under_mul (hx : x.Ok cfg) (hs : s.Ok cfg) (hu : Under s x) (hp : 0 ≤ s.r ∨ s.a ≠ 0) :
    ∃ z, mul cfg x s = .ok z ∧ z.valC = x.valC * s.valC ∧ z.Ok cfg ∧ Under s z := by
  have hc : x.r = 0 ∨ s.r = 0 ∨ (x.a = 0 ∧ s.a = 0) ∨ x.Compatible s := by
    rcases hu with hu | ⟨k, -, hu⟩
    · exact .inl hu
    · exact .inr (.inr (.inr ⟨k, .inr hu⟩))
  obtain ⟨z, e, hv, ho⟩ := (mul_spec hx hs).1 hc
  have hps : pureSign x s = 1 := by unfold pureSign; rw [if_neg (by omega)]
  rw [hps, one_mul] at hv
  refine ⟨z, e, hv, ho, ?_⟩
  by_cases hs0 : s.r = 0
  · have hx0 : x.r = 0 := by
      rcases hu with hu | ⟨k, hk, hu⟩
      · exact hu
      · rw [hs0] at hu
        rcases mul_eq_zero.1 hu.symm with h2 | h2
        · exact absurd h2 (mul_pos hk hk).ne'
        · exact h2
    left
    have h1 := valC_of_r_zero hx.toNormal hx0
    have h2 := valC_of_r_zero hs.toNormal hs0
    rw [eq_ofRat_of_valC cfg z ho (Rat.divInt x.a x.c * Rat.divInt s.a s.c) (by rw [hv, h1, h2]; push_cast; rfl)]
    rfl
  unfold mul at e
  rw [if_neg (fun h => hs0 (hs.isRational_iff.mp h))] at e
  split at e
  · obtain ⟨q, -, e⟩ := bind_ok_inv e
    exact under_trans (.inl rfl) (fc_root e)
  · next h1 =>
    have hx0 : x.r ≠ 0 := fun h => h1 (hx.isRational_iff.mpr h)
    obtain ⟨k, hk, hu⟩ := hu.resolve_left hx0
    split at e
    · next h2 =>
      -- both are pure and the roots differ by a square: the product is rational
      left
      rw [Bool.and_eq_true, isPure_iff, isPure_iff] at h2
      have hroot : rootC s.r = k * rootC x.r := by rw [hu, rootC_sq_mul hk.le]
      have hsq := rootC_mul_self x.r
      rw [eq_ofRat_of_valC cfg z ho (Rat.divInt x.b x.c * Rat.divInt s.b s.c * (k * x.r)) ?_]
      · rfl
      · rw [hv, valC_coords x, valC_coords s, h2.1.1, h2.2.1, hroot]
        simp only [Rat.zero_divInt, Rat.cast_zero, zero_add, Rat.cast_mul, Rat.cast_intCast]
        linear_combination ((Rat.divInt x.b x.c : ℚ) : ℂ) * ((Rat.divInt s.b s.c : ℚ) : ℂ) * k * hsq
    · obtain ⟨p, hp1, e⟩ := bind_ok_inv e
      obtain ⟨p', hp', hm⟩ := (reduceBinOpUnwrap_spec (cfg := cfg) hx.c_pos hs.c_pos hx0 hs0 hx.real hs.real).1 ⟨k, .inr hu⟩
      rw [hp1] at hp'
      cases hp'
      have h2 := fc_root e
      rcases hm.rxy with h | h
      · exact under_trans (.inr ⟨k, hk, by rw [h]; exact hu⟩) h2
      · exact under_trans (.inl h.symm) h2

/-- **C141** A polynomial with rational coefficients evaluated at a surd by Horner's rule: it never panics, and what it
returns is the value of the polynomial.  (Purely imaginary numbers are excluded: the library multiplies those wrongly.) -/
theorem horner_value_partial (cfg : Cfg) (s : Surd) (hs : s.Ok cfg) (hp : 0 ≤ s.r ∨ s.a ≠ 0) (l : List ℚ) :
    ∃ z, hornerRun cfg s l = .ok z ∧ z.Ok cfg ∧ z.valC = polyVal l s.valC := by
  suffices h : ∃ z, hornerRun cfg s l = .ok z ∧ z.Ok cfg ∧ z.valC = polyVal l s.valC ∧ Under s z by
    obtain ⟨z, h1, h2, h3, -⟩ := h
    exact ⟨z, h1, h2, h3⟩
  induction l with
  | nil => exact ⟨_, rfl, surd_ofInt_normal cfg 0, by rw [surd_ofInt_value]; simp [polyVal], .inl rfl⟩
  | cons c l ih =>
    obtain ⟨t, e1, o1, v1, u1⟩ := ih
    obtain ⟨u, e2, v2, o2, u2⟩ := under_mul o1 hs u1 hp
    obtain ⟨z, e3, v3, o3⟩ := addRat_spec o2 c
    refine ⟨z, ?_, o3, ?_, under_addRat u2 c e3⟩
    · unfold hornerRun
      rw [e1, ok_bind, e2, ok_bind, e3]
    · rw [v3, v2, v1]
      unfold polyVal
      rw [show (∑ i : Fin (c :: l).length, ((c :: l)[i] : ℂ) * s.valC ^ (i : ℕ)) =
        ∑ i : Fin (l.length + 1), ((c :: l)[i] : ℂ) * s.valC ^ (i : ℕ) from rfl, Fin.sum_univ_succ, Finset.sum_mul]
      simp only [List.length_cons, Fin.val_zero, pow_zero, mul_one, Fin.val_succ, pow_succ, Fin.getElem_fin,
        List.getElem_cons_zero, List.getElem_cons_succ]
      rw [add_comm]
      congr 1
      exact Finset.sum_congr rfl fun i _ => by ring

example : hornerRun ⟨false, true⟩ ⟨1, 1, 2, 5⟩ [-3, 0, 1/2, 2] = .ok ⟨7, 9, 4, 5⟩ := by decide +kernel

/-- **C141** is false for purely imaginary numbers: `x² + 1` at `i` gives `2`. -/
theorem horner_value_refuted : ∃ z, hornerRun ⟨true, true⟩ ⟨0, 1, 1, -1⟩ [1, 0, 1] = .ok z ∧
    (Surd.mk 0 1 1 (-1)).Ok ⟨true, true⟩ ∧ fromEquation ⟨true, true⟩ 1 0 1 = .ok (some ⟨0, 1, 1, -1⟩) ∧
    z = ⟨2, 0, 1, 0⟩ ∧ z.valC ≠ polyVal [1, 0, 1] (Surd.valC ⟨0, 1, 1, -1⟩) := by
  refine ⟨⟨2, 0, 1, 0⟩, by decide +kernel, by decide +kernel, by decide +kernel, rfl, ?_⟩
  have h1 : Surd.valC ⟨2, 0, 1, 0⟩ = 2 := by simp [Surd.valC, quadC]
  have h2 : Surd.valC ⟨0, 1, 1, -1⟩ = Complex.I := by simp [Surd.valC, quadC, rootC]
  rw [h1, h2]
  simp [polyVal, Fin.sum_univ_succ]

/-- **C141** The solution `from_equation` returns, put back into the equation by Horner's rule, gives exactly the surd zero.
-/
theorem equation_check_partial (cfg : Cfg) (a b c : ℚ) (s : Surd) (h : fromEquation cfg a b c = .ok (some s))
    (hp : 0 ≤ s.r ∨ s.a ≠ 0) : hornerRun cfg s [c, b, a] = .ok (ofInt 0) := by
  obtain ⟨o, h1, h2⟩ := surd_fromEquation_root cfg a b c
  rw [h] at h1
  cases h1
  obtain ⟨ho, hv⟩ := h2 s rfl
  obtain ⟨z, e, oz, vz⟩ := horner_value_partial cfg s ho hp [c, b, a]
  have : z = ofRat 0 := by
    refine eq_ofRat_of_valC cfg z oz 0 ?_
    rw [vz]
    simp only [polyVal, List.length_cons, List.length_nil, Fin.sum_univ_succ]
    simp
    linear_combination hv
  rw [e, this]
  rfl

example : fromEquation ⟨false, true⟩ 2 1 (-3/2) = .ok (some ⟨-1, 1, 4, 13⟩) ∧
    hornerRun ⟨false, true⟩ ⟨-1, 1, 4, 13⟩ [-3/2, 1, 2] = .ok ⟨0, 0, 1, 0⟩ ∧
    hornerRun ⟨true, true⟩ ⟨-1, 1, 2, -3⟩ [1, 1, 1] = .ok ⟨0, 0, 1, 0⟩ := by decide +kernel

/-- **C141** So does its conjugate, when it is irrational. -/
theorem equation_check_conj_partial (cfg : Cfg) (a b c : ℚ) (s : Surd) (h : fromEquation cfg a b c = .ok (some s))
    (hr : s.r ≠ 0) (hp : 0 ≤ s.r ∨ s.a ≠ 0) : hornerRun cfg s.conj [c, b, a] = .ok (ofInt 0) := by
  obtain ⟨o, h1, h2⟩ := surd_fromEquation_root cfg a b c
  rw [h] at h1
  cases h1
  obtain ⟨ho, hv⟩ := h2 s rfl
  have hoc := surd_conj_ok cfg s ho
  obtain ⟨z, e, oz, vz⟩ := horner_value_partial cfg s.conj hoc hp [c, b, a]
  have hsq := rootC_mul_self s.r
  rw [valC_coords s] at hv
  generalize hP : Rat.divInt s.a s.c = P at hv
  generalize hQ : Rat.divInt s.b s.c = Q at hv
  obtain ⟨k1, k2⟩ := root_lin_indep (ho.irrational hr) (x := a * (P ^ 2 + Q ^ 2 * s.r) + b * P + c) (y := 2 * a * P * Q + b * Q)
    (by push_cast; linear_combination hv - (a : ℂ) * Q ^ 2 * hsq)
  have k1' : ((a * (P ^ 2 + Q ^ 2 * s.r) + b * P + c : ℚ) : ℂ) = 0 := by rw [k1]; simp
  have k2' : ((2 * a * P * Q + b * Q : ℚ) : ℂ) = 0 := by rw [k2]; simp
  push_cast at k1' k2'
  have : z = ofRat 0 := by
    refine eq_ofRat_of_valC cfg z oz 0 ?_
    rw [vz, conj_coords, hP, hQ]
    simp only [polyVal, List.length_cons, List.length_nil, Fin.sum_univ_succ]
    simp
    linear_combination k1' - rootC s.r * k2' + (a : ℂ) * Q ^ 2 * hsq
  rw [e, this]
  rfl

private theorem rootQ_scale (q : ℚ) (r : ℤ) : rootQ (q ^ 2 * r) = ((|q| : ℚ) : ℂ) * rootC r := by
  have hq : √((q : ℝ) ^ 2) = |(q : ℝ)| := Real.sqrt_sq_eq_abs _
  by_cases h0 : q = 0
  · subst h0
    simp [rootQ]
  have hq2 : (0 : ℚ) < q ^ 2 := by positivity
  have hc : (((|q| : ℚ) : ℝ) : ℂ) = ((|q| : ℚ) : ℂ) := Complex.ofReal_ratCast _
  unfold rootQ rootC
  by_cases hr : 0 ≤ r
  · rw [if_pos (mul_nonneg hq2.le (by exact_mod_cast hr)), if_pos hr, ← hc]
    push_cast
    rw [Real.sqrt_mul (sq_nonneg _), hq]
    push_cast
    rfl
  · have hr' : (r : ℚ) < 0 := by exact_mod_cast not_le.mp hr
    rw [if_neg (not_le.mpr (mul_neg_of_pos_of_neg hq2 hr')), if_neg hr, ← hc]
    push_cast
    rw [← mul_neg, Real.sqrt_mul (sq_nonneg _), hq]
    push_cast
    ring

/-- **C141** Every surd `s = (a + b√r)/c` is found again from its own equation `x² - (s + s̄)x + s·s̄ = 0`: `from_equation`
returns `s` itself, or its conjugate if `b < 0`. -/
theorem equation_roundtrip (cfg : Cfg) (s : Surd) (hs : s.Ok cfg) :
    ∃ t, fromEquation cfg 1 (-(2 * s.a / s.c)) ((s.a ^ 2 - s.b ^ 2 * s.r) / s.c ^ 2) = .ok (some t) ∧ t.Ok cfg ∧
      t.valC = if 0 ≤ s.b then s.valC else s.conj.valC := by
  have hc : (s.c : ℚ) ≠ 0 := by exact_mod_cast hs.c_pos.ne'
  have hcc : (s.c : ℂ) ≠ 0 := by exact_mod_cast hs.c_pos.ne'
  have hcp : (0 : ℚ) < s.c := by exact_mod_cast hs.c_pos
  have hd : -(2 * (s.a : ℚ) / s.c) * -(2 * s.a / s.c) - 4 * 1 * (((s.a : ℚ) ^ 2 - s.b ^ 2 * s.r) / s.c ^ 2) =
      (2 * s.b / s.c) ^ 2 * s.r := by field_simp; ring
  have hn : ¬ (cfg.complex = false ∧ (2 * (s.b : ℚ) / s.c) ^ 2 * s.r < 0) := fun h =>
    absurd h.2 (not_lt.mpr (mul_nonneg (sq_nonneg _) (by exact_mod_cast hs.real h.1)))
  obtain ⟨t, e, hv, ho⟩ := (surd_fromRationals_value cfg (- -(2 * (s.a : ℚ) / s.c) * (2 * 1)⁻¹) (2 * 1)⁻¹ _).1 hn
  refine ⟨t, ?_, ho, ?_⟩
  · unfold fromEquation
    rw [if_neg one_ne_zero]
    dsimp only
    rw [hd, if_neg hn, e]
    rfl
  · rw [hv, rootQ_scale, valC_coords, conj_coords, divInt_cast, divInt_cast]
    split
    · next hb =>
      have hb' : (0 : ℚ) ≤ s.b := by exact_mod_cast hb
      rw [abs_of_nonneg (by positivity)]
      push_cast
      field_simp
    · next hb =>
      have hb' : (s.b : ℚ) < 0 := by exact_mod_cast not_le.mp hb
      rw [abs_of_neg (div_neg_of_neg_of_pos (by linarith) hcp)]
      push_cast
      field_simp
      ring

example : fromEquation ⟨false, true⟩ 1 (-(2 * 3 / 4)) ((3 ^ 2 - 2 ^ 2 * 5) / 4 ^ 2) = .ok (some ⟨3, 2, 4, 5⟩) ∧
    fromEquation ⟨false, true⟩ 1 (-(2 * 3 / 4)) ((3 ^ 2 - (-2) ^ 2 * 5) / 4 ^ 2) = .ok (some ⟨3, 2, 4, 5⟩) := by
  decide +kernel

end Surd
end NumIrr
