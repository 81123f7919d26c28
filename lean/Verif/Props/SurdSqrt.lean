/-
C16-C19: surds from rationals, equations and square roots, and `reduced()`.
-/
import Verif.Lemmas.SurdSqrt
import Verif.Lemmas.SurdStrip
import Verif.Lemmas.SurdDecide
import Verif.Props.SurdNew
import Verif.Props.SurdRound

namespace NumIrr
open Surd

/-! ### C16 from_rationals, from_equation -/

/-- **C16** `from_rationals(a,b,r)` denotes `a + b√r`; it panics exactly for negative `r` without the
`complex` feature. -/
theorem surd_fromRationals_value (cfg : Cfg) (a b r : ℚ) :
    (¬ (cfg.complex = false ∧ r < 0) →
      ∃ s, Surd.fromRationals cfg a b r = .ok s ∧ s.valC = a + b * rootQ r ∧ s.Ok cfg) ∧
    (cfg.complex = false ∧ r < 0 → Surd.fromRationals cfg a b r = .error .negRoot) := by
  constructor
  · intro h
    exact fromRationals_spec a b (fun hc => by by_contra hn; exact h ⟨hc, not_le.mp hn⟩)
  · intro h; unfold Surd.fromRationals; rw [if_pos h]
example : Surd.fromRationals ⟨false, true⟩ (1/2) (2/3) (5/7) = .ok ⟨21, 4, 42, 35⟩ ∧
    Surd.fromRationals ⟨false, true⟩ (1/2) (2/3) (-5/7) = .error .negRoot ∧
    ¬ ((Cfg.mk false true).complex = false ∧ (5/7 : ℚ) < 0) := by decide +kernel

private theorem eq_root {a b c : ℚ} (ha : a ≠ 0) {x : ℂ}
    (hx : x = ((-b * (2 * a)⁻¹ : ℚ) : ℂ) + ((2 * a)⁻¹ : ℚ) * rootQ (b * b - 4 * a * c)) :
    (a:ℂ) * x ^ 2 + b * x + c = 0 := by
  have haC : (a:ℂ) ≠ 0 := by exact_mod_cast ha
  have hq := rootQ_sq (b * b - 4 * a * c)
  generalize rootQ (b * b - 4 * a * c) = w at *
  push_cast at hx hq
  have h2 : 2 * a * x + b = w := by rw [hx]; field_simp; ring
  have h4 : (4 * a : ℂ) * (a * x ^ 2 + b * x + c) = 0 := by
    linear_combination (2 * a * x + b + w) * h2 + hq
  rcases mul_eq_zero.mp h4 with h | h
  · exfalso; exact mul_ne_zero (by norm_num) haC h
  · exact h

private theorem fromEquation_main (cfg : Cfg) {a b c : ℚ} (ha : a ≠ 0)
    (h : ¬ (cfg.complex = false ∧ b * b - 4 * a * c < 0)) :
    ∃ s, Surd.fromEquation cfg a b c = .ok (some s) ∧ s.Ok cfg ∧
      s.valC = ((-b * (2 * a)⁻¹ : ℚ) : ℂ) + ((2 * a)⁻¹ : ℚ) * rootQ (b * b - 4 * a * c) := by
  unfold Surd.fromEquation
  rw [if_neg ha]
  simp only
  rw [if_neg h]
  obtain ⟨s, h1, h2, h3⟩ := (surd_fromRationals_value cfg (-b * (2 * a)⁻¹) (2 * a)⁻¹
    (b * b - 4 * a * c)).1 h
  rw [h1, ok_bind]
  exact ⟨s, rfl, h3, h2⟩

/-- **C16** `from_equation` never panics, and what it returns is a root. -/
theorem surd_fromEquation_root (cfg : Cfg) (a b c : ℚ) :
    ∃ o, Surd.fromEquation cfg a b c = .ok o ∧
      ∀ s, o = some s → s.Ok cfg ∧ (a:ℂ) * s.valC ^ 2 + b * s.valC + c = 0 := by
  by_cases ha : a = 0
  · unfold Surd.fromEquation
    rw [if_pos ha]
    by_cases hb : b = 0
    · rw [if_pos hb]; exact ⟨_, rfl, by simp⟩
    · rw [if_neg hb]
      refine ⟨_, rfl, ?_⟩
      rintro s ⟨⟩
      refine ⟨surd_ofRat_normal cfg _, ?_⟩
      rw [surd_ofRat_value, ha]
      have hbC : (b:ℂ) ≠ 0 := by exact_mod_cast hb
      push_cast; field_simp; ring
  · by_cases h : cfg.complex = false ∧ b * b - 4 * a * c < 0
    · unfold Surd.fromEquation
      rw [if_neg ha]; simp only
      rw [if_pos h]
      exact ⟨_, rfl, by simp⟩
    · obtain ⟨s, h1, h2, h3⟩ := fromEquation_main cfg ha h
      refine ⟨_, h1, ?_⟩
      rintro s' ⟨⟩
      exact ⟨h2, eq_root ha h3⟩
example : Surd.fromEquation ⟨true, true⟩ 1 1 1 = .ok (some ⟨-1, 1, 2, -3⟩) ∧
    Surd.fromEquation ⟨false, true⟩ 2 1 (-3/2) = .ok (some ⟨-1, 1, 4, 13⟩) := by decide +kernel

/-- **C16** `None` exactly for the degenerate equation or when there is no real root and the
`complex` feature is off. -/
theorem surd_fromEquation_none (cfg : Cfg) (a b c : ℚ) :
    Surd.fromEquation cfg a b c = .ok none ↔
      (a = 0 ∧ b = 0) ∨ (cfg.complex = false ∧ ∀ x : ℝ, (a:ℝ) * x ^ 2 + b * x + c ≠ 0) := by
  by_cases ha : a = 0
  · unfold Surd.fromEquation
    rw [if_pos ha]
    by_cases hb : b = 0
    · rw [if_pos hb]; simp [ha, hb]
    · rw [if_neg hb]
      constructor
      · intro h; simp at h
      · rintro (h | ⟨_, h⟩)
        · exact absurd h.2 hb
        · exfalso
          apply h (-c / b)
          have hbR : (b:ℝ) ≠ 0 := by exact_mod_cast hb
          rw [ha]; push_cast; field_simp; ring
  · have haR : (a:ℝ) ≠ 0 := by exact_mod_cast ha
    by_cases h : cfg.complex = false ∧ b * b - 4 * a * c < 0
    · unfold Surd.fromEquation
      rw [if_neg ha]; simp only
      rw [if_pos h]
      refine ⟨fun _ => .inr ⟨h.1, fun x hx => ?_⟩, fun _ => rfl⟩
      have hd : (b:ℝ) * b - 4 * a * c < 0 := by exact_mod_cast h.2
      have h5 : (b:ℝ) * b - 4 * a * c = (2 * a * x + b) * (2 * a * x + b) := by
        linear_combination (-4 * (a:ℝ)) * hx
      rw [h5] at hd
      exact absurd hd (not_lt.mpr (mul_self_nonneg _))
    · obtain ⟨s, h1, h2, h3⟩ := fromEquation_main cfg ha h
      rw [h1]
      constructor
      · intro e; simp at e
      · rintro (e | ⟨hc, e⟩)
        · exact absurd e.1 ha
        · exfalso
          have hd : 0 ≤ b * b - 4 * a * c := by
            by_contra hn; exact h ⟨hc, not_le.mp hn⟩
          have hdR : (0:ℝ) ≤ b * b - 4 * a * c := by exact_mod_cast hd
          apply e ((-b + Real.sqrt (b * b - 4 * a * c)) / (2 * a))
          have hs := Real.mul_self_sqrt hdR
          generalize Real.sqrt (b * b - 4 * a * c) = w at hs ⊢
          field_simp
          linear_combination hs

/-- **C16** "use `conj` for the other root" is false when both roots are rational: for
`x² - 3x + 2` the result is `2`, and so is its conjugate, while `1` is the other root. -/
theorem surd_fromEquation_conj_refuted : ∃ (cfg : Cfg) (a b c : ℚ) (s : Surd),
    Surd.fromEquation cfg a b c = .ok (some s) ∧ a ≠ 0 ∧
      ∃ z : ℂ, (a:ℂ) * z ^ 2 + b * z + c = 0 ∧ z ≠ s.valC ∧ z ≠ s.conj.valC := by
  refine ⟨⟨false, true⟩, 1, -3, 2, ⟨2, 0, 1, 0⟩, by decide +kernel, by norm_num, 1, by norm_num, ?_, ?_⟩
  · simp [Surd.valC, quadC]
  · simp [Surd.valC, quadC, Surd.conj, Surd.coeffs, Coeffs.conj]

/-- **C16** partial: if the discriminant is not the square of a rational (or is zero), the conjugate
is the other root, i.e. the polynomial factors over the two.  Missing from the full claim: rational
roots that differ. -/
theorem surd_fromEquation_conj_partial (cfg : Cfg) (a b c : ℚ) (s : Surd) (ha : a ≠ 0)
    (hd : ¬ IsSquare (b * b - 4 * a * c) ∨ b * b - 4 * a * c = 0)
    (h : Surd.fromEquation cfg a b c = .ok (some s)) (z : ℂ) :
    (a:ℂ) * z ^ 2 + b * z + c = a * (z - s.valC) * (z - s.conj.valC) := by
  have haC : (a:ℂ) ≠ 0 := by exact_mod_cast ha
  have hneg : ¬ (cfg.complex = false ∧ b * b - 4 * a * c < 0) := by
    intro hn
    unfold Surd.fromEquation at h
    rw [if_neg ha] at h; simp only at h
    rw [if_pos hn] at h; simp at h
  obtain ⟨s', h1, h2, h3⟩ := fromEquation_main cfg ha hneg
  rw [h] at h1; cases h1
  have hsum : s.valC + s.conj.valC = ((-b / a : ℚ) : ℂ) := by
    -- the rational coordinate of s is -b/2a
    have hco : (Rat.divInt s.a s.c : ℚ) = -b * (2 * a)⁻¹ := by
      rcases hd with hd | hd
      · have hsr : s.r ≠ 0 := by
          intro e
          rw [valC_of_r_zero h2.toNormal e] at h3
          apply hd
          refine ⟨2 * a * (Rat.divInt s.a s.c + b * (2 * a)⁻¹), ?_⟩
          have hq := rootQ_sq (b * b - 4 * a * c)
          have h4 : rootQ (b * b - 4 * a * c) = ((2 * a * (Rat.divInt s.a s.c + b * (2 * a)⁻¹) : ℚ) : ℂ) := by
            generalize Rat.divInt s.a s.c = u at *
            push_cast at h3 ⊢
            rw [h3]; field_simp; ring
          rw [h4] at hq
          exact_mod_cast hq.symm
        have hbne : Rat.divInt s.b s.c ≠ 0 := by
          rw [Ne, Rat.divInt_eq_zero h2.ne_zero]; exact fun e => hsr (h2.rational.mp e)
        have hk := rootC_num_den (b * b - 4 * a * c)
        obtain ⟨D, hD⟩ : ∃ D, D = b * b - 4 * a * c := ⟨_, rfl⟩
        rw [← hD] at h3 hk
        have hDd : (D.den : ℂ) ≠ 0 := by exact_mod_cast D.den_nz
        have h5 : ((-b * (2 * a)⁻¹ : ℚ) : ℂ) + (((2 * a)⁻¹ / D.den : ℚ) : ℂ) * rootC (D.num * D.den) =
            (Rat.divInt s.a s.c : ℚ) + (Rat.divInt s.b s.c : ℚ) * rootC s.r := by
          rw [← valC_coords s, h3, hk]; push_cast; field_simp
        exact (two_root_eq (h2.irrational hsr) hbne h5).1.symm
      · rw [hd] at h3
        have h0 : rootQ 0 = 0 := by simp [rootQ]
        rw [h0, mul_zero, add_zero] at h3
        have hsr : s.r = 0 := by
          by_contra hne
          refine valC_ne_of_rational (surd_ofRat_normal cfg (-b * (2*a)⁻¹)).toNormal h2.toNormal rfl hne ?_
          rw [surd_ofRat_value, h3]
        rw [valC_of_r_zero h2.toNormal hsr] at h3
        exact_mod_cast h3
    rw [valC_coords s, conj_coords s, hco]
    push_cast; field_simp; ring
  have hroot := eq_root ha h3
  have hc' : s.conj.valC = ((-b / a : ℚ) : ℂ) - s.valC := by linear_combination hsum
  rw [hc']; push_cast
  field_simp
  linear_combination hroot

example : Surd.fromEquation ⟨false, true⟩ 1 (-1) (-1) = .ok (some ⟨1, 1, 2, 5⟩) ∧
    ¬ IsSquare ((-1:ℚ) * (-1) - 4 * 1 * (-1)) ∧
    Surd.fromEquation ⟨false, true⟩ 1 1 1 = .ok none ∧
    Surd.fromRationals ⟨false, true⟩ (1/2) (2/3) (5/7) = .ok ⟨21, 4, 42, 35⟩ := by
  decide +kernel

/-! ### C17 from_sqrt on integers and rationals -/

/-- **C17** `from_sqrt` on an integer: the principal square root, and `Complex` exactly for negative
numbers without the `complex` feature. -/
theorem surd_fromSqrtInt (cfg : Cfg) (t : ℤ) :
    (cfg.complex = false ∧ t < 0 → Surd.fromSqrtInt cfg t = .ok (.error ⟨t, .complex⟩)) ∧
    (¬ (cfg.complex = false ∧ t < 0) → ∃ s, Surd.fromSqrtInt cfg t = .ok (.ok s) ∧ s.Ok cfg ∧
      (0 ≤ t → s.valC = ((Real.sqrt t : ℝ) : ℂ)) ∧
      (t < 0 → s.valC = Complex.I * ((Real.sqrt (-t) : ℝ) : ℂ))) := by
  unfold Surd.fromSqrtInt
  constructor
  · intro h; rw [if_pos h]
  · intro h
    rw [if_neg h]
    obtain ⟨s, h1, h2, h3, _⟩ := new_spec (cfg := cfg) (a := 0) (b := 1) (c := 1) (r := t)
      one_ne_zero (fun hc => by by_contra hn; exact h ⟨hc, not_le.mp hn⟩)
    rw [h1, ok_bind]
    refine ⟨s, rfl, h3, fun ht => ?_, fun ht => ?_⟩
    · rw [h2]; simp [quadC, rootC, ht]
    · rw [h2]; simp [quadC, rootC, not_le.mpr ht]
example : Surd.fromSqrtInt ⟨true, true⟩ (-18) = .ok (.ok ⟨0, 1, 1, -18⟩) ∧
    Surd.fromSqrtInt ⟨false, true⟩ (-18) = .ok (.error ⟨-18, .complex⟩) ∧
    Surd.fromSqrtInt ⟨false, true⟩ 14 = .ok (.ok ⟨0, 1, 1, 14⟩) := by decide +kernel

/-- **C17** `from_sqrt` on a rational: the principal square root, `Complex` exactly for negative
numbers without the `complex` feature, `Overflow` exactly if `numerator*denominator` does not fit the
integer type (and the number is not an integer). -/
theorem surd_fromSqrtRat (cfg : Cfg) (fits : ℤ → Bool) (t : ℚ) :
    (cfg.complex = false ∧ t < 0 → Surd.fromSqrtRat cfg fits t = .ok (.error ⟨t, .complex⟩)) ∧
    (¬ (cfg.complex = false ∧ t < 0) → t.den ≠ 1 → fits (t.num * t.den) = false →
      Surd.fromSqrtRat cfg fits t = .ok (.error ⟨t, .overflow⟩)) ∧
    (¬ (cfg.complex = false ∧ t < 0) → (t.den = 1 ∨ fits (t.num * t.den) = true) →
      ∃ s, Surd.fromSqrtRat cfg fits t = .ok (.ok s) ∧ s.Ok cfg ∧
      (0 ≤ t → s.valC = ((Real.sqrt t : ℝ) : ℂ)) ∧
      (t < 0 → s.valC = Complex.I * ((Real.sqrt (-t) : ℝ) : ℂ))) := by
  refine ⟨fromSqrtRat_neg, fun h h1 h2 => fromSqrtRat_overflow h h1 (by simp [h2]), fun h hf => ?_⟩
  obtain ⟨s, h1, h2, h3⟩ := fromSqrtRat_ok h hf
  refine ⟨s, h1, h3, fun ht => ?_, fun ht => ?_⟩
  · rw [h2, rootQ, if_pos ht]
  · rw [h2, rootQ, if_neg (not_le.mpr ht)]

example : Surd.fromSqrtRat ⟨false, true⟩ (fun n => decide (n ≤ 127)) (8/9) = .ok (.ok ⟨0, 1, 3, 8⟩) ∧
    Surd.fromSqrtRat ⟨false, true⟩ (fun n => decide (n ≤ 127)) (13/10) = .ok (.error ⟨13/10, .overflow⟩) ∧
    Surd.fromSqrtInt ⟨true, true⟩ (-18) = .ok (.ok ⟨0, 1, 1, -18⟩) := by
  decide +kernel

/-! ### C18 from_sqrt on surds -/

theorem fromSqrtSurd_spec (cfg : Cfg) (fits : ℤ → Bool) (t : Surd) (h : t.Ok cfg) :
    ∃ o, Surd.fromSqrtSurd cfg fits t = .ok o ∧ SqrtOut cfg fits t o := by
  unfold Surd.fromSqrtSurd
  have rest : (cfg.complex = false → 0 ≤ t.val) →
      ∃ o, (if t.isRational then fromSqrtSurdRat cfg fits t else fromSqrtSurdIrr cfg fits t)
        = .ok o ∧ SqrtOut cfg fits t o := by
    intro hnn
    by_cases hr : t.r = 0
    · rw [if_pos (h.isRational_iff.mpr hr)]
      have hR : t.RealOk := ⟨h.toNormal, hr.ge⟩
      have hvq := valC_of_r_zero h.toNormal hr
      unfold fromSqrtSurdRat
      have hto : toRational cfg t = .ok (.exact (t.a, t.c)) := by
        unfold toRational
        rw [panicIfComplex_ok hr.ge, ok_bind, if_pos hr]; rfl
      rw [hto, ok_bind]
      simp only
      obtain ⟨q, hq⟩ : ∃ q, q = Rat.divInt t.a t.c := ⟨_, rfl⟩
      rw [← hq] at hvq ⊢
      have hvr : t.val = q := by
        have := hR.valC; rw [hvq] at this; exact_mod_cast this.symm
      have hnc : ¬ (cfg.complex = false ∧ q < 0) := by
        rintro ⟨h1, h2⟩
        have := hnn h1
        rw [hvr] at this
        have : 0 ≤ q := by exact_mod_cast this
        exact absurd h2 (not_lt.mpr this)
      by_cases hf : q.den = 1 ∨ fits (q.num * q.den) = true
      · obtain ⟨s, h1, h2, h3⟩ := fromSqrtRat_ok hnc hf
        rw [h1, ok_bind]
        refine ⟨_, rfl, ⟨?_, by simp, by simp, by simp, by simp⟩⟩
        rintro s' ⟨⟩
        exact ⟨by rw [h2, rootQ_sq, hvq], h3, fun h' => absurd hr h', fun _ => by rw [h2, hq]⟩
      · push Not at hf
        rw [fromSqrtRat_overflow hnc hf.1 hf.2, ok_bind]
        refine ⟨_, rfl, ⟨by simp, ?_, ?_, ?_, ?_⟩⟩
        · rintro e ⟨⟩
          exact ⟨by rw [surd_ofRat_value, hvq], surd_ofRat_normal cfg q⟩
        · rintro e ⟨⟩ hk; cases hk
        · rintro e ⟨⟩ hk; exact ⟨_, by simpa using hf.2⟩
        · rintro e ⟨⟩ hk; cases hk
    · rw [if_neg (fun e => hr (h.isRational_iff.mp e))]
      exact fromSqrtSurdIrr_spec h hr
  cases hc : cfg.complex with
  | true =>
    simp only [if_true]
    rw [show (pure false : Res Bool) = .ok false from rfl, ok_bind]
    simp only [Bool.false_eq_true, if_false]
    exact rest (by simp [hc])
  | false =>
    simp only [Bool.false_eq_true, if_false]
    have hR : t.RealOk := ⟨h.toNormal, h.real hc⟩
    obtain ⟨b, hb, hbv⟩ := surd_isNegative cfg t hR
    rw [hb, ok_bind]
    cases b with
    | true =>
      have hneg := hbv.mp rfl
      simp only [if_true]
      refine ⟨_, rfl, ⟨by simp, ?_, ?_, ?_, ?_⟩⟩
      · rintro e ⟨⟩; exact ⟨rfl, h⟩
      · rintro e ⟨⟩ _; exact ⟨hc, hneg⟩
      · rintro e ⟨⟩ hk; cases hk
      · rintro e ⟨⟩ hk; cases hk
    | false =>
      simp only [Bool.false_eq_true, if_false]
      apply rest
      intro _
      by_contra hn
      have := hbv.mpr (not_le.mp hn)
      simp at this

/-- **C18** `from_sqrt` on a surd never panics; a returned surd squares to the argument. -/
theorem surd_fromSqrt_value (cfg : Cfg) (fits : ℤ → Bool) (t : Surd) (h : t.Ok cfg) :
    ∃ o, Surd.fromSqrtSurd cfg fits t = .ok o ∧
      ∀ s, o = .ok s → s.Ok cfg ∧ s.valC ^ 2 = t.valC := by
  obtain ⟨o, h1, h2⟩ := fromSqrtSurd_spec cfg fits t h
  refine ⟨o, h1, fun s hs => ?_⟩
  obtain ⟨h3, h4, _⟩ := h2.ok s hs
  exact ⟨h4, by rw [sq, h3]⟩
example : (Surd.mk 7 4 1 3).Ok ⟨false, true⟩ ∧
    Surd.fromSqrtSurd ⟨false, true⟩ (fun _ => true) ⟨7, 4, 1, 3⟩ = .ok (.ok ⟨2, 1, 1, 3⟩) := by decide +kernel

/-- **C18** `Unrepresentable` is only reported if no surd at all squares to the argument. -/
theorem surd_fromSqrt_unrepresentable (cfg : Cfg) (fits : ℤ → Bool) (t : Surd) (h : t.Ok cfg)
    (d : Surd) (he : Surd.fromSqrtSurd cfg fits t = .ok (.error ⟨d, .unrepresentable⟩)) :
    ∀ w : Surd, w.c ≠ 0 → w.valC ^ 2 ≠ t.valC := by
  obtain ⟨o, h1, h2⟩ := fromSqrtSurd_spec cfg fits t h
  rw [he] at h1; cases h1
  intro w _ e
  refine h2.unr _ rfl rfl (Rat.divInt w.a w.c) (Rat.divInt w.b w.c) w.r ?_
  rw [← valC_coords w, ← sq, e]
example : (Surd.mk 4 1 1 7).Ok ⟨false, true⟩ ∧
    Surd.fromSqrtSurd ⟨false, true⟩ (fun _ => true) ⟨4, 1, 1, 7⟩ =
      .ok (.error ⟨⟨4, 1, 1, 7⟩, .unrepresentable⟩) := by decide +kernel

/-- **C18** errors carry back the argument (as a surd denoting the same number, hence `==` to it);
`Complex` is reported exactly for negative numbers without the `complex` feature; `Overflow` only if
some integer does not fit the type. -/
theorem surd_fromSqrt_error (cfg : Cfg) (fits : ℤ → Bool) (t : Surd) (h : t.Ok cfg)
    (d : Surd) (k : SqrtErrKind) (he : Surd.fromSqrtSurd cfg fits t = .ok (.error ⟨d, k⟩)) :
    d.Ok cfg ∧ d.valC = t.valC ∧ Surd.eq d t = true ∧
      (k = .complex → cfg.complex = false ∧ t.val < 0) ∧
      (k = .overflow → ∃ n, fits n = false) := by
  obtain ⟨o, h1, h2⟩ := fromSqrtSurd_spec cfg fits t h
  rw [he] at h1; cases h1
  obtain ⟨h3, h4⟩ := h2.err _ rfl
  exact ⟨h4, h3, surd_eq_complete cfg d t h4 h h3, fun hk => h2.cpx _ rfl hk, fun hk => h2.ovf _ rfl hk⟩
example : (Surd.mk (-4) 1 1 7).Ok ⟨false, true⟩ ∧
    Surd.fromSqrtSurd ⟨false, true⟩ (fun _ => true) ⟨-4, 1, 1, 7⟩ =
      .ok (.error ⟨⟨-4, 1, 1, 7⟩, .complex⟩) := by decide +kernel

/-- **C18** `Complex` is reported for every negative real surd without the `complex` feature. -/
theorem surd_fromSqrt_complex (cfg : Cfg) (fits : ℤ → Bool) (t : Surd) (h : t.Ok cfg)
    (hc : cfg.complex = false) (hn : t.val < 0) :
    Surd.fromSqrtSurd cfg fits t = .ok (.error ⟨t, .complex⟩) := by
  unfold Surd.fromSqrtSurd
  obtain ⟨b, hb, hbv⟩ := surd_isNegative cfg t ⟨h.toNormal, h.real hc⟩
  have : b = true := hbv.mpr hn
  subst this
  simp only [hc, Bool.false_eq_true, if_false]
  rw [hb, ok_bind]; rfl

/-- **C18** with an unbounded integer type `from_sqrt` is complete: it returns a surd whenever some
surd squares to the (non-negative, or `complex` enabled) argument. -/
theorem surd_fromSqrt_complete (cfg : Cfg) (fits : ℤ → Bool) (hfit : ∀ n, fits n = true)
    (t : Surd) (h : t.Ok cfg) (hnn : cfg.complex = false → 0 ≤ t.val) (w : Surd) (hw : w.c ≠ 0)
    (hwt : w.valC ^ 2 = t.valC) :
    ∃ s, Surd.fromSqrtSurd cfg fits t = .ok (.ok s) ∧ s.Ok cfg ∧
      (s.valC = w.valC ∨ s.valC = -w.valC) := by
  obtain ⟨o, h1, h2⟩ := fromSqrtSurd_spec cfg fits t h
  cases o with
  | ok s =>
    obtain ⟨h3, h4, _⟩ := h2.ok s rfl
    refine ⟨s, h1, h4, ?_⟩
    rw [← sq_eq_sq_iff_eq_or_eq_neg, sq, h3, hwt]
  | error e =>
    exfalso
    obtain ⟨d, k⟩ := e
    cases k with
    | overflow => obtain ⟨n, hn⟩ := h2.ovf _ rfl rfl; rw [hfit] at hn; cases hn
    | complex =>
      obtain ⟨hc, hn⟩ := h2.cpx _ rfl rfl
      exact absurd hn (not_lt.mpr (hnn hc))
    | unrepresentable => exact surd_fromSqrt_unrepresentable cfg fits t h d h1 w hw hwt

/-- **C18** the returned root need not be the non-negative one: `from_sqrt(3-2√2)` is `1-√2`. -/
theorem surd_fromSqrt_nonneg_refuted : ∃ (cfg : Cfg) (fits : ℤ → Bool) (t s : Surd), t.RealOk ∧
    Surd.fromSqrtSurd cfg fits t = .ok (.ok s) ∧ s.RealOk ∧ s.val < 0 := by
  refine ⟨⟨false, true⟩, fun _ => true, ⟨3, -2, 1, 2⟩, ⟨1, -1, 1, 2⟩, by decide +kernel,
    by decide +kernel, by decide +kernel, ?_⟩
  have h2 : (1.4:ℝ) < Real.sqrt 2 := Real.lt_sqrt_of_sq_lt (by norm_num)
  have hv : Surd.val ⟨1, -1, 1, 2⟩ = 1 - Real.sqrt 2 := by simp [Surd.val, quadR]; ring
  rw [hv]; linarith

/-- **C18** partial: the non-negative (principal) root is returned for rational surds, for surds with
positive square root coefficient, and for complex surds.  Missing from the full claim: real surds
`a - b√r` with `b > 0`, where the sign may be wrong. -/
theorem surd_fromSqrt_nonneg_partial (cfg : Cfg) (fits : ℤ → Bool) (t s : Surd) (h : t.Ok cfg)
    (ht : 0 ≤ t.b ∨ t.r < 0) (hs : Surd.fromSqrtSurd cfg fits t = .ok (.ok s)) :
    0 ≤ s.valC.re ∧ (s.valC.re = 0 → 0 ≤ s.valC.im) := by
  obtain ⟨o, h1, h2⟩ := fromSqrtSurd_spec cfg fits t h
  rw [hs] at h1; cases h1
  obtain ⟨h3, h4, h5, h6⟩ := h2.ok s rfl
  by_cases hr : t.r = 0
  · rw [h6 hr, rootQ]
    split
    · simp [Real.sqrt_nonneg]
    · simp [Real.sqrt_nonneg]
  · obtain ⟨p, q, e, hp, hq, hqb⟩ := h5 hr
    have hpR : (0:ℝ) < p := by exact_mod_cast hp
    rcases lt_or_gt_of_ne hr with hneg | hpos
    · have : s.valC.re = p := by
        rw [e, rootC, if_neg (not_le.mpr hneg)]; simp
      rw [this]
      exact ⟨hpR.le, fun h0 => absurd h0 hpR.ne'⟩
    · have hb : 0 < t.b := by
        have h7 := ht.resolve_right (by omega)
        have h8 : t.b ≠ 0 := fun e => hr (h.rational.mp e)
        omega
      have hqR : (0:ℝ) < q := by exact_mod_cast hqb.mpr hb
      have : s.valC.re = p + q * Real.sqrt t.r := by
        rw [e, rootC, if_pos hpos.le]; simp
      rw [this]
      have := Real.sqrt_nonneg (t.r : ℝ)
      have : 0 < p + q * Real.sqrt t.r := by positivity
      exact ⟨this.le, fun h0 => absurd h0 this.ne'⟩

/-- √(7+4√3) = 2+√3 and √(4+√7) is not a surd. -/
example : (Surd.mk 7 4 1 3).RealOk ∧
    Surd.fromSqrtSurd ⟨false, true⟩ (fun _ => true) ⟨7, 4, 1, 3⟩ = .ok (.ok ⟨2, 1, 1, 3⟩) ∧
    Surd.fromSqrtSurd ⟨false, true⟩ (fun _ => true) ⟨4, 1, 1, 7⟩ =
      .ok (.error ⟨⟨4, 1, 1, 7⟩, .unrepresentable⟩) ∧
    Surd.fromSqrtSurd ⟨true, true⟩ (fun _ => true) ⟨3, 4, 1, -1⟩ = .ok (.ok ⟨2, 1, 1, -1⟩) := by
  decide +kernel

/-! ### C19 reduced -/

/-- **C19** is false: `reduced()` never returns on a rational surd (for any integer type that holds
2 and 4): no number of loop iterations is enough. -/
theorem surd_reduced_hangs (fits : ℤ → Bool) (h2 : fits 2 = true) (h4 : fits 4 = true) (s : Surd)
    (hr : s.r = 0) : ∀ fuel, Surd.reduced fuel fits s = none := by
  intro fuel
  unfold Surd.reduced smallPrimes
  rw [stripAll, if_pos h2, if_pos (by exact h4), hr, stripLoop_hang]
example : Surd.new ⟨false, true⟩ 4 0 6 5 = .ok ⟨2, 0, 3, 0⟩ ∧
    (decide (-128 ≤ (2 : ℤ) ∧ (2 : ℤ) ≤ 127)) = true ∧ (decide (-128 ≤ (4 : ℤ) ∧ (4 : ℤ) ≤ 127)) = true := by
  decide +kernel

/-- **C19** for an 8-bit integer type `reduced()` panics on every irrational surd: the table holds
primes that do not fit. -/
theorem surd_reduced_i8_panics : ∃ (s : Surd) (fuel : ℕ), s.RealOk ∧
    Surd.reduced fuel (fun n => decide (-128 ≤ n ∧ n ≤ 127)) s = some (.error .unwrapNone) :=
  ⟨⟨0, 1, 1, 2⟩, 1, by decide +kernel⟩

/-- **C19** partial: on an irrational surd, over an integer type that holds the primes up to 251,
`reduced()` terminates, keeps the value and the normal form, and leaves a root not divisible by the
square of any prime `≤ 251` (whose square fits the type).  Missing from the full claim: rational
surds and 8-bit integers. -/
theorem surd_reduced_partial (cfg : Cfg) (fits : ℤ → Bool)
    (hf : ∀ p : ℤ, 0 ≤ p → p ≤ 251 → fits p = true) (s : Surd)
    (h : s.Ok cfg) (hr : s.r ≠ 0) :
    ∃ t N, (∀ fuel, N ≤ fuel → Surd.reduced fuel fits s = some (.ok t)) ∧ t.Ok cfg ∧
      t.valC = s.valC ∧ t.r ≠ 0 ∧
      ∀ p : ℕ, p.Prime → p ≤ 251 → fits (p * p) = true → ¬ (p * p : ℤ) ∣ t.r := by
  obtain ⟨⟨b', r'⟩, h1, ⟨k, hk, e1, e2⟩, h3⟩ := stripAll_spec (fits := fits) smallPrimes
    smallPrimes_gt (fun p hp => hf p (by have := smallPrimes_gt p hp; omega) (smallPrimes_le p hp))
    s.r.natAbs s.b s.r hr le_rfl
  simp only at e1 e2
  have hb : s.b ≠ 0 := fun e => hr (h.rational.mp e)
  have hb' : b' ≠ 0 := by rw [e1]; exact mul_ne_zero hb hk.ne'
  have hr's : ¬ IsSquare r' := by
    rintro ⟨m, hm⟩
    exact h.irrational hr ⟨k * m, by rw [e2, hm]; ring⟩
  obtain ⟨t, g1, g2, g3, g4⟩ := reduce_spec (s := ⟨s.a, b', s.c, r'⟩) h.ne_zero
  have g5 : ∃ l : ℤ, 0 < l ∧ r' = l * l * t.r := by
    rcases g4 with ⟨_, g4⟩ | ⟨_, _, g4⟩
    · rcases g4 with g4 | g4
      · exact absurd g4 hb'
      · exact absurd g4 hr's
    · exact g4
  obtain ⟨l, hl, e3⟩ := g5
  have ht0 : t.r ≠ 0 := by
    intro e; rw [e, mul_zero] at e3; exact not_isSquare_ne_zero hr's e3
  have hr2 : s.r = (k * l) * (k * l) * t.r := by rw [e2, e3]; ring
  refine ⟨t, s.r.natAbs + 1, ?_, ⟨g3, ?_⟩, ?_, ht0, ?_⟩
  · intro fuel hfu
    unfold Surd.reduced
    rw [h1 fuel (by omega)]
    simp only
    rw [g1]
  · intro hc
    have h5 := h.real hc
    rw [hr2] at h5
    have : 0 < (k * l) * (k * l) := by have := mul_pos hk hl; positivity
    exact nonneg_of_mul_nonneg_right h5 this
  · rw [g2]
    unfold Surd.valC
    simp only
    rw [e1, ← quadC_root_move hk.le, ← e2]
  · intro p hp hple hpp hd
    exact h3 p (mem_smallPrimes hp hple) hpp (hd.trans ⟨l * l, by rw [e3]; ring⟩)

example : (Surd.mk 1 1 2 72).Ok ⟨false, true⟩ ∧
    Surd.reduced 100 (fun _ => true) ⟨1, 1, 2, 72⟩ = some (.ok ⟨1, 6, 2, 2⟩) := by
  decide +kernel

end NumIrr
