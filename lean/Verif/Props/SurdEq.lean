/-
C03, C04: `==` and `Hash` of quadratic surds.
-/
import Verif.Lemmas.SurdEq
import Verif.Lemmas.SurdDecide

namespace NumIrr
open Surd

private theorem val_sqrt8 : Surd.val ⟨0, 1, 1, 8⟩ = 2 * Real.sqrt 2 := by
  have : Real.sqrt 8 = 2 * Real.sqrt 2 := by
    rw [show (8:ℝ) = 2 * 2 * 2 by norm_num, Real.sqrt_mul (by norm_num), Real.sqrt_mul_self (by norm_num)]
  simp [Surd.val, quadR, this]

/-- **C03** is false: `√8 == -2√2` although the numbers have different signs. -/
theorem surd_eq_refuted : ∃ (x y : Surd), x.RealOk ∧ y.RealOk ∧
    Surd.eq x y = true ∧ x.val ≠ y.val := by
  refine ⟨⟨0, 1, 1, 8⟩, ⟨0, -2, 1, 2⟩, by decide +kernel, by decide +kernel, by decide +kernel, ?_⟩
  rw [val_sqrt8]
  have h : Surd.val ⟨0, -2, 1, 2⟩ = -(2 * Real.sqrt 2) := by simp [Surd.val, quadR]
  rw [h]
  have : 0 < Real.sqrt 2 := Real.sqrt_pos.mpr (by norm_num)
  linarith

/-- **C03** one direction holds for all surds: equal numbers compare equal. -/
theorem surd_eq_complete (cfg : Cfg) (x y : Surd) (hx : x.Ok cfg) (hy : y.Ok cfg)
    (h : x.valC = y.valC) : Surd.eq x y = true := by
  by_cases hr : x.r = y.r
  · obtain ⟨h1, h2, h3⟩ := fields_of_valC_eq hx.toNormal hy.toNormal hr h
    unfold Surd.eq; rw [if_pos hr]; simp [h1, h2, h3]
  by_cases hx0 : x.r = 0
  · exact absurd h (valC_ne_of_rational hx.toNormal hy.toNormal hx0 (fun e => hr (hx0.trans e.symm)))
  by_cases hy0 : y.r = 0
  · exact absurd h.symm (valC_ne_of_rational hy.toNormal hx.toNormal hy0 hx0)
  rw [eq_diff_iff hx.toNormal hy.toNormal hr hx0 hy0]
  have hb : Rat.divInt y.b y.c ≠ 0 := by
    rw [Ne, Rat.divInt_eq_zero hy.ne_zero]
    exact fun e => hy0 (hy.rational.mp e)
  rw [valC_coords x, valC_coords y] at h
  obtain ⟨h1, h2⟩ := two_root_eq (hy.irrational hy0) hb h
  exact ⟨h1, by rw [h2]⟩
example : (Surd.mk 1 1 1 18).Ok ⟨false, true⟩ ∧ (Surd.mk 1 3 1 2).Ok ⟨false, true⟩ ∧
    Surd.eq ⟨1, 1, 1, 18⟩ ⟨1, 3, 1, 2⟩ = true := by decide +kernel

/-- **C03** partial: exactly what `==` decides.  `x == y` iff the numbers are equal, or the two roots
are different and `x` equals the *conjugate* of `y`.
Missing from the full claim: the second alternative (a false positive) is possible. -/
theorem surd_eq_partial (cfg : Cfg) (x y : Surd) (hx : x.Ok cfg) (hy : y.Ok cfg) :
    Surd.eq x y = true ↔
      x.valC = y.valC ∨ (x.r ≠ y.r ∧ x.valC = (Surd.conj y).valC) := by
  constructor
  · intro h
    by_cases hr : x.r = y.r
    · left
      unfold Surd.eq at h; rw [if_pos hr] at h
      obtain ⟨h1, h2, h3⟩ := of_decide_eq_true h
      unfold Surd.valC; rw [h1, h2, h3, hr]
    by_cases hx0 : x.r = 0
    · unfold Surd.eq at h; rw [if_neg hr, if_pos (.inl hx0)] at h; cases h
    by_cases hy0 : y.r = 0
    · unfold Surd.eq at h; rw [if_neg hr, if_pos (.inr hy0)] at h; cases h
    rw [eq_diff_iff hx.toNormal hy.toNormal hr hx0 hy0] at h
    rw [conj_coords, valC_coords x, valC_coords y, h.1]
    rcases sq_eq_sq_iff_eq_or_eq_neg.mp h.2 with e | e
    · left; rw [e]
    · right; refine ⟨hr, ?_⟩; rw [e]; ring
  · rintro (h | ⟨hr, h⟩)
    · exact surd_eq_complete cfg x y hx hy h
    · by_cases hx0 : x.r = 0
      · exfalso
        have hy0 : y.r ≠ 0 := fun e => hr (hx0.trans e.symm)
        have hcn : (Surd.conj y).Normal := by
          refine ⟨hy.c_pos, ?_, ?_, hy.irrational⟩
          · intro d h1 h2 h3
            exact hy.coprime d h1 (by simpa [Surd.conj, Coeffs.conj, Surd.coeffs] using h2) h3
          · simpa [Surd.conj, Coeffs.conj, Surd.coeffs] using hy.rational
        exact valC_ne_of_rational hx.toNormal hcn hx0 hy0 h
      by_cases hy0 : y.r = 0
      · exfalso
        have hb := hy.rational.mpr hy0
        have : (Surd.conj y).valC = y.valC := by
          unfold Surd.conj Coeffs.conj Surd.coeffs Surd.valC quadC; simp [hb]
        rw [this] at h
        exact valC_ne_of_rational hy.toNormal hx.toNormal hy0 hx0 h.symm
      rw [eq_diff_iff hx.toNormal hy.toNormal hr hx0 hy0]
      rw [conj_coords, valC_coords x] at h
      have hb : -(Rat.divInt y.b y.c) ≠ 0 := by
        rw [Ne, neg_eq_zero, Rat.divInt_eq_zero hy.ne_zero]
        exact fun e => hy0 (hy.rational.mp e)
      obtain ⟨h1, h2⟩ := two_root_eq (r := x.r) (p := Rat.divInt x.a x.c) (q := Rat.divInt x.b x.c)
        (p' := Rat.divInt y.a y.c) (hy.irrational hy0) hb (by rw [h]; push_cast; ring)
      refine ⟨h1, ?_⟩
      rw [h2]; push_cast; ring
example : (Surd.mk 1 1 1 18).Ok ⟨false, true⟩ ∧ (Surd.mk 1 (-3) 1 2).Ok ⟨false, true⟩ ∧
    Surd.eq ⟨1, 1, 1, 18⟩ ⟨1, -3, 1, 2⟩ = true ∧ Surd.eq ⟨1, 1, 1, 18⟩ ⟨2, 3, 1, 2⟩ = false := by decide +kernel

/-- **C03** on surds with the same root `==` is exactly numeric equality. -/
theorem surd_eq_same_root (cfg : Cfg) (x y : Surd) (hx : x.Ok cfg) (hy : y.Ok cfg)
    (hr : x.r = y.r) : Surd.eq x y = true ↔ x.valC = y.valC := by
  rw [surd_eq_partial cfg x y hx hy]
  simp [hr]
example : (Surd.mk 1 1 3 5).Ok ⟨false, true⟩ ∧ (Surd.mk 1 (-1) 3 5).Ok ⟨false, true⟩ ∧
    Surd.eq ⟨1, 1, 3, 5⟩ ⟨1, -1, 3, 5⟩ = false := by decide +kernel

/-- **C04** reflexive and symmetric. -/
theorem surd_eq_refl (x : Surd) : Surd.eq x x = true := by simp [Surd.eq]

theorem surd_eq_symm (x y : Surd) (h : Surd.eq x y = true) : Surd.eq y x = true := by
  unfold Surd.eq at h ⊢
  split at h
  · next hr => rw [if_pos hr.symm]; simp only [decide_eq_true_eq] at h ⊢; tauto
  · next hr =>
    rw [if_neg (fun e => hr e.symm)]
    split at h
    · cases h
    · next h0 =>
      rw [if_neg (by tauto)]
      split at h
      · cases h
      · next ha =>
        push Not at ha
        rw [if_neg (by push Not; exact ha.symm)]
        simp only [decide_eq_true_eq] at h ⊢
        exact h.symm

/-- **C04** is false: `==` is not transitive (`2√2 == √8`, `√8 == -2√2`, `2√2 ≠ -2√2`) ... -/
theorem surd_eq_trans_refuted : ∃ (x y z : Surd), x.RealOk ∧ y.RealOk ∧ z.RealOk ∧
    Surd.eq x y = true ∧ Surd.eq y z = true ∧ Surd.eq x z = false :=
  ⟨⟨0, 2, 1, 2⟩, ⟨0, 1, 1, 8⟩, ⟨0, -2, 1, 2⟩, by decide +kernel⟩

/-- **C04** ... and equal surds can have different fields, which is what the derived `Hash` feeds to
the hasher (in declaration order `coeffs.0, coeffs.1, coeffs.2, discr`). -/
theorem surd_hash_refuted : ∃ (x y : Surd), x.RealOk ∧ y.RealOk ∧ Surd.eq x y = true ∧
    x.val = y.val ∧ (x.a, x.b, x.c, x.r) ≠ (y.a, y.b, y.c, y.r) := by
  refine ⟨⟨0, 1, 1, 8⟩, ⟨0, 2, 1, 2⟩, by decide +kernel, by decide +kernel, by decide +kernel, ?_,
    by decide⟩
  rw [val_sqrt8]; simp [Surd.val, quadR]

/-- **C04** partial: on surds with one common root `==` is an equivalence relation and agrees with
`Hash` (equal fields).
Missing from the full claim: surds with different roots. -/
theorem surd_eq_equivalence_partial (x y z : Surd) (hxy : x.r = y.r) (hyz : y.r = z.r) :
    (Surd.eq x y = true ↔ (x.a, x.b, x.c, x.r) = (y.a, y.b, y.c, y.r)) ∧
    (Surd.eq x y = true → Surd.eq y z = true → Surd.eq x z = true) := by
  have h1 : ∀ u v : Surd, u.r = v.r → (Surd.eq u v = true ↔ (u.a, u.b, u.c, u.r) = (v.a, v.b, v.c, v.r)) := by
    intro u v h
    unfold Surd.eq; rw [if_pos h]; simp [h]
  refine ⟨h1 x y hxy, ?_⟩
  rw [h1 x y hxy, h1 y z hyz, h1 x z (hxy.trans hyz)]
  exact Eq.trans

example : (Surd.mk 1 1 1 18).RealOk ∧ (Surd.mk 1 3 1 2).RealOk ∧
    Surd.eq ⟨1, 1, 1, 18⟩ ⟨1, 3, 1, 2⟩ = true ∧ Surd.eq ⟨1, 1, 1, 18⟩ ⟨2, 3, 1, 2⟩ = false := by
  decide +kernel

end NumIrr
