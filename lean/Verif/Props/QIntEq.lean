/-
C54 (equality of quadratic integers) and C21 (conversion of surds to quadratic and Gaussian integers).
-/
import Verif.Props.QIntArith
import Verif.Props.SurdClass
import Verif.Props.SurdRound

namespace NumIrr
open QInt

/-! ### C54 -/

/-- **C54** is false: `√18 == -3√2` holds although the numbers are opposite, and
`(3+√2)/3 == 1` is false although both are the number 1. -/
theorem qint_eq_refuted :
    (∃ x y : QInt, QInt.new ⟨false, true⟩ 0 1 18 = .ok x ∧ QInt.new ⟨false, true⟩ 0 (-3) 2 = .ok y ∧
      QInt.eq x y = .ok true ∧ x.valC ≠ y.valC) ∧
    (∃ x y : QInt, QInt.new ⟨false, true⟩ 3 1 2 = .ok x ∧ x.divInt 3 = .ok y ∧
      QInt.eq y QInt.one = .ok false ∧ y.valC = QInt.one.valC) := by
  refine ⟨⟨⟨0, 1, 18⟩, ⟨0, -3, 2⟩, by decide +kernel, by decide +kernel, by decide +kernel, ?_⟩,
    ⟨⟨3, 1, 2⟩, ⟨1, 0, 2⟩, by decide +kernel, by decide +kernel, by decide +kernel, by simp [valC, one]⟩⟩
  intro h
  have e18 : rootC 18 = 3 * rootC 2 := by
    have := rootC_sq_mul (k := 3) (by norm_num) 2; simpa using this
  have h2 := rootC_mul_self 2
  simp only [valC, omegaC] at h
  norm_num at h
  rw [e18] at h
  have : rootC 2 = 0 := by linear_combination h / 6
  rw [this] at h2; norm_num at h2

theorem partsDoubled_spec {cfg : Cfg} {x : QInt} (hx : x.Ok cfg) (hd : x.d ≠ 0) :
    ∃ p q : ℤ, x.partsDoubled = .ok (p, q) ∧ x.valC = ((p / 2 : ℚ) : ℂ) + ((q / 2 : ℚ) : ℂ) * rootC x.d ∧
      (q = 0 ↔ x.b = 0) := by
  unfold partsDoubled
  rw [mod4d2_eq, if_neg (hx.mod4 hd)]
  by_cases h1 : x.d % 4 = 1
  · rw [if_pos h1]
    refine ⟨_, _, rfl, ?_, Iff.rfl⟩
    unfold valC omegaC; rw [if_pos h1]; push_cast; ring
  · rw [if_neg h1]
    refine ⟨_, _, rfl, ?_, by omega⟩
    unfold valC omegaC; rw [if_neg h1]; push_cast; ring

/-- **C54** `==` never panics. -/
theorem qint_eq_returns (cfg : Cfg) (x y : QInt) (hx : x.Ok cfg) (hy : y.Ok cfg) :
    ∃ b, QInt.eq x y = .ok b := by
  unfold QInt.eq
  split
  · exact ⟨_, rfl⟩
  · split
    · exact ⟨_, rfl⟩
    · next h =>
      push Not at h
      obtain ⟨p, q, e, -⟩ := partsDoubled_spec hx h.1
      obtain ⟨p', q', e', -⟩ := partsDoubled_spec hy h.2
      rw [e, e']; exact ⟨_, rfl⟩
example : QInt.eq ⟨1, 1, 18⟩ ⟨1, 3, 2⟩ = .ok true ∧ QInt.eq ⟨1, 1, 18⟩ ⟨1, 3, 5⟩ = .ok false := by decide +kernel

/-- **C54** partial, operands with the same discriminant: `==` is numeric equality.
Missing from the full claim: different discriminants (see `qint_eq_sound_partial`, `qint_eq_complete_partial`). -/
theorem qint_eq_same_discr_partial (cfg : Cfg) (x y : QInt) (hx : x.Ok cfg) (hy : y.Ok cfg) (hd : x.d = y.d) :
    QInt.eq x y = .ok true ↔ x.valC = y.valC := by
  unfold QInt.eq
  rw [if_pos hd]
  simp only [Except.ok.injEq, decide_eq_true_eq]
  constructor
  · rintro ⟨h1, h2⟩; unfold valC; rw [h1, h2, hd]
  · intro h
    by_cases h0 : x.d = 0
    · have hxb := hx.rational h0
      have hyb := hy.rational (hd ▸ h0)
      rw [valC_rational hxb, valC_rational hyb] at h
      exact ⟨by exact_mod_cast h, by rw [hxb, hyb]⟩
    · unfold valC at h
      rw [← hd] at h
      have := omega_coeff_eq (hx.irrational h0) (x := x.a) (y := x.b) (x' := y.a) (y' := y.b)
        (by push_cast; exact h)
      exact ⟨by exact_mod_cast this.1, by exact_mod_cast this.2⟩
example : QInt.new ⟨false, true⟩ 1 1 18 = .ok ⟨1, 1, 18⟩ ∧ QInt.new ⟨false, true⟩ 1 (-1) 18 = .ok ⟨1, -1, 18⟩ ∧
    QInt.eq ⟨1, 1, 18⟩ ⟨1, -1, 18⟩ = .ok false := by decide +kernel

/-- **C54** partial: operands that compare equal are the same number or conjugate numbers.
Missing from the full claim: conjugates with different discriminants also compare equal. -/
theorem qint_eq_sound_partial (cfg : Cfg) (x y : QInt) (hx : x.Ok cfg) (hy : y.Ok cfg)
    (h : QInt.eq x y = .ok true) :
    x.valC = y.valC ∨ ∃ c, y.conj = .ok c ∧ x.valC = c.valC := by
  by_cases hd : x.d = y.d
  · left; exact (qint_eq_same_discr_partial cfg x y hx hy hd).mp h
  · unfold QInt.eq at h
    rw [if_neg hd] at h
    split at h
    · cases h
    · next h0 =>
      push Not at h0
      obtain ⟨p, q, e, ev, -⟩ := partsDoubled_spec hx h0.1
      obtain ⟨p', q', e', ev', -⟩ := partsDoubled_spec hy h0.2
      rw [e, e'] at h
      have h := Except.ok.inj h
      simp only [decide_eq_true_eq] at h
      obtain ⟨hp, hq⟩ := h
      have hqC : (q : ℂ) * q * x.d = q' * q' * y.d := by exact_mod_cast hq
      have r1 := rootC_mul_self x.d
      have r2 := rootC_mul_self y.d
      have : ((q : ℂ) * rootC x.d - q' * rootC y.d) * (q * rootC x.d + q' * rootC y.d) = 0 := by
        linear_combination q * q * r1 - q' * q' * r2 + hqC
      rcases mul_eq_zero.mp this with h | h
      · left
        rw [ev, ev', hp]; push_cast
        linear_combination h / 2
      · right
        obtain ⟨c, hc, -, -, hcv⟩ := qint_conj cfg y hy
        refine ⟨c, hc, ?_⟩
        rw [hcv _ _ ev' h0.2, ev, hp]; push_cast
        linear_combination h / 2

/-- **C54** partial: equal numbers compare equal when rational ones are stored with `d = 0`.
Missing from the full claim: rational numbers stored with another `d` (they arise from division). -/
theorem qint_eq_complete_partial (cfg : Cfg) (x y : QInt) (hx : x.Ok cfg) (hy : y.Ok cfg)
    (hxn : x.b = 0 → x.d = 0) (hyn : y.b = 0 → y.d = 0) (h : x.valC = y.valC) :
    QInt.eq x y = .ok true := by
  by_cases hd : x.d = y.d
  · exact (qint_eq_same_discr_partial cfg x y hx hy hd).mpr h
  · have hrat : x.b = 0 ↔ y.b = 0 := by
      rw [← isRational_iff, ← isRational_iff, qint_isRational cfg x hx, qint_isRational cfg y hy, h]
    have hxb : x.b ≠ 0 := fun e => hd (by rw [hxn e, hyn (hrat.mp e)])
    have hyb : y.b ≠ 0 := fun e => hxb (hrat.mpr e)
    have h0 : x.d ≠ 0 := fun e => hxb (hx.rational e)
    have h0' : y.d ≠ 0 := fun e => hyb (hy.rational e)
    obtain ⟨p, q, e, ev, eb⟩ := partsDoubled_spec hx h0
    obtain ⟨p', q', e', ev', eb'⟩ := partsDoubled_spec hy h0'
    unfold QInt.eq
    rw [if_neg hd, if_neg (by tauto), e, e']
    simp only [bind, Except.bind, pure, Except.pure, Except.ok.injEq, decide_eq_true_eq]
    rw [ev, ev'] at h
    push_cast at h
    have r1 := rootC_mul_self x.d
    have r2 := rootC_mul_self y.d
    have hq' : (q' : ℚ) ≠ 0 := by
      have : q' ≠ 0 := fun e => hyb (eb'.mp e)
      exact_mod_cast this
    have lin : ((((p':ℚ) - p) ^ 2 + q' ^ 2 * y.d - q ^ 2 * x.d : ℚ) : ℂ) +
        ((2 * ((p':ℚ) - p) * q' : ℚ) : ℂ) * rootC y.d = 0 := by
      push_cast
      have : (q : ℂ) * rootC x.d = (p' - p) + q' * rootC y.d := by linear_combination 2 * h
      linear_combination (-(p' - p : ℂ) - q' * rootC y.d - q * rootC x.d) * this
        + (q : ℂ) ^ 2 * r1 - (q' : ℂ) ^ 2 * r2
    obtain ⟨l1, l2⟩ := root_lin_indep (hy.irrational h0') lin
    have e0 : (p':ℚ) = p := by
      rcases mul_eq_zero.mp l2 with h | h
      · linarith
      · exact absurd h hq'
    rw [e0] at l1
    refine ⟨by exact_mod_cast e0.symm, ?_⟩
    have : (q:ℚ) * q * x.d = q' * q' * y.d := by linarith
    exact_mod_cast this

example : (∃ x y, QInt.new ⟨false, true⟩ 1 1 18 = .ok x ∧ QInt.new ⟨false, true⟩ 1 3 2 = .ok y ∧
    QInt.eq x y = .ok true) :=
  ⟨⟨1, 1, 18⟩, ⟨1, 3, 2⟩, by decide +kernel, by decide +kernel, by decide +kernel⟩

/-! ### C21 -/

/-- **C21** is false for `to_quadint`: it panics for every rational surd, and for `√-8`. -/
theorem surd_toQuadint_refuted :
    Surd.toQuadint ⟨false, true⟩ (Surd.ofInt 5) = .error .unreachable ∧
    (∃ s, Surd.new ⟨true, true⟩ 0 1 1 (-8) = .ok s ∧ Surd.toQuadint ⟨true, true⟩ s = .error .unreachable) :=
  ⟨by decide +kernel, ⟨0, 1, 1, -8⟩, by decide +kernel, by decide +kernel⟩

/-- **C21** partial: `to_quadint` returns exactly for irrational surds whose root is not a negative multiple
of 4; an `Exact` result is the same number, and it is `Exact` iff the denominator is 1.
Missing from the full claim: the panics of `surd_toQuadint_refuted`. -/
theorem surd_toQuadint_partial (cfg : Cfg) (s : Surd) (h : s.Ok cfg) :
    ((∃ t, Surd.toQuadint cfg s = .ok t) ↔ s.r ≠ 0 ∧ (s.r < 0 → s.r % 4 ≠ 0)) ∧
    (∀ t, Surd.toQuadint cfg s = .ok (.exact t) → t.valC = s.valC) ∧
    (∀ t, Surd.toQuadint cfg s = .ok (.approximated t) →
      t.valC = s.a.tdiv s.c + s.b.tdiv s.c * rootC s.r) := by
  have hret : ∀ a b, (∃ t, QInt.new cfg a b s.r = .ok t) ↔ s.r ≠ 0 ∧ (s.r < 0 → s.r % 4 ≠ 0) := by
    intro a b
    rw [qint_new_returns_iff]
    have := h.real
    constructor
    · rintro (h | ⟨_, h, h'⟩)
      · exact ⟨by omega, by omega⟩
      · exact ⟨by omega, fun _ => h'⟩
    · rintro ⟨h1, h2⟩
      rcases lt_trichotomy s.r 0 with h' | h' | h'
      · right
        refine ⟨?_, h', h2 h'⟩
        by_contra hc
        have := this (by simpa using hc); omega
      · exact absurd h' h1
      · exact .inl h'
  have hc := h.c_pos
  refine ⟨?_, ?_, ?_⟩
  · unfold Surd.toQuadint
    split
    · rw [← hret s.a s.b]
      constructor
      · rintro ⟨t, e⟩; obtain ⟨q, hq, -⟩ := bind_ok e; exact ⟨q, hq⟩
      · rintro ⟨q, hq⟩; rw [hq]; exact ⟨_, rfl⟩
    · rw [← hret (s.a.tdiv s.c) (s.b.tdiv s.c)]
      simp only [divR, if_neg hc.ne', bind, Except.bind]
      constructor
      · rintro ⟨t, e⟩; obtain ⟨q, hq, -⟩ := bind_ok e; exact ⟨q, hq⟩
      · rintro ⟨q, hq⟩; rw [hq]; exact ⟨_, rfl⟩
  · intro t e
    unfold Surd.toQuadint at e
    split at e
    · next hq =>
      obtain ⟨q, e', e⟩ := bind_ok e
      cases e
      have h1 : s.c = 1 := by simpa [Surd.isQuadint] using hq
      have hr := ((hret s.a s.b).mp ⟨_, e'⟩).1
      rw [(qint_new_value_partial cfg _ _ _ _ e').1 (h.irrational hr)]
      unfold Surd.valC quadC; rw [h1]; simp
    · simp only [divR, if_neg hc.ne', bind, Except.bind] at e
      obtain ⟨q, e', e⟩ := bind_ok e
      cases e
  · intro t e
    unfold Surd.toQuadint at e
    split at e
    · obtain ⟨q, e', e⟩ := bind_ok e
      cases e
    · simp only [divR, if_neg hc.ne', bind, Except.bind] at e
      obtain ⟨q, e', e⟩ := bind_ok e
      cases e
      have hr := ((hret _ _).mp ⟨_, e'⟩).1
      exact (qint_new_value_partial cfg _ _ _ _ e').1 (h.irrational hr)

example : Surd.toQuadint ⟨false, true⟩ ⟨3, 2, 1, 5⟩ = .ok (.exact ⟨1, 4, 5⟩) ∧
    Surd.toQuadint ⟨false, true⟩ ⟨7, 5, 3, 2⟩ = .ok (.approximated ⟨2, 1, 2⟩) := by decide +kernel

/-- **C21** is false for `to_gaussint`: `√2` is converted to `Exact(i)`. -/
theorem surd_toGaussint_refuted : ∃ s : Surd, Surd.new ⟨true, true⟩ 0 1 1 2 = .ok s ∧
    ∃ g, Surd.toGaussint ⟨true, true⟩ s = .ok (.exact g) ∧ g.valC ≠ s.valC := by
  have h : (Surd.mk 0 1 1 2).RealOk := by decide +kernel
  refine ⟨⟨0, 1, 1, 2⟩, by decide +kernel, ⟨0, 1⟩, by decide +kernel, ?_⟩
  intro e
  have him : (Surd.mk 0 1 1 2).valC.im = 0 := by rw [h.valC]; simp
  rw [← e] at him
  simp [GInt.valC] at him

/-- **C21** partial: `to_gaussint` never panics, and an `Exact` result is the same number for rational surds
and for surds with root -1.  Missing from the full claim: surds with denominator 1 and another root. -/
theorem surd_toGaussint_partial (cfg : Cfg) (s : Surd) (h : s.Ok cfg) :
    (∃ t, Surd.toGaussint cfg s = .ok t) ∧
    (s.r = 0 ∨ s.r = -1 → ∀ g, Surd.toGaussint cfg s = .ok (.exact g) → g.valC = s.valC) := by
  constructor
  · unfold Surd.toGaussint
    split
    · exact ⟨_, rfl⟩
    · have : ∃ t, Surd.trunc cfg s = .ok t := by
        by_cases hr : 0 ≤ s.r
        · exact ⟨_, Surd.trunc_real ⟨h.toNormal, hr⟩⟩
        · have hc : cfg.complex = true := by
            by_contra hc; exact hr (h.real (by simpa using hc))
          obtain ⟨t, ht, -⟩ := surd_trunc_complex cfg s h hc (not_le.mp hr)
          exact ⟨t, ht⟩
      obtain ⟨t, ht⟩ := this
      rw [ht]; exact ⟨_, rfl⟩
  · intro hr g e
    unfold Surd.toGaussint at e
    split at e
    · next hg =>
      have h1 : s.c = 1 := by simpa [Surd.isGaussint] using hg
      cases e
      unfold Surd.valC quadC GInt.valC
      rw [h1]
      rcases hr with hr | hr
      · rw [h.rational.mpr hr]; simp
      · rw [hr]
        have : rootC (-1) = Complex.I := by unfold rootC; simp
        rw [this]; simp
    · obtain ⟨q, e', e⟩ := bind_ok e
      cases e

example : Surd.toGaussint ⟨true, true⟩ ⟨3, -2, 1, -1⟩ = .ok (.exact ⟨3, -2⟩) := by decide +kernel

end NumIrr
