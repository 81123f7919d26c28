/-
C100: `Zero` and `One` for surds and quadratic integers.
-/
import Verif.Props.SurdLaws
import Verif.Props.QIntLaws

namespace NumIrr

/-- **C100** surds: `x + 0`, `0 + x`, `x * 1` and `1 * x` return and are `x` (as a number and for `==`); `x * 0` and `0 * x` are zero;
`is_zero` and `is_one` recognise exactly the numbers 0 and 1. -/
theorem surd_zero_one (cfg : Cfg) (x : Surd) (hx : x.Ok cfg) :
    (∀ e ∈ [Surd.add cfg x Surd.zero, Surd.add cfg Surd.zero x, Surd.mul cfg x Surd.one, Surd.mul cfg Surd.one x],
      ∃ z, e = .ok z ∧ z.Ok cfg ∧ z.valC = x.valC ∧ Surd.eq z x = true) ∧
    (∀ e ∈ [Surd.mul cfg x Surd.zero, Surd.mul cfg Surd.zero x], ∃ z, e = .ok z ∧ z.isZero = true) ∧
    (x.isZero = true ↔ x.valC = 0) ∧ (x.isOne = true ↔ x.valC = 1) := by
  have z0 : Surd.zero.Ok cfg := by cases cfg with | mk c d => cases c <;> cases d <;> decide +kernel
  have o0 : Surd.one.Ok cfg := by cases cfg with | mk c d => cases c <;> cases d <;> decide +kernel
  have vz : Surd.zero.valC = 0 := by simp [Surd.valC, quadC, Surd.zero]
  have vo : Surd.one.valC = 1 := by simp [Surd.valC, quadC, Surd.one]
  have fin : ∀ z : Surd, z.Ok cfg → z.valC = x.valC → Surd.eq z x = true := fun z hz hv => surd_eq_complete cfg z x hz hx hv
  have hm : ∀ u v : Surd, u.Ok cfg → v.Ok cfg → (u.r = 0 ∨ v.r = 0) → ∃ z, Surd.mul cfg u v = .ok z ∧ z.Ok cfg ∧ z.valC = u.valC * v.valC := by
    intro u v hu hv h
    obtain ⟨z, e⟩ := (surd_mul_returns_iff cfg u v hu hv).mpr (by tauto)
    obtain ⟨h1, h2⟩ := surd_mul_value_partial cfg u v z hu hv (by omega) e
    exact ⟨z, e, h2, h1⟩
  have ha : ∀ u v : Surd, u.Ok cfg → v.Ok cfg → (u.r = 0 ∨ v.r = 0) → ∃ z, Surd.add cfg u v = .ok z ∧ z.Ok cfg ∧ z.valC = u.valC + v.valC := by
    intro u v hu hv h
    obtain ⟨z, e⟩ := (surd_add_returns_iff cfg u v hu hv).mpr (by tauto)
    obtain ⟨h1, h2⟩ := surd_add_value cfg u v z hu hv e
    exact ⟨z, e, h2, h1⟩
  refine ⟨?_, ?_, surd_isZero cfg x hx, surd_isOne cfg x hx⟩
  · simp only [List.forall_mem_cons]
    refine ⟨?_, ?_, ?_, ?_, by simp⟩
    · obtain ⟨z, e, h1, h2⟩ := ha x _ hx z0 (.inr rfl)
      rw [vz, add_zero] at h2
      exact ⟨z, e, h1, h2, fin z h1 h2⟩
    · obtain ⟨z, e, h1, h2⟩ := ha _ x z0 hx (.inl rfl)
      rw [vz, zero_add] at h2
      exact ⟨z, e, h1, h2, fin z h1 h2⟩
    · obtain ⟨z, e, h1, h2⟩ := hm x _ hx o0 (.inr rfl)
      rw [vo, mul_one] at h2
      exact ⟨z, e, h1, h2, fin z h1 h2⟩
    · obtain ⟨z, e, h1, h2⟩ := hm _ x o0 hx (.inl rfl)
      rw [vo, one_mul] at h2
      exact ⟨z, e, h1, h2, fin z h1 h2⟩
  · simp only [List.forall_mem_cons]
    refine ⟨?_, ?_, by simp⟩
    · obtain ⟨z, e, h1, h2⟩ := hm x _ hx z0 (.inr rfl)
      rw [vz, mul_zero] at h2
      exact ⟨z, e, (surd_isZero cfg z h1).mpr h2⟩
    · obtain ⟨z, e, h1, h2⟩ := hm _ x z0 hx (.inl rfl)
      rw [vz, zero_mul] at h2
      exact ⟨z, e, (surd_isZero cfg z h1).mpr h2⟩

example : (Surd.mk 1 1 2 5).Ok ⟨true, true⟩ ∧ Surd.add ⟨true, true⟩ Surd.zero ⟨1, 1, 2, 5⟩ = .ok ⟨1, 1, 2, 5⟩ ∧
    Surd.mul ⟨true, true⟩ ⟨1, 1, 2, -7⟩ Surd.one = .ok ⟨1, 1, 2, -7⟩ := by decide +kernel

namespace QInt

/-- **C100** quadratic integers: `x + 0`, `x * 1` return `x` itself and `is_zero` recognises exactly the number 0.  `0 + x`, `1 * x`
return `x` itself unless `x` is a rational number stored with a non-zero discriminant; the result is never `==` to `x` then.
`is_one` (the default `self == one()`) recognises exactly the number 1 stored with discriminant zero. -/
theorem qint_zero_one_partial (cfg : Cfg) (x : QInt) (hx : x.Ok cfg) :
    QInt.add cfg x QInt.zero = .ok x ∧ QInt.mul cfg x QInt.one = .ok x ∧
    (x.isZero = true ↔ x.valC = 0) ∧
    (QInt.add cfg QInt.zero x = .ok x ↔ (x.b = 0 → x.d = 0)) ∧ (QInt.mul cfg QInt.one x = .ok x ↔ (x.b = 0 → x.d = 0)) ∧
    (¬ (x.b = 0 → x.d = 0) → ∀ e ∈ [QInt.add cfg QInt.zero x, QInt.mul cfg QInt.one x],
      ∃ z, e = .ok z ∧ z.valC = x.valC ∧ QInt.eq z x = .ok false) ∧
    (QInt.eq x QInt.one = .ok true ↔ x.valC = 1 ∧ x.d = 0) := by
  obtain ⟨a, b, d⟩ := x
  have e1 : ∀ {u v : QInt}, (Except.ok u : Res QInt) = .ok v ↔ u = v := fun {u v} => ⟨fun h => by cases h; rfl, fun h => by rw [h]⟩
  have hA : QInt.add cfg QInt.zero ⟨a, b, d⟩ = .ok (if b = 0 then ⟨a, 0, 0⟩ else ⟨a, b, d⟩) := by
    by_cases hb : b = 0
    · simp [QInt.add, QInt.isRational, QInt.addInt, QInt.zero, QInt.mk', QInt.coeffs, QCoeffs.addInt, hb]
    · simp [QInt.add, QInt.isRational, QInt.addInt, QInt.zero, QInt.mk', QInt.coeffs, QCoeffs.addInt, hb]
  have hM : QInt.mul cfg QInt.one ⟨a, b, d⟩ = .ok (if b = 0 then ⟨a, 0, 0⟩ else ⟨a, b, d⟩) := by
    by_cases hb : b = 0
    · by_cases ha : a = 0
      · simp [QInt.mul, QInt.isRational, QInt.mulInt, QInt.zero, ha, hb]
      · simp [QInt.mul, QInt.isRational, QInt.mulInt, QInt.one, QInt.mk', QInt.coeffs, QCoeffs.mulInt, ha, hb]
    · simp [QInt.mul, QInt.isRational, QInt.mulInt, QInt.one, QInt.mk', QInt.coeffs, QCoeffs.mulInt, hb]
  have hiff : (if b = 0 then (⟨a, 0, 0⟩ : QInt) else ⟨a, b, d⟩) = ⟨a, b, d⟩ ↔ (b = 0 → d = 0) := by
    by_cases hb : b = 0
    · simp [hb, eq_comm]
    · simp [hb]
  have hbad : ¬ (b = 0 → d = 0) → ∃ z, (Except.ok (if b = 0 then (⟨a, 0, 0⟩ : QInt) else ⟨a, b, d⟩) : Res QInt) = .ok z ∧
      z.valC = QInt.valC ⟨a, b, d⟩ ∧ QInt.eq z ⟨a, b, d⟩ = .ok false := by
    intro h
    push Not at h
    obtain ⟨rfl, hd⟩ := h
    refine ⟨_, rfl, by simp [valC], ?_⟩
    simp [QInt.eq, Ne.symm hd]
  refine ⟨?_, ?_, ?_, ?_, ?_, ?_, ?_⟩
  · simp [QInt.add, QInt.isRational, QInt.addInt, QInt.zero, QInt.mk', QInt.coeffs, QCoeffs.addInt]
  · simp [QInt.mul, QInt.isRational, QInt.mulInt, QInt.one, QInt.mk', QInt.coeffs, QCoeffs.mulInt]
  · have := qint_eq_same_discr_partial cfg ⟨a, b, d⟩ ⟨0, 0, d⟩ hx ⟨fun _ => rfl, hx.mod4, hx.irrational, hx.real⟩ rfl
    rw [show QInt.valC ⟨0, 0, d⟩ = 0 by simp [valC]] at this
    rw [← this]
    simp [QInt.isZero, QInt.eq]
  · rw [hA, e1]; exact hiff
  · rw [hM, e1]; exact hiff
  · intro h
    rw [hA, hM]
    simp only [List.forall_mem_cons]
    exact ⟨hbad h, hbad h, by simp⟩
  · by_cases hd : d = 0
    · have hb : b = 0 := hx.rational hd
      subst hd hb
      simp [QInt.eq, QInt.one, valC]
    · simp [QInt.eq, QInt.one, hd]

/-- `1 + √2` is a valid value that keeps the contract -/
example : (QInt.mk 1 1 2).Ok ⟨false, true⟩ ∧ QInt.add ⟨false, true⟩ QInt.zero ⟨1, 1, 2⟩ = .ok ⟨1, 1, 2⟩ := by
  refine ⟨⟨by decide, by decide, fun _ => ?_, by decide⟩, by decide +kernel⟩
  rintro ⟨k, hk⟩
  have : k * k = 2 := hk.symm
  have h1 : k ≤ 1 := by nlinarith
  have h2 : -1 ≤ k := by nlinarith
  interval_cases k <;> omega

/-- **C100** so the contract of `Zero` and `One` fails for quadratic integers: `(3 + √2) / 3` rounds to the number one
with discriminant 2; adding it to zero gives something it is not equal to, and `is_one` denies it. -/
theorem qint_zero_one_refuted (cfg : Cfg) : ∃ x : QInt,
    (∃ y, QInt.new cfg 3 1 2 = .ok y ∧ y.divInt 3 = .ok x) ∧ x.valC = 1 ∧
    (∃ z, QInt.add cfg QInt.zero x = .ok z ∧ QInt.eq z x = .ok false) ∧ QInt.eq x QInt.one = .ok false := by
  refine ⟨⟨1, 0, 2⟩, ⟨⟨3, 1, 2⟩, ?_, by decide +kernel⟩, by simp [valC], ⟨⟨1, 0, 0⟩, ?_, ?_⟩, ?_⟩
  · obtain ⟨c, d⟩ := cfg; revert c d; decide +kernel
  · obtain ⟨c, d⟩ := cfg; revert c d; decide +kernel
  · decide +kernel
  · decide +kernel

end QInt
end NumIrr
