/-
C05-C10: arithmetic of quadratic surds.
`valC` is the complex number a surd denotes, `val` the real number (`Spec/Surd.lean`).
-/
import Verif.Lemmas.SurdBin
import Verif.Lemmas.SurdDecide
import Verif.Props.SurdNew

namespace NumIrr
open Surd

/-! ### C05 addition and subtraction -/

/-- **C05** -/
theorem surd_add_value (cfg : Cfg) (x y z : Surd) (hx : x.Ok cfg) (hy : y.Ok cfg)
    (h : Surd.add cfg x y = .ok z) : z.valC = x.valC + y.valC ∧ z.Ok cfg := by
  obtain ⟨h1, h2⟩ := add_spec hx hy
  by_cases hc : x.r = 0 ∨ y.r = 0 ∨ x.Compatible y
  · obtain ⟨t, e, hv⟩ := h1 hc
    rw [h] at e; cases e; exact hv
  · rw [h2 hc] at h; cases h
example : (Surd.mk 2 1 3 (-5)).Ok ⟨true, true⟩ ∧ (Surd.mk 1 1 2 (-20)).Ok ⟨true, true⟩ ∧
    Surd.add ⟨true, true⟩ ⟨2, 1, 3, -5⟩ ⟨1, 1, 2, -20⟩ = .ok ⟨7, 8, 6, -5⟩ := by decide +kernel

/-- **C05** -/
theorem surd_sub_value (cfg : Cfg) (x y z : Surd) (hx : x.Ok cfg) (hy : y.Ok cfg)
    (h : Surd.sub cfg x y = .ok z) : z.valC = x.valC - y.valC ∧ z.Ok cfg := by
  obtain ⟨h1, h2⟩ := sub_spec hx hy
  by_cases hc : x.r = 0 ∨ y.r = 0 ∨ x.Compatible y
  · obtain ⟨t, e, hv⟩ := h1 hc
    rw [h] at e; cases e; exact hv
  · rw [h2 hc] at h; cases h
example : (Surd.mk 2 1 3 (-5)).Ok ⟨true, true⟩ ∧ (Surd.mk 1 1 2 (-20)).Ok ⟨true, true⟩ ∧
    Surd.sub ⟨true, true⟩ ⟨2, 1, 3, -5⟩ ⟨1, 1, 2, -20⟩ = .ok ⟨1, -4, 6, -5⟩ := by decide +kernel

/-- **C05** over the reals. -/
theorem surd_add_value_real (cfg : Cfg) (x y z : Surd) (hx : x.RealOk) (hy : y.RealOk)
    (h : Surd.add cfg x y = .ok z) : z.RealOk ∧ z.val = x.val + y.val := by
  obtain ⟨h1, h2⟩ := surd_add_value cfg x y z (hx.toOk cfg) (hy.toOk cfg) h
  apply real_transfer h2.toNormal
  rw [h1, hx.valC, hy.valC]; push_cast; rfl

theorem surd_sub_value_real (cfg : Cfg) (x y z : Surd) (hx : x.RealOk) (hy : y.RealOk)
    (h : Surd.sub cfg x y = .ok z) : z.RealOk ∧ z.val = x.val - y.val := by
  obtain ⟨h1, h2⟩ := surd_sub_value cfg x y z (hx.toOk cfg) (hy.toOk cfg) h
  apply real_transfer h2.toNormal
  rw [h1, hx.valC, hy.valC]; push_cast; rfl

/-- √8 + (1+√2)/3 = (1+7√2)/3 -/
example : (Surd.mk 0 1 1 8).RealOk ∧ (Surd.mk 1 1 3 2).RealOk ∧
    Surd.add ⟨false, true⟩ ⟨0, 1, 1, 8⟩ ⟨1, 1, 3, 2⟩ = .ok ⟨1, 7, 3, 2⟩ ∧
    Surd.sub ⟨false, true⟩ ⟨0, 1, 1, 8⟩ ⟨1, 1, 3, 2⟩ = .ok ⟨-1, 5, 3, 2⟩ := by decide +kernel

/-! ### C06 multiplication -/

/-- **C06** is false as stated when the `complex` feature is on: the library computes `i * i = 1`. -/
theorem surd_mul_value_refuted : ∃ (cfg : Cfg) (x y z : Surd), x.Ok cfg ∧ y.Ok cfg ∧
    Surd.mul cfg x y = .ok z ∧ z.valC ≠ x.valC * y.valC := by
  refine ⟨⟨true, true⟩, ⟨0, 1, 1, -1⟩, ⟨0, 1, 1, -1⟩, ⟨1, 0, 1, 0⟩, by decide +kernel,
    by decide +kernel, by decide +kernel, ?_⟩
  have h1 : Surd.valC ⟨1, 0, 1, 0⟩ = 1 := by simp [Surd.valC, quadC]
  have h2 : Surd.valC ⟨0, 1, 1, -1⟩ = Complex.I := by simp [Surd.valC, quadC, rootC]
  rw [h1, h2, Complex.I_mul_I]
  norm_num

/-- **C06** partial: the product is exact unless both operands are pure imaginary
(`a = 0` and negative root on both sides).
Missing from the full claim: the two-pure-imaginary case, where the sign is wrong. -/
theorem surd_mul_value_partial (cfg : Cfg) (x y z : Surd) (hx : x.Ok cfg) (hy : y.Ok cfg)
    (hp : ¬ (x.a = 0 ∧ y.a = 0 ∧ x.r < 0 ∧ y.r < 0))
    (h : Surd.mul cfg x y = .ok z) : z.valC = x.valC * y.valC ∧ z.Ok cfg := by
  obtain ⟨h1, h2⟩ := mul_spec hx hy
  by_cases hc : x.r = 0 ∨ y.r = 0 ∨ (x.a = 0 ∧ y.a = 0) ∨ x.Compatible y
  · obtain ⟨t, e, hv⟩ := h1 hc
    rw [h] at e; cases e
    unfold pureSign at hv
    rw [if_neg hp, one_mul] at hv
    exact hv
  · rw [h2 hc] at h; cases h
example : (Surd.mk 2 1 3 (-5)).Ok ⟨true, true⟩ ∧ (Surd.mk 0 1 1 (-5)).Ok ⟨true, true⟩ ∧
    Surd.mul ⟨true, true⟩ ⟨2, 1, 3, -5⟩ ⟨0, 1, 1, -5⟩ = .ok ⟨-5, 2, 3, -5⟩ := by decide +kernel

/-- **C06** the exact extent of the failure: for two pure imaginary operands the library always
returns the negated product. -/
theorem surd_mul_pure_imaginary (cfg : Cfg) (x y z : Surd) (hx : x.Ok cfg) (hy : y.Ok cfg)
    (hp : x.a = 0 ∧ y.a = 0 ∧ x.r < 0 ∧ y.r < 0)
    (h : Surd.mul cfg x y = .ok z) : z.valC = -(x.valC * y.valC) ∧ z.Ok cfg := by
  obtain ⟨t, e, hv⟩ := (mul_spec hx hy).1 (.inr (.inr (.inl ⟨hp.1, hp.2.1⟩)))
  rw [h] at e; cases e
  unfold pureSign at hv
  rw [if_pos hp, neg_one_mul] at hv
  exact hv
example : (Surd.mk 0 1 2 (-3)).Ok ⟨true, true⟩ ∧ (Surd.mk 0 1 1 (-5)).Ok ⟨true, true⟩ ∧
    Surd.mul ⟨true, true⟩ ⟨0, 1, 2, -3⟩ ⟨0, 1, 1, -5⟩ = .ok ⟨0, 1, 2, 15⟩ := by decide +kernel

/-- **C06** for real surds (in particular always without the `complex` feature) the product is exact. -/
theorem surd_mul_value_real (cfg : Cfg) (x y z : Surd) (hx : x.RealOk) (hy : y.RealOk)
    (h : Surd.mul cfg x y = .ok z) : z.RealOk ∧ z.val = x.val * y.val := by
  have hr := hx.real
  obtain ⟨h1, h2⟩ := surd_mul_value_partial cfg x y z (hx.toOk cfg) (hy.toOk cfg) (by omega) h
  apply real_transfer h2.toNormal
  rw [h1, hx.valC, hy.valC]; push_cast; rfl

/-- (1+√5)/2 squared, and √6 * √10/3 with unrelated roots -/
example : Surd.mul ⟨false, true⟩ ⟨1, 1, 2, 5⟩ ⟨1, 1, 2, 5⟩ = .ok ⟨3, 1, 2, 5⟩ ∧
    (Surd.mk 0 1 1 6).RealOk ∧ (Surd.mk 0 1 3 10).RealOk ∧
    Surd.mul ⟨false, true⟩ ⟨0, 1, 1, 6⟩ ⟨0, 1, 3, 10⟩ = .ok ⟨0, 2, 3, 15⟩ := by decide +kernel

/-! ### C07 division and reciprocal -/

/-- **C07** reciprocal -/
theorem surd_recip_value (cfg : Cfg) (x z : Surd) (hx : x.Ok cfg)
    (h : Surd.recip cfg x = .ok z) : z.valC = x.valC⁻¹ ∧ z.Ok cfg := by
  by_cases h0 : x.valC = 0
  · rw [recip_zero hx h0] at h; cases h
  · obtain ⟨t, e, hv⟩ := recip_spec hx h0
    rw [h] at e; cases e; exact hv
example : (Surd.mk 1 1 1 2).Ok ⟨false, true⟩ ∧
    Surd.recip ⟨false, true⟩ ⟨1, 1, 1, 2⟩ = .ok ⟨-1, 1, 1, 2⟩ := by decide +kernel

/-- **C07** `recip` panics exactly on zero. -/
theorem surd_recip_returns_iff (cfg : Cfg) (x : Surd) (hx : x.Ok cfg) :
    (∃ z, Surd.recip cfg x = .ok z) ↔ x.valC ≠ 0 := by
  constructor
  · rintro ⟨z, h⟩ h0
    rw [recip_zero hx h0] at h; cases h
  · intro h0
    obtain ⟨t, e, _⟩ := recip_spec hx h0
    exact ⟨t, e⟩
example : (Surd.mk 2 1 3 (-5)).Ok ⟨true, true⟩ ∧
    Surd.recip ⟨true, true⟩ ⟨2, 1, 3, -5⟩ = .ok ⟨2, -1, 3, -5⟩ ∧
    Surd.recip ⟨true, true⟩ ⟨0, 0, 1, 0⟩ = .error .denomZero := by decide +kernel

/-- **C07** is false as stated with the `complex` feature: `i / i = -1`. -/
theorem surd_div_value_refuted : ∃ (cfg : Cfg) (x y z : Surd), x.Ok cfg ∧ y.Ok cfg ∧
    Surd.div cfg x y = .ok z ∧ z.valC ≠ x.valC / y.valC := by
  refine ⟨⟨true, true⟩, ⟨0, 1, 1, -1⟩, ⟨0, 1, 1, -1⟩, ⟨-1, 0, 1, 0⟩, by decide +kernel,
    by decide +kernel, by decide +kernel, ?_⟩
  have h1 : Surd.valC ⟨-1, 0, 1, 0⟩ = -1 := by simp [Surd.valC, quadC]
  have h2 : Surd.valC ⟨0, 1, 1, -1⟩ = Complex.I := by simp [Surd.valC, quadC, rootC]
  rw [h1, h2, div_self Complex.I_ne_zero]
  norm_num

/-- **C07** partial: exact unless both operands are pure imaginary.
Missing from the full claim: the two-pure-imaginary case, where the sign is wrong. -/
theorem surd_div_value_partial (cfg : Cfg) (x y z : Surd) (hx : x.Ok cfg) (hy : y.Ok cfg)
    (hp : ¬ (x.a = 0 ∧ y.a = 0 ∧ x.r < 0 ∧ y.r < 0))
    (h : Surd.div cfg x y = .ok z) : y.valC ≠ 0 ∧ z.valC = x.valC / y.valC ∧ z.Ok cfg := by
  obtain ⟨h1, h2⟩ := div_spec hx hy
  by_cases hc : DivReturns x y
  · obtain ⟨t, e, hv⟩ := h1 hc
    rw [h] at e; cases e
    unfold pureSign at hv
    rw [if_neg hp, one_mul] at hv
    exact ⟨hc.1, hv⟩
  · obtain ⟨p, e⟩ := h2 hc
    rw [h] at e; cases e
example : (Surd.mk 2 1 3 (-5)).Ok ⟨true, true⟩ ∧ (Surd.mk 1 1 2 (-20)).Ok ⟨true, true⟩ ∧
    Surd.div ⟨true, true⟩ ⟨2, 1, 3, -5⟩ ⟨1, 1, 2, -20⟩ = .ok ⟨8, -2, 21, -5⟩ := by decide +kernel

theorem surd_div_pure_imaginary (cfg : Cfg) (x y z : Surd) (hx : x.Ok cfg) (hy : y.Ok cfg)
    (hp : x.a = 0 ∧ y.a = 0 ∧ x.r < 0 ∧ y.r < 0)
    (h : Surd.div cfg x y = .ok z) : z.valC = -(x.valC / y.valC) ∧ z.Ok cfg := by
  obtain ⟨h1, h2⟩ := div_spec hx hy
  by_cases hc : DivReturns x y
  · obtain ⟨t, e, hv⟩ := h1 hc
    rw [h] at e; cases e
    unfold pureSign at hv
    rw [if_pos hp, neg_one_mul] at hv
    exact hv
  · obtain ⟨p, e⟩ := h2 hc
    rw [h] at e; cases e
example : (Surd.mk 0 1 2 (-3)).Ok ⟨true, true⟩ ∧ (Surd.mk 0 1 1 (-5)).Ok ⟨true, true⟩ ∧
    Surd.div ⟨true, true⟩ ⟨0, 1, 2, -3⟩ ⟨0, 1, 1, -5⟩ = .ok ⟨0, -1, 10, 15⟩ := by decide +kernel

/-- **C07** exact for real surds. -/
theorem surd_div_value_real (cfg : Cfg) (x y z : Surd) (hx : x.RealOk) (hy : y.RealOk)
    (h : Surd.div cfg x y = .ok z) : y.val ≠ 0 ∧ z.RealOk ∧ z.val = x.val / y.val := by
  have hr := hx.real
  obtain ⟨h0, h1, h2⟩ := surd_div_value_partial cfg x y z (hx.toOk cfg) (hy.toOk cfg) (by omega) h
  refine ⟨?_, ?_⟩
  · intro e; apply h0; rw [hy.valC, e]; simp
  apply real_transfer h2.toNormal
  rw [h1, hx.valC, hy.valC]; push_cast; rfl

example : Surd.div ⟨false, true⟩ ⟨1, 1, 2, 5⟩ ⟨3, 1, 2, 5⟩ = .ok ⟨-1, 1, 2, 5⟩ ∧
    Surd.div ⟨false, true⟩ ⟨1, 0, 1, 0⟩ ⟨1, 1, 1, 2⟩ = .ok ⟨-1, 1, 1, 2⟩ ∧
    Surd.recip ⟨false, true⟩ ⟨1, 1, 1, 2⟩ = .ok ⟨-1, 1, 1, 2⟩ ∧ (Surd.mk 3 1 2 5).RealOk := by
  decide +kernel

/-! ### C08 when the operations return -/

/-- **C08** addition returns exactly for a rational operand or compatible roots. -/
theorem surd_add_returns_iff (cfg : Cfg) (x y : Surd) (hx : x.Ok cfg) (hy : y.Ok cfg) :
    (∃ z, Surd.add cfg x y = .ok z) ↔ (x.r = 0 ∨ y.r = 0 ∨ x.Compatible y) := by
  obtain ⟨h1, h2⟩ := add_spec hx hy
  constructor
  · rintro ⟨z, h⟩
    by_contra hc
    rw [h2 hc] at h; cases h
  · intro hc; obtain ⟨z, e, _⟩ := h1 hc; exact ⟨z, e⟩
example : (Surd.mk 0 1 1 18).Ok ⟨false, true⟩ ∧ (Surd.mk 1 1 2 2).Ok ⟨false, true⟩ ∧
    Surd.add ⟨false, true⟩ ⟨0, 1, 1, 18⟩ ⟨1, 1, 2, 2⟩ = .ok ⟨1, 7, 2, 2⟩ := by decide +kernel

theorem surd_sub_returns_iff (cfg : Cfg) (x y : Surd) (hx : x.Ok cfg) (hy : y.Ok cfg) :
    (∃ z, Surd.sub cfg x y = .ok z) ↔ (x.r = 0 ∨ y.r = 0 ∨ x.Compatible y) := by
  obtain ⟨h1, h2⟩ := sub_spec hx hy
  constructor
  · rintro ⟨z, h⟩
    by_contra hc
    rw [h2 hc] at h; cases h
  · intro hc; obtain ⟨z, e, _⟩ := h1 hc; exact ⟨z, e⟩
example : (Surd.mk 0 1 1 18).Ok ⟨false, true⟩ ∧ (Surd.mk 1 1 2 3).Ok ⟨false, true⟩ ∧
    Surd.sub ⟨false, true⟩ ⟨0, 1, 1, 18⟩ ⟨1, 1, 2, 3⟩ = .error .incompatible := by decide +kernel

theorem surd_mul_returns_iff (cfg : Cfg) (x y : Surd) (hx : x.Ok cfg) (hy : y.Ok cfg) :
    (∃ z, Surd.mul cfg x y = .ok z) ↔
      (x.r = 0 ∨ y.r = 0 ∨ (x.a = 0 ∧ y.a = 0) ∨ x.Compatible y) := by
  obtain ⟨h1, h2⟩ := mul_spec hx hy
  constructor
  · rintro ⟨z, h⟩
    by_contra hc
    rw [h2 hc] at h; cases h
  · intro hc; obtain ⟨z, e, _⟩ := h1 hc; exact ⟨z, e⟩
example : (Surd.mk 0 1 1 18).Ok ⟨false, true⟩ ∧ (Surd.mk 0 1 2 3).Ok ⟨false, true⟩ ∧
    Surd.mul ⟨false, true⟩ ⟨0, 1, 1, 18⟩ ⟨0, 1, 2, 3⟩ = .ok ⟨0, 3, 2, 6⟩ := by decide +kernel

/-- **C08** every panic of `+`, `-`, `*` is the "not compatible" one. -/
theorem surd_binop_panics (cfg : Cfg) (x y : Surd) (hx : x.Ok cfg) (hy : y.Ok cfg) (p : Panic)
    (h : Surd.add cfg x y = .error p ∨ Surd.sub cfg x y = .error p ∨ Surd.mul cfg x y = .error p) :
    p = .incompatible := by
  rcases h with h | h | h
  · obtain ⟨h1, h2⟩ := add_spec hx hy
    by_cases hc : x.r = 0 ∨ y.r = 0 ∨ x.Compatible y
    · obtain ⟨z, e, _⟩ := h1 hc; rw [h] at e; cases e
    · rw [h2 hc] at h; cases h; rfl
  · obtain ⟨h1, h2⟩ := sub_spec hx hy
    by_cases hc : x.r = 0 ∨ y.r = 0 ∨ x.Compatible y
    · obtain ⟨z, e, _⟩ := h1 hc; rw [h] at e; cases e
    · rw [h2 hc] at h; cases h; rfl
  · obtain ⟨h1, h2⟩ := mul_spec hx hy
    by_cases hc : x.r = 0 ∨ y.r = 0 ∨ (x.a = 0 ∧ y.a = 0) ∨ x.Compatible y
    · obtain ⟨z, e, _⟩ := h1 hc; rw [h] at e; cases e
    · rw [h2 hc] at h; cases h; rfl
example : (Surd.mk 1 1 1 8).Ok ⟨false, true⟩ ∧ (Surd.mk 0 1 1 18).Ok ⟨false, true⟩ ∧
    Surd.mul ⟨false, true⟩ ⟨1, 1, 1, 8⟩ ⟨0, 1, 1, 18⟩ = .error .incompatible := by decide +kernel

/-- **C08** is false for division: `0 / √2` panics although the divisor is not zero. -/
theorem surd_div_returns_refuted : ∃ (cfg : Cfg) (x y : Surd), x.Ok cfg ∧ y.Ok cfg ∧
    y.valC ≠ 0 ∧ x.r = 0 ∧ Surd.div cfg x y = .error .denomZero := by
  have hy : (Surd.mk 0 1 1 2).Ok ⟨false, true⟩ := by decide +kernel
  refine ⟨⟨false, true⟩, ⟨0, 0, 1, 0⟩, ⟨0, 1, 1, 2⟩, by decide +kernel, hy, ?_, rfl,
    by decide +kernel⟩
  rw [Ne, valC_eq_zero_iff hy.toNormal]
  decide

/-- **C08** the exact condition under which division returns. -/
theorem surd_div_returns_iff (cfg : Cfg) (x y : Surd) (hx : x.Ok cfg) (hy : y.Ok cfg) :
    (∃ z, Surd.div cfg x y = .ok z) ↔
      y.valC ≠ 0 ∧ (y.r = 0 ∨ (x.r = 0 ∧ x.valC ≠ 0) ∨
        (x.r ≠ 0 ∧ ((x.a = 0 ∧ y.a = 0) ∨ x.Compatible y))) := by
  obtain ⟨h1, h2⟩ := div_spec hx hy
  constructor
  · rintro ⟨z, h⟩
    by_contra hc
    obtain ⟨p, e⟩ := h2 hc
    rw [h] at e; cases e
  · intro hc; obtain ⟨z, e, _⟩ := h1 hc; exact ⟨z, e⟩

/-- **C08** partial: the documented condition is right for every non-zero dividend.
Missing from the full claim: dividing zero by an irrational surd panics. -/
theorem surd_div_returns_partial (cfg : Cfg) (x y : Surd) (hx : x.Ok cfg) (hy : y.Ok cfg)
    (hx0 : x.valC ≠ 0) :
    (∃ z, Surd.div cfg x y = .ok z) ↔
      y.valC ≠ 0 ∧ (x.r = 0 ∨ y.r = 0 ∨ (x.a = 0 ∧ y.a = 0) ∨ x.Compatible y) := by
  rw [surd_div_returns_iff cfg x y hx hy]
  by_cases h : x.r = 0
  · simp [h, hx0]
  · simp [h]

/-- √8 and √18 share a field but neither is a square multiple of the other -/
example : (Surd.mk 1 1 1 8).RealOk ∧ (Surd.mk 0 1 1 18).RealOk ∧
    Surd.add ⟨false, true⟩ ⟨1, 1, 1, 8⟩ ⟨0, 1, 1, 18⟩ = .error .incompatible ∧
    Surd.mul ⟨false, true⟩ ⟨1, 1, 1, 8⟩ ⟨0, 1, 1, 18⟩ = .error .incompatible := by decide +kernel
example : (Surd.mk 0 1 1 18).Compatible ⟨1, 1, 2, 2⟩ := ⟨3, .inl rfl⟩

/-! ### C09 integer and rational operands -/

/-- **C09** rational operands: always return, exact. -/
theorem surd_addRat_value (cfg : Cfg) (x : Surd) (q : ℚ) (hx : x.Ok cfg) :
    ∃ z, Surd.addRat cfg x q = .ok z ∧ z.valC = x.valC + q ∧ z.Ok cfg := addRat_spec hx q
example : (Surd.mk 1 1 2 5).Ok ⟨false, true⟩ ∧
    Surd.addRat ⟨false, true⟩ ⟨1, 1, 2, 5⟩ (1/2) = .ok ⟨2, 1, 2, 5⟩ := by decide +kernel

theorem surd_subRat_value (cfg : Cfg) (x : Surd) (q : ℚ) (hx : x.Ok cfg) :
    ∃ z, Surd.subRat cfg x q = .ok z ∧ z.valC = x.valC - q ∧ z.Ok cfg := subRat_spec hx q
example : (Surd.mk 1 1 2 (-5)).Ok ⟨true, true⟩ ∧
    Surd.subRat ⟨true, true⟩ ⟨1, 1, 2, -5⟩ (1/3) = .ok ⟨1, 3, 6, -5⟩ := by decide +kernel

theorem surd_mulRat_value (cfg : Cfg) (x : Surd) (q : ℚ) (hx : x.Ok cfg) :
    ∃ z, Surd.mulRat cfg x q = .ok z ∧ z.valC = x.valC * q ∧ z.Ok cfg := mulRat_spec hx q
example : (Surd.mk 1 1 2 (-5)).Ok ⟨true, true⟩ ∧
    Surd.mulRat ⟨true, true⟩ ⟨1, 1, 2, -5⟩ (-2/3) = .ok ⟨-1, -1, 3, -5⟩ := by decide +kernel

theorem surd_divRat_value (cfg : Cfg) (x : Surd) (q : ℚ) (hx : x.Ok cfg) (hq : q ≠ 0) :
    ∃ z, Surd.divRat cfg x q = .ok z ∧ z.valC = x.valC / q ∧ z.Ok cfg := divRat_spec hx hq
example : (Surd.mk 1 1 2 5).Ok ⟨false, true⟩ ∧
    Surd.divRat ⟨false, true⟩ ⟨1, 1, 2, 5⟩ (3/2) = .ok ⟨1, 1, 3, 5⟩ := by decide +kernel

theorem surd_divRat_zero (cfg : Cfg) (x : Surd) (hx : x.Ok cfg) :
    Surd.divRat cfg x 0 = .error .denomZero := divRat_zero hx
example : (Surd.mk 1 1 2 5).Ok ⟨false, true⟩ := by decide +kernel

/-- **C09** integer operands. -/
theorem surd_addInt_value (cfg : Cfg) (x : Surd) (k : ℤ) (hx : x.Ok cfg) :
    ∃ z, Surd.addInt cfg x k = .ok z ∧ z.valC = x.valC + k ∧ z.Ok cfg := by
  have hc : (x.c : ℂ) ≠ 0 := by exact_mod_cast hx.ne_zero
  obtain ⟨t, e, h3, h4⟩ := fromCoeffs_spec (cfg := cfg) (x := x.coeffs.addInt k) (r := x.r)
    hx.ne_zero hx.real
  refine ⟨t, e, ?_, h4⟩
  rw [h3]
  unfold Surd.valC quadC Coeffs.addInt Surd.coeffs
  push_cast; field_simp; ring
example : (Surd.mk 1 1 2 5).Ok ⟨false, true⟩ ∧
    Surd.addInt ⟨false, true⟩ ⟨1, 1, 2, 5⟩ (-3) = .ok ⟨-5, 1, 2, 5⟩ := by decide +kernel

theorem surd_subInt_value (cfg : Cfg) (x : Surd) (k : ℤ) (hx : x.Ok cfg) :
    ∃ z, Surd.subInt cfg x k = .ok z ∧ z.valC = x.valC - k ∧ z.Ok cfg := by
  have hc : (x.c : ℂ) ≠ 0 := by exact_mod_cast hx.ne_zero
  obtain ⟨t, e, h3, h4⟩ := fromCoeffs_spec (cfg := cfg) (x := x.coeffs.subInt k) (r := x.r)
    hx.ne_zero hx.real
  refine ⟨t, e, ?_, h4⟩
  rw [h3]
  unfold Surd.valC quadC Coeffs.subInt Surd.coeffs
  push_cast; field_simp; ring
example : (Surd.mk 1 1 2 (-5)).Ok ⟨true, true⟩ ∧
    Surd.subInt ⟨true, true⟩ ⟨1, 1, 2, -5⟩ (-3) = .ok ⟨7, 1, 2, -5⟩ := by decide +kernel

theorem surd_mulInt_value (cfg : Cfg) (x : Surd) (k : ℤ) (hx : x.Ok cfg) :
    ∃ z, Surd.mulInt cfg x k = .ok z ∧ z.valC = x.valC * k ∧ z.Ok cfg := by
  have hc : (x.c : ℂ) ≠ 0 := by exact_mod_cast hx.ne_zero
  obtain ⟨t, e, h3, h4⟩ := fromCoeffs_spec (cfg := cfg) (x := x.coeffs.mulInt k) (r := x.r)
    hx.ne_zero hx.real
  refine ⟨t, e, ?_, h4⟩
  rw [h3]
  unfold Surd.valC quadC Coeffs.mulInt Surd.coeffs
  push_cast; field_simp
example : (Surd.mk 1 1 2 5).Ok ⟨false, true⟩ ∧
    Surd.mulInt ⟨false, true⟩ ⟨1, 1, 2, 5⟩ (-4) = .ok ⟨-2, -2, 1, 5⟩ := by decide +kernel

theorem surd_divInt_value (cfg : Cfg) (x : Surd) (k : ℤ) (hx : x.Ok cfg) (hk : k ≠ 0) :
    ∃ z, Surd.divInt cfg x k = .ok z ∧ z.valC = x.valC / k ∧ z.Ok cfg := by
  have hc : (x.c : ℂ) ≠ 0 := by exact_mod_cast hx.ne_zero
  have hk' : (k : ℂ) ≠ 0 := by exact_mod_cast hk
  obtain ⟨t, e, h3, h4⟩ := fromCoeffs_spec (cfg := cfg) (x := x.coeffs.divInt k) (r := x.r)
    (mul_ne_zero hx.ne_zero hk) hx.real
  refine ⟨t, e, ?_, h4⟩
  rw [h3]
  unfold Surd.valC quadC Coeffs.divInt Surd.coeffs
  push_cast; field_simp

theorem surd_divInt_zero (cfg : Cfg) (x : Surd) (hx : x.Ok cfg) :
    Surd.divInt cfg x 0 = .error .denomZero :=
  fromCoeffs_zero (by simp [Coeffs.divInt]) hx.real

example : Surd.addRat ⟨false, true⟩ ⟨1, 1, 2, 5⟩ (1/2) = .ok ⟨2, 1, 2, 5⟩ ∧
    Surd.subRat ⟨false, true⟩ ⟨1, 1, 2, 5⟩ (1/3) = .ok ⟨1, 3, 6, 5⟩ ∧
    Surd.mulInt ⟨false, true⟩ ⟨1, 1, 2, 5⟩ (-4) = .ok ⟨-2, -2, 1, 5⟩ ∧
    Surd.divRat ⟨false, true⟩ ⟨1, 1, 2, 5⟩ (3/2) = .ok ⟨1, 1, 3, 5⟩ := by decide +kernel

/-! ### C10 conjugate, negation, norm, numerator and denominator -/

/-- **C10** -/
theorem surd_conj_value (x : Surd) : (Surd.conj x).valC = quadC x.a (-x.b) x.c x.r := rfl
example : Surd.conj ⟨3, 2, 5, 7⟩ = ⟨3, -2, 5, 7⟩ := rfl

theorem surd_conj_ok (cfg : Cfg) (x : Surd) (hx : x.Ok cfg) : (Surd.conj x).Ok cfg := by
  refine ⟨⟨hx.c_pos, ?_, ?_, hx.irrational⟩, hx.real⟩
  · intro d h1 h2 h3
    exact hx.coprime d h1 (by simpa [Surd.conj, Coeffs.conj, Surd.coeffs] using h2) h3
  · simpa [Surd.conj, Coeffs.conj, Surd.coeffs] using hx.rational
example : (Surd.mk 3 2 5 7).Ok ⟨false, true⟩ := by decide +kernel

theorem surd_conj_conj (x : Surd) : Surd.conj (Surd.conj x) = x := by
  simp [Surd.conj, Coeffs.conj, Surd.coeffs]

/-- **C10** on a complex surd (negative root) `conj` is complex conjugation; on a real surd it is the
other root of the minimal polynomial: `x + conj x = 2a/c` and `x·conj x = (a²-b²r)/c²`. -/
theorem surd_conj_complex (x : Surd) (h : x.r < 0) :
    (Surd.conj x).valC = (starRingEnd ℂ) x.valC := by
  unfold Surd.valC quadC rootC Surd.conj Coeffs.conj Surd.coeffs
  simp only [if_neg (not_le.mpr h)]
  simp [Complex.conj_ofReal]
example : (Surd.mk 3 2 5 (-7)).Ok ⟨true, true⟩ ∧ (Surd.mk 3 2 5 (-7)).r < 0 := by decide +kernel

theorem surd_conj_sum (x : Surd) : x.valC + (Surd.conj x).valC = 2 * x.a / x.c := by
  unfold Surd.valC quadC Surd.conj Coeffs.conj Surd.coeffs
  push_cast; ring

/-- **C10** `norm` of the coefficients is the product with the conjugate. -/
theorem surd_norm_value (cfg : Cfg) (x : Surd) (hx : x.Ok cfg) :
    ∃ n : ℚ, x.coeffs.norm x.r = .ok n ∧ (n : ℂ) = x.valC * (Surd.conj x).valC := by
  have hc : (x.c : ℂ) ≠ 0 := by exact_mod_cast hx.ne_zero
  refine ⟨_, ratioNew_ok (mul_ne_zero hx.ne_zero hx.ne_zero), ?_⟩
  rw [divInt_cast]
  unfold Surd.valC quadC Surd.conj Coeffs.conj Surd.coeffs
  push_cast
  field_simp
  linear_combination ((x.b:ℂ)^2) * rootC_mul_self x.r
example : (Surd.mk 3 2 5 (-7)).Ok ⟨true, true⟩ ∧
    (Surd.mk 3 2 5 (-7)).coeffs.norm (-7) = .ok (37/25) := by decide +kernel

theorem surd_neg_value (cfg : Cfg) (x : Surd) (hx : x.Ok cfg) :
    (Surd.neg x).valC = -x.valC ∧ (Surd.neg x).Ok cfg := ⟨neg_valC x, neg_ok hx⟩

theorem surd_numer_denom (cfg : Cfg) (x : Surd) (hx : x.Ok cfg) :
    (Surd.numer x).Ok cfg ∧ (Surd.denom x).Ok cfg ∧
    x.valC = (Surd.numer x).valC / (Surd.denom x).valC := by
  refine ⟨⟨⟨by simp [numer], fun d _ _ h => isUnit_of_dvd_one h, hx.rational, hx.irrational⟩,
    hx.real⟩, surd_ofInt_normal cfg _, ?_⟩
  unfold Surd.denom
  rw [surd_ofInt_value]
  simp [Surd.valC, quadC, Surd.numer]

example : (Surd.mk 3 2 5 7).Ok ⟨false, true⟩ ∧
    (Surd.mk 3 2 5 7).coeffs.norm 7 = .ok (-19/25) := by decide +kernel

end NumIrr
