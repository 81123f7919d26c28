/-
C121: a quotient against the product with the reciprocal, and a difference against the sum with the negative, over
unbounded and over primitive integers.
-/
import Verif.Lemmas.SurdBin
import Verif.Lemmas.FixedRef
import Verif.Props.SurdArith
import Verif.Props.SurdEq
import Verif.Props.CFLaws
import Verif.Props.CFShift
import Verif.Props.FixedCFSurd

namespace NumIrr
open Fx
open Surd (ok_bind)

/-! ### `x / y` and `x * y.recip()` -/

/-- whether a surd is a purely imaginary number can be read off its fields -/
private theorem pure_iff {s : Surd} (h : s.Normal) : (s.a = 0 ∧ s.r < 0) ↔ (s.valC.re = 0 ∧ s.valC.im ≠ 0) := by
  have hc := h.c_pos
  have hc' : (s.c : ℝ) ≠ 0 := by exact_mod_cast hc.ne'
  unfold Surd.valC quadC rootC
  by_cases hr : 0 ≤ s.r
  · rw [if_pos hr]
    have e : (((s.a : ℂ) + s.b * ((Real.sqrt s.r : ℝ) : ℂ)) / s.c) =
      (((s.a + s.b * Real.sqrt s.r) / s.c : ℝ) : ℂ) := by push_cast; rfl
    rw [e, Complex.ofReal_re, Complex.ofReal_im]
    constructor
    · intro h1; omega
    · intro h1; exact absurd rfl h1.2
  · rw [if_neg hr]
    have hb : (s.b : ℝ) ≠ 0 := by
      have : s.b ≠ 0 := fun e => by have := h.rational.1 e; omega
      exact_mod_cast this
    have hs : Real.sqrt (-(s.r : ℝ)) ≠ 0 := by
      have : (s.r : ℝ) < 0 := by exact_mod_cast (not_le.1 hr)
      exact (Real.sqrt_pos.2 (by linarith)).ne'
    have e : (((s.a : ℂ) + s.b * (Complex.I * ((Real.sqrt (-(s.r : ℝ)) : ℝ) : ℂ))) / s.c) =
      (((s.a : ℝ) / s.c : ℝ) : ℂ) + (((s.b : ℝ) * Real.sqrt (-(s.r : ℝ)) / s.c : ℝ) : ℂ) * Complex.I := by
      push_cast; ring
    rw [e]
    simp only [Complex.add_re, Complex.add_im, Complex.ofReal_re, Complex.ofReal_im, Complex.re_ofReal_mul,
      Complex.im_ofReal_mul, Complex.I_re, Complex.I_im, mul_zero, mul_one, add_zero, zero_add]
    constructor
    · rintro ⟨h1, -⟩
      exact ⟨by rw [h1]; simp, div_ne_zero (mul_ne_zero hb hs) hc'⟩
    · rintro ⟨h1, -⟩
      refine ⟨?_, not_le.1 hr⟩
      rcases div_eq_zero_iff.1 h1 with h1 | h1
      · exact_mod_cast h1
      · exact absurd h1 hc'

private theorem inv_pure (z : ℂ) : (z⁻¹.re = 0 ∧ z⁻¹.im ≠ 0) ↔ (z.re = 0 ∧ z.im ≠ 0) := by
  have key : ∀ z : ℂ, (z.re = 0 ∧ z.im ≠ 0) → (z⁻¹.re = 0 ∧ z⁻¹.im ≠ 0) := by
    rintro z ⟨h1, h2⟩
    have hn : Complex.normSq z ≠ 0 := fun e => h2 (by rw [Complex.normSq_eq_zero.1 e]; rfl)
    rw [Complex.inv_re, Complex.inv_im]
    exact ⟨by rw [h1]; simp, div_ne_zero (neg_ne_zero.2 h2) hn⟩
  exact ⟨fun h => by have := key _ h; rwa [inv_inv] at this, key z⟩

/-- the full claim: dividing is multiplying by the reciprocal, down to the panics -/
def DivIsMulRecip (cfg : Cfg) (x y : Surd) : Prop :=
  Surd.div cfg x y = (Surd.recip cfg y >>= fun t => Surd.mul cfg x t)

/-- **C121** The claim is false in both directions, for normalised real surds without any feature.
`(-2-2√18) / (-2-2√8)` panics although the product with the reciprocal is `(11-√2)/7`; and `(1+√18) / (3+√72)` is
`(11-√2)/21` although the product with the reciprocal panics: normalising the reciprocal takes a square out of the root,
and roots are only recognised as related when one divides the other. -/
theorem surd_div_mul_recip_refuted : ∃ cfg : Cfg,
    (∃ x y z : Surd, x.RealOk ∧ y.RealOk ∧ Surd.div cfg x y = .error .incompatible ∧
      (Surd.recip cfg y >>= fun t => Surd.mul cfg x t) = .ok z) ∧
    (∃ x y z : Surd, x.RealOk ∧ y.RealOk ∧ Surd.div cfg x y = .ok z ∧
      (Surd.recip cfg y >>= fun t => Surd.mul cfg x t) = .error .incompatible) := by
  refine ⟨⟨false, false⟩, ⟨⟨-2, -2, 1, 18⟩, ⟨-2, -2, 1, 8⟩, ⟨11, -1, 7, 2⟩, ?_⟩,
    ⟨⟨1, 1, 1, 18⟩, ⟨3, 1, 1, 72⟩, ⟨11, -1, 21, 2⟩, ?_⟩⟩ <;> decide +kernel

/-- and zero divided by an irrational number panics while the product with the reciprocal is zero -/
theorem surd_zero_div_mul_recip (cfg : Cfg) : ¬ DivIsMulRecip cfg ⟨0, 0, 1, 0⟩ ⟨1, 1, 1, 2⟩ := by
  obtain ⟨c, d⟩ := cfg
  cases c <;> cases d <;> unfold DivIsMulRecip <;> decide +kernel

/-- **C121** (partial: only where both return) Dividing and multiplying by the reciprocal give the same number, and surds
equal by `==`; this includes complex surds, where both make the same sign error. -/
theorem surd_div_mul_recip_partial (cfg : Cfg) (x y t z w : Surd) (hx : x.Ok cfg) (hy : y.Ok cfg)
    (hz : Surd.div cfg x y = .ok z) (ht : Surd.recip cfg y = .ok t) (hw : Surd.mul cfg x t = .ok w) :
    z.valC = w.valC ∧ Surd.eq z w = true := by
  obtain ⟨t1, t2⟩ := surd_recip_value cfg y t hy ht
  have hp : (t.a = 0 ∧ t.r < 0) ↔ (y.a = 0 ∧ y.r < 0) := by
    rw [pure_iff t2.toNormal, pure_iff hy.toNormal, t1]; exact inv_pure _
  have key : z.valC = w.valC ∧ z.Ok cfg ∧ w.Ok cfg := by
    by_cases h : x.a = 0 ∧ y.a = 0 ∧ x.r < 0 ∧ y.r < 0
    · obtain ⟨h1, h2⟩ := surd_div_pure_imaginary cfg x y z hx hy h hz
      have := hp.2 ⟨h.2.1, h.2.2.2⟩
      obtain ⟨h3, h4⟩ := surd_mul_pure_imaginary cfg x t w hx t2 ⟨h.1, this.1, h.2.2.1, this.2⟩ hw
      exact ⟨by rw [h1, h3, t1, div_eq_mul_inv], h2, h4⟩
    · obtain ⟨-, h1, h2⟩ := surd_div_value_partial cfg x y z hx hy h hz
      obtain ⟨h3, h4⟩ := surd_mul_value_partial cfg x t w hx t2
        (fun k => h ⟨k.1, (hp.1 ⟨k.2.1, k.2.2.2⟩).1, k.2.2.1, (hp.1 ⟨k.2.1, k.2.2.2⟩).2⟩) hw
      exact ⟨by rw [h1, h3, t1, div_eq_mul_inv], h2, h4⟩
  exact ⟨key.1, surd_eq_complete cfg z w key.2.1 key.2.2 key.1⟩

/-- the golden ratio over `2+√5`; and `2i / 3i`, where both give `-2/3` -/
example : (Surd.mk 1 1 2 5).Ok ⟨true, true⟩ ∧ (Surd.mk 2 1 1 5).Ok ⟨true, true⟩ ∧
    Surd.div ⟨true, true⟩ ⟨1, 1, 2, 5⟩ ⟨2, 1, 1, 5⟩ = .ok ⟨3, -1, 2, 5⟩ ∧
    Surd.recip ⟨true, true⟩ ⟨2, 1, 1, 5⟩ = .ok ⟨-2, 1, 1, 5⟩ ∧
    Surd.mul ⟨true, true⟩ ⟨1, 1, 2, 5⟩ ⟨-2, 1, 1, 5⟩ = .ok ⟨3, -1, 2, 5⟩ ∧
    (Surd.mk 0 2 1 (-1)).Ok ⟨true, true⟩ ∧ (Surd.mk 0 3 1 (-1)).Ok ⟨true, true⟩ ∧
    Surd.div ⟨true, true⟩ ⟨0, 2, 1, -1⟩ ⟨0, 3, 1, -1⟩ = .ok ⟨-2, 0, 3, 0⟩ ∧
    Surd.recip ⟨true, true⟩ ⟨0, 3, 1, -1⟩ = .ok ⟨0, -1, 3, -1⟩ ∧
    Surd.mul ⟨true, true⟩ ⟨0, 2, 1, -1⟩ ⟨0, -1, 3, -1⟩ = .ok ⟨-2, 0, 3, 0⟩ := by decide +kernel

/-- **C121** (partial: only where both return, and with overflow checks) the same over primitive integers. -/
theorem fixed_div_mul_recip_partial (x : Fx) (hc : x.checks = true) (cfg : Cfg) (u v t z w : Surd)
    (hu : u.Ok cfg) (hv : v.Ok cfg) (hz : x.surdDiv cfg u v = .ok z) (ht : x.recip cfg v = .ok t)
    (hw : x.surdMul cfg u t = .ok w) : z.valC = w.valC ∧ Surd.eq z w = true :=
  surd_div_mul_recip_partial cfg u v t z w hu hv ((surdDiv_ref hc cfg u v).returns hz)
    ((recip_ref hc cfg v).returns ht) ((surdMul_ref hc cfg u t).returns hw)

example : (Fx.mk 8 true).surdDiv ⟨false, true⟩ ⟨1, 1, 2, 5⟩ ⟨2, 1, 1, 5⟩ = .ok ⟨3, -1, 2, 5⟩ ∧
    (Fx.mk 8 true).recip ⟨false, true⟩ ⟨2, 1, 1, 5⟩ = .ok ⟨-2, 1, 1, 5⟩ ∧
    (Fx.mk 8 true).surdMul ⟨false, true⟩ ⟨1, 1, 2, 5⟩ ⟨-2, 1, 1, 5⟩ = .ok ⟨3, -1, 2, 5⟩ := by decide +kernel

/-! ### `x - y` and `x + (-y)` over primitive integers -/

/-- **C121** (partial: only where both return, and with overflow checks) `x - y` and `x + (-y)` are the same fields.
Over unbounded integers this holds with the panics (`surd_comm_fields`). -/
theorem fixed_sub_add_neg_partial (x : Fx) (hc : x.checks = true) (cfg : Cfg) (u v t z w : Surd)
    (hu : u.Ok cfg) (hv : v.Ok cfg) (hz : x.surdSub cfg u v = .ok z) (ht : x.surdNeg v = .ok t)
    (hw : x.surdAdd cfg u t = .ok w) : z = w := by
  have h1 := (surdSub_ref hc cfg u v).returns hz
  have h2 := (surdNeg_ref hc v).returns ht
  have h3 := (surdAdd_ref hc cfg u t).returns hw
  cases h2
  rw [(CF.surd_comm_fields cfg u v hu hv).2.2, h3] at h1
  cases h1; rfl

example : (Fx.mk 8 true).surdSub ⟨false, false⟩ ⟨1, 1, 2, 5⟩ ⟨0, 1, 1, 45⟩ = .ok ⟨1, -5, 2, 5⟩ ∧
    (Fx.mk 8 true).surdNeg ⟨0, 1, 1, 45⟩ = .ok ⟨0, -1, 1, 45⟩ ∧
    (Fx.mk 8 true).surdAdd ⟨false, false⟩ ⟨1, 1, 2, 5⟩ ⟨0, -1, 1, 45⟩ = .ok ⟨1, -5, 2, 5⟩ := by decide +kernel

/-- **C121** In every primitive width, with checks, either form may overflow where the other returns the exact number:
`1/2 - 2^(w-2)` overflows and `1/2 + (-2^(w-2))` does not, while `-1 - MIN` is `MAX` and `-1 + (-MIN)` overflows. -/
theorem fixed_sub_add_neg_refuted : ∀ w ∈ [8, 16, 32, 64, 128],
    (∃ u v z : Surd, u.RealOk ∧ v.RealOk ∧ (Fx.mk w true).surdSub ⟨false, false⟩ u v = .error .overflow ∧
      ((Fx.mk w true).surdNeg v >>= fun t => (Fx.mk w true).surdAdd ⟨false, false⟩ u t) = .ok z) ∧
    (∃ u v z : Surd, u.RealOk ∧ v.RealOk ∧ (Fx.mk w true).surdSub ⟨false, false⟩ u v = .ok z ∧
      ((Fx.mk w true).surdNeg v >>= fun t => (Fx.mk w true).surdAdd ⟨false, false⟩ u t) = .error .overflow) := by
  have key : ∀ w ∈ [8, 16, 32, 64, 128],
      ((Surd.mk 1 0 2 0).RealOk ∧ (Surd.mk (2 ^ (w - 2)) 0 1 0).RealOk ∧
        (Fx.mk w true).surdSub ⟨false, false⟩ ⟨1, 0, 2, 0⟩ ⟨2 ^ (w - 2), 0, 1, 0⟩ = .error .overflow ∧
        ((Fx.mk w true).surdNeg ⟨2 ^ (w - 2), 0, 1, 0⟩ >>= fun t =>
          (Fx.mk w true).surdAdd ⟨false, false⟩ ⟨1, 0, 2, 0⟩ t) = .ok ⟨1 - 2 ^ (w - 1), 0, 2, 0⟩) ∧
      ((Surd.mk (-1) 0 1 0).RealOk ∧ (Surd.mk (-2 ^ (w - 1)) 0 1 0).RealOk ∧
        (Fx.mk w true).surdSub ⟨false, false⟩ ⟨-1, 0, 1, 0⟩ ⟨-2 ^ (w - 1), 0, 1, 0⟩ =
          .ok ⟨2 ^ (w - 1) - 1, 0, 1, 0⟩ ∧
        ((Fx.mk w true).surdNeg ⟨-2 ^ (w - 1), 0, 1, 0⟩ >>= fun t =>
          (Fx.mk w true).surdAdd ⟨false, false⟩ ⟨-1, 0, 1, 0⟩ t) = .error .overflow) := by decide +kernel
  intro w hw
  obtain ⟨h1, h2⟩ := key w hw
  exact ⟨⟨_, _, _, h1⟩, ⟨_, _, _, h2⟩⟩

/-- **C121** Without checks the two forms return different numbers, in every primitive width:
`1/2 - (-(2^(w-2)-2) + √2)/4` is right, and `1/2 + (2^(w-2)-2 - √2)/4` has the wrong sign. -/
theorem fixed_sub_add_neg_release_refuted : ∀ w ∈ [8, 16, 32, 64, 128], ∃ u v z z' : Surd, u.RealOk ∧ v.RealOk ∧
    (Fx.mk w false).surdSub ⟨false, false⟩ u v = .ok z ∧ Surd.sub ⟨false, false⟩ u v = .ok z ∧
    ((Fx.mk w false).surdNeg v >>= fun t => (Fx.mk w false).surdAdd ⟨false, false⟩ u t) = .ok z' ∧
    Surd.eq z z' = false := by
  have key : ∀ w ∈ [8, 16, 32, 64, 128],
    (Surd.mk 1 0 2 0).RealOk ∧ (Surd.mk (2 - 2 ^ (w - 2)) 1 4 2).RealOk ∧
    (Fx.mk w false).surdSub ⟨false, false⟩ ⟨1, 0, 2, 0⟩ ⟨2 - 2 ^ (w - 2), 1, 4, 2⟩ = .ok ⟨2 ^ (w - 2), -1, 4, 2⟩ ∧
    Surd.sub ⟨false, false⟩ ⟨1, 0, 2, 0⟩ ⟨2 - 2 ^ (w - 2), 1, 4, 2⟩ = .ok ⟨2 ^ (w - 2), -1, 4, 2⟩ ∧
    ((Fx.mk w false).surdNeg ⟨2 - 2 ^ (w - 2), 1, 4, 2⟩ >>= fun t =>
      (Fx.mk w false).surdAdd ⟨false, false⟩ ⟨1, 0, 2, 0⟩ t) = .ok ⟨-2 ^ (w - 2), -1, 4, 2⟩ ∧
    Surd.eq ⟨2 ^ (w - 2), -1, 4, 2⟩ ⟨-2 ^ (w - 2), -1, 4, 2⟩ = false := by decide +kernel
  intro w hw
  exact ⟨_, _, _, _, key w hw⟩

private theorem reads_neg {w : Nat} {c : CF} (h : c.Reads w) : c.neg'.Reads w := by
  unfold CF.neg'
  split
  · exact h
  · unfold CF.Reads at *
    by_cases hp : c.p = []
    · rw [if_pos hp] at h ⊢
      obtain ⟨r, h1, h2, h3⟩ := h
      unfold CF.valQ at *
      rw [Option.map_eq_some_iff] at h1
      obtain ⟨q, h4, h5⟩ := h1
      refine ⟨-r, ?_, by simpa using h2, by simpa using h3⟩
      simp only [h4, Option.map_some, ← h5]
      cases c.neg <;> simp [signed]
    · rw [if_neg hp] at h ⊢
      exact h

/-- **C121** (partial: only where both return, and with overflow checks) the same for continued fractions. Over unbounded
integers it holds with the panics (`cf_sub_eq_add_neg`). -/
theorem fixed_cf_sub_add_neg_partial (x : Fx) (hw : 2 ≤ x.w) (hc : x.checks = true) (cfg : Cfg) (fuel : ℕ)
    (hf : 2 ^ x.w ≤ fuel) (c e : CF) (h : c.Wf) (hr : c.Reads x.w) (he : e.Wf) (hre : e.Reads x.w) (z w : CF)
    (hz : x.cfSub cfg fuel c e = some (.ok z)) (hw' : x.cfAdd cfg fuel c e.neg' = some (.ok w)) : z = w := by
  obtain ⟨v, hv⟩ := he.hasVal
  have h1 := fixed_cf_bin_partial x hw hc cfg fuel hf c e h hr he hre .sub
  have h2 := fixed_cf_bin_partial x hw hc cfg fuel hf c e.neg' h hr ((CF.cf_neg e v hv).2.1 he) (reads_neg hre) .add
  change RefinesO (x.cfSub cfg fuel c e) (c.sub cfg fuel e) at h1
  change RefinesO (x.cfAdd cfg fuel c e.neg') (c.add cfg fuel e.neg') at h2
  rw [hz] at h1
  rw [hw'] at h2
  rcases h1 with h1 | h1
  · rcases h2 with h2 | h2
    · rw [CF.cf_sub_eq_add_neg cfg fuel c e h he, ← h2] at h1
      cases h1; rfl
    · cases h2
  · cases h1

/-- in `i8`, `1/2 - 9/4` -/
example : (CF.mk [0, 2] [] false).Wf ∧ (CF.mk [2, 4] [] false).Wf ∧
    (Fx.mk 8 true).cfSub ⟨false, false⟩ 256 ⟨[0, 2], [], false⟩ ⟨[2, 4], [], false⟩ =
      some (.ok ⟨[1, 1, 3], [], true⟩) ∧
    (Fx.mk 8 true).cfAdd ⟨false, false⟩ 256 ⟨[0, 2], [], false⟩ (CF.mk [2, 4] [] false).neg' =
      some (.ok ⟨[1, 1, 3], [], true⟩) := by
  refine ⟨by simp [CF.Wf], by simp [CF.Wf], by decide +kernel, by decide +kernel⟩

/-- **C121** for continued fractions too the two forms overflow at different places: in `i8`, `1/2 - 64` overflows and
`1/2 + (-64)` is `-[63; 2]` -/
theorem fixed_cf_sub_add_neg_refuted : ∃ c e z : CF, c.Canonical ∧ e.Canonical ∧
    (Fx.mk 8 true).cfSub ⟨false, false⟩ 256 c e = some (.error .overflow) ∧
    (Fx.mk 8 true).cfAdd ⟨false, false⟩ 256 c e.neg' = some (.ok z) :=
  ⟨⟨[0, 2], [], false⟩, ⟨[64], [], false⟩, ⟨[63, 2], [], true⟩, by simp [CF.Canonical], by simp [CF.Canonical],
    by decide +kernel, by decide +kernel⟩

end NumIrr
