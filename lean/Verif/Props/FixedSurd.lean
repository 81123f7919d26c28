/-
C63-C65: quadratic surds over the fixed-width integers `i8 … i128`.
`Fx` is a width and whether overflow checks are compiled in (`Model/Fixed.lean`); `Surd.new`, `Surd.add`, … are the
arbitrary-precision operations, `Refines r b` says that `r` is `b` or an overflow panic (`Spec/Fixed.lean`).
-/
import Verif.Lemmas.FixedSafeOps
import Verif.Lemmas.FixedHolds
import Verif.Lemmas.FixedWrap
import Verif.Props.SurdArith
import Verif.Props.SurdRound
import Verif.Props.SurdEq

namespace NumIrr
open Surd

/-! ### C63 with overflow checks: exact or an overflow panic -/

/-- **C63** constructors -/
theorem fixed_new_refines (x : Fx) (hx : x.checks = true) (cfg : Cfg) :
    (∀ a b c r, Refines (x.surdNew cfg a b c r) (Surd.new cfg a b c r)) ∧
    (∀ l r, Refines (x.fromCoeffs cfg l r) (Surd.fromCoeffs cfg l r)) ∧
    (∀ a b r : ℚ, Refines (x.fromRationals cfg (.of a) (.of b) (.of r)) (Surd.fromRationals cfg a b r)) :=
  ⟨Fx.surdNew_ref hx cfg, Fx.fromCoeffs_ref hx cfg, Fx.fromRationals_ref hx cfg⟩
example : (⟨8, true⟩ : Fx).surdNew ⟨false, true⟩ 4 6 (-8) 12 = .ok ⟨-1, -3, 2, 3⟩ ∧
    (⟨8, true⟩ : Fx).surdNew ⟨false, true⟩ (-128) 60 (-128) 12 = .error .overflow := by decide +kernel

/-- **C63** operations on two surds -/
theorem fixed_arith_refines (x : Fx) (hx : x.checks = true) (cfg : Cfg) (l r : Surd) :
    Refines (x.surdAdd cfg l r) (Surd.add cfg l r) ∧ Refines (x.surdSub cfg l r) (Surd.sub cfg l r) ∧
    Refines (x.surdMul cfg l r) (Surd.mul cfg l r) ∧ Refines (x.surdDiv cfg l r) (Surd.div cfg l r) ∧
    Refines (x.eq l r) (.ok (Surd.eq l r)) :=
  ⟨Fx.surdAdd_ref hx cfg l r, Fx.surdSub_ref hx cfg l r, Fx.surdMul_ref hx cfg l r, Fx.surdDiv_ref hx cfg l r,
    Fx.eq_ref hx l r⟩

/-- **C63** operations with an integer or a rational -/
theorem fixed_scalar_refines (x : Fx) (hx : x.checks = true) (cfg : Cfg) (s : Surd) (k : ℤ) (q : ℚ) :
    Refines (x.surdAddInt cfg s k) (s.addInt cfg k) ∧ Refines (x.surdSubInt cfg s k) (s.subInt cfg k) ∧
    Refines (x.surdMulInt cfg s k) (s.mulInt cfg k) ∧ Refines (x.surdDivInt cfg s k) (s.divInt cfg k) ∧
    Refines (x.surdAddRat cfg s (.of q)) (s.addRat cfg q) ∧ Refines (x.surdSubRat cfg s (.of q)) (s.subRat cfg q) ∧
    Refines (x.surdMulRat cfg s (.of q)) (s.mulRat cfg q) ∧ Refines (x.surdDivRat cfg s (.of q)) (s.divRat cfg q) :=
  ⟨Fx.surdAddInt_ref hx cfg s k, Fx.surdSubInt_ref hx cfg s k, Fx.surdMulInt_ref hx cfg s k, Fx.surdDivInt_ref hx cfg s k,
    Fx.surdAddRat_ref hx cfg s q, Fx.surdSubRat_ref hx cfg s q, Fx.surdMulRat_ref hx cfg s q, Fx.surdDivRat_ref hx cfg s q⟩
example : (⟨8, true⟩ : Fx).surdAddRat ⟨false, true⟩ ⟨1, 1, 2, 5⟩ (.of (1/2)) = .ok ⟨2, 1, 2, 5⟩ ∧
    (⟨8, true⟩ : Fx).surdAddInt ⟨false, true⟩ ⟨100, 1, 1, 2⟩ 100 = .error .overflow := by decide +kernel

/-- **C63** operations on one surd -/
theorem fixed_unary_refines (x : Fx) (hx : x.checks = true) (cfg : Cfg) (s : Surd) :
    Refines (x.recip cfg s) (s.recip cfg) ∧ Refines (x.conj s) (.ok s.conj) ∧ Refines (x.surdNeg s) (.ok s.neg) ∧
    Refines (x.trunc cfg s) (s.trunc cfg) ∧ Refines (x.fract cfg s) (s.fract cfg) ∧
    Refines (x.floor cfg s) (s.floor cfg) ∧ Refines (x.toInteger cfg s) (s.toInteger cfg) ∧
    Refines (x.toRational cfg s) (s.toRational cfg) ∧ Refines (x.isPositive cfg s) (s.isPositive cfg) ∧
    Refines (x.isNegative cfg s) (s.isNegative cfg) :=
  ⟨Fx.recip_ref hx cfg s, Fx.conj_ref hx s, Fx.surdNeg_ref hx s, Fx.trunc_ref hx cfg s, Fx.fract_ref hx cfg s,
    Fx.floor_ref hx cfg s, Fx.toInteger_ref hx cfg s, Fx.toRational_ref hx cfg s, Fx.isPositive_ref hx cfg s,
    Fx.isNegative_ref hx cfg s⟩
example : (⟨16, true⟩ : Fx).recip ⟨false, true⟩ ⟨1, 1, 1, 2⟩ = .ok ⟨-1, 1, 1, 2⟩ ∧
    (⟨8, true⟩ : Fx).conj ⟨1, -128, 1, 2⟩ = .error .overflow := by decide +kernel

/-- **C63** read as values: whatever a checked operation returns is the exact sum, difference, product or quotient. -/
theorem fixed_arith_value (x : Fx) (hx : x.checks = true) (cfg : Cfg) (l r z : Surd) (hl : l.RealOk) (hr : r.RealOk) :
    (x.surdAdd cfg l r = .ok z → z.RealOk ∧ z.val = l.val + r.val) ∧
    (x.surdSub cfg l r = .ok z → z.RealOk ∧ z.val = l.val - r.val) ∧
    (x.surdMul cfg l r = .ok z → z.RealOk ∧ z.val = l.val * r.val) ∧
    (x.surdDiv cfg l r = .ok z → z.valC = l.valC / r.valC ∧ z.Ok cfg) := by
  obtain ⟨h1, h2, h3, h4, _⟩ := fixed_arith_refines x hx cfg l r
  refine ⟨fun h => surd_add_value_real cfg l r z hl hr (h1.returns h),
    fun h => surd_sub_value_real cfg l r z hl hr (h2.returns h),
    fun h => surd_mul_value_real cfg l r z hl hr (h3.returns h),
    fun h => (surd_div_value_partial cfg l r z (hl.toOk cfg) (hr.toOk cfg) ?_ (h4.returns h)).2⟩
  have := hl.real
  omega

/-- **C63** constructor and floor as values -/
theorem fixed_new_value (x : Fx) (hx : x.checks = true) (cfg : Cfg) (a b c r : ℤ) (s : Surd)
    (h : x.surdNew cfg a b c r = .ok s) : s.valC = quadC a b c r ∧ s.Ok cfg :=
  have h' := ((fixed_new_refines x hx cfg).1 a b c r).returns h
  ⟨surd_new_value cfg a b c r s h', surd_new_normal cfg a b c r s h'⟩
example : (⟨8, true⟩ : Fx).surdNew ⟨false, true⟩ 4 6 (-8) 12 = .ok ⟨-1, -3, 2, 3⟩ := by decide +kernel

theorem fixed_floor_value (x : Fx) (hx : x.checks = true) (cfg : Cfg) (s t : Surd) (hs : s.RealOk)
    (h : x.floor cfg s = .ok t) : t = Surd.ofInt ⌊s.val⌋ := by
  have h' := (Fx.floor_ref hx cfg s).returns h
  rw [surd_floor cfg s hs] at h'
  cases h'; rfl

/-- `i32` with checks: (1+√5)/2 · (1+√5)/2, and an overflow -/
example : (⟨32, true⟩ : Fx).surdMul ⟨false, true⟩ ⟨1, 1, 2, 5⟩ ⟨1, 1, 2, 5⟩ = .ok ⟨3, 1, 2, 5⟩ ∧
    (⟨32, true⟩ : Fx).surdMul ⟨false, true⟩ ⟨65536, 1, 1, 5⟩ ⟨65536, 1, 1, 5⟩ = .error .overflow := by decide +kernel

/-- **C63** everything stored is representable, with or without overflow checks: constructors -/
theorem fixed_new_holds (x : Fx) (hw : 2 ≤ x.w) (cfg : Cfg) (a b c r : ℤ) (s : Surd) (ha : x.Holds a) (hb : x.Holds b)
    (hc : x.Holds c) (hr : x.Holds r) (h : x.surdNew cfg a b c r = .ok s) : x.HoldsS s :=
  Fx.surdNew_holds hw cfg ha hb hc hr s h

/-- **C63** everything stored is representable: operations -/
theorem fixed_arith_holds (x : Fx) (hw : 2 ≤ x.w) (cfg : Cfg) (l r z : Surd) (k : ℤ) (q : Rt) (hl : x.HoldsS l)
    (hr : x.HoldsS r)
    (h : x.surdAdd cfg l r = .ok z ∨ x.surdSub cfg l r = .ok z ∨ x.surdMul cfg l r = .ok z ∨ x.surdDiv cfg l r = .ok z ∨
      x.surdAddInt cfg l k = .ok z ∨ x.surdSubInt cfg l k = .ok z ∨ x.surdMulInt cfg l k = .ok z ∨
      x.surdDivInt cfg l k = .ok z ∨ x.surdAddRat cfg l q = .ok z ∨ x.surdSubRat cfg l q = .ok z ∨
      x.surdMulRat cfg l q = .ok z ∨ x.surdDivRat cfg l q = .ok z ∨ x.recip cfg l = .ok z ∨ x.conj l = .ok z ∨
      x.surdNeg l = .ok z ∨ x.trunc cfg l = .ok z ∨ x.fract cfg l = .ok z ∨ x.floor cfg l = .ok z) :
    x.HoldsS z := by
  rcases h with h | h | h | h | h | h | h | h | h | h | h | h | h | h | h | h | h | h
  · exact Fx.surdAdd_holds hw cfg hl hr z h
  · exact Fx.surdSub_holds hw cfg hl hr z h
  · exact Fx.surdMul_holds hw cfg hl hr z h
  · exact Fx.surdDiv_holds hw cfg hl hr z h
  · exact Fx.surdAddInt_holds hw cfg hl k z h
  · exact Fx.surdSubInt_holds hw cfg hl k z h
  · exact Fx.surdMulInt_holds hw cfg hl k z h
  · exact Fx.surdDivInt_holds hw cfg hl k z h
  · exact Fx.surdAddRat_holds hw cfg hl q z h
  · exact Fx.surdSubRat_holds hw cfg hl q z h
  · exact Fx.surdMulRat_holds hw cfg hl q z h
  · exact Fx.surdDivRat_holds hw cfg hl q z h
  · exact Fx.recip_holds hw cfg hl z h
  · exact Fx.conj_holds hw hl z h
  · exact Fx.surdNeg_holds hw hl z h
  · exact Fx.trunc_holds hw cfg l z h
  · exact Fx.fract_holds hw cfg hl z h
  · exact Fx.floor_holds hw cfg l z h

/-- a wrapped result is stored as a representable number -/
example : (⟨8, false⟩ : Fx).surdAddInt ⟨false, true⟩ ⟨100, 1, 1, 2⟩ 100 = .ok ⟨-56, 1, 1, 2⟩ := by decide +kernel

/-! ### C64 operands that are small enough -/

/-- **C64** `new` is exact on inputs up to `B` when `2B²` fits, whether or not overflow checks are compiled in. -/
theorem fixed_new_safe (x : Fx) (cfg : Cfg) (a b c r B : ℤ) (hB : 1 ≤ B) (hs : (Surd.mk a b c r).Small B)
    (h : 2 * B ^ 2 < 2 ^ (x.w - 1)) : x.surdNew cfg a b c r = Surd.new cfg a b c r := by
  refine Fx.run_eq (f := fun y => y.surdNew cfg a b c r) (fun _ hy => Fx.surdNew_ref hy cfg a b c r)
    (fun _ hy => Fx.surdNew_rel hy cfg a b c r)
    (Fx.surdNew_safe (x := ⟨x.w, true⟩) (L := 2 * B ^ 2) h cfg (S := B) (A := B) (Bb := B) (C := B) (R := B) ⟨hs.1, hs.2.1, hs.2.2.1⟩
      hs.2.2.2 hB ?_ ?_ ?_ ?_) <;> nlinarith
example : (Surd.mk 4 6 (-7) 7).Small 7 ∧ (2 : ℤ) * 7 ^ 2 < 2 ^ (8 - 1) := by unfold Surd.Small; decide

/-- **C64** `from_rationals` is exact on numerators and denominators up to `B` when `2B⁶` fits. -/
theorem fixed_fromRationals_safe (x : Fx) (cfg : Cfg) (a b r : ℚ) (B : ℤ) (hB : 1 ≤ B)
    (h : ∀ q ∈ [a, b, r], |q.num| ≤ B ∧ (q.den : ℤ) ≤ B) (hw : 2 * B ^ 6 < 2 ^ (x.w - 1)) :
    x.fromRationals cfg (.of a) (.of b) (.of r) = Surd.fromRationals cfg a b r := by
  have hq : ∀ q ∈ [a, b, r], Fx.RBnd (.of q) B := fun q hq => ⟨(h q hq).1, by
    show |((q.den : ℕ) : ℤ)| ≤ B
    rw [abs_of_nonneg (by positivity)]; exact (h q hq).2⟩
  exact Fx.run_eq (f := fun y => y.fromRationals cfg (.of a) (.of b) (.of r))
    (fun _ hy => Fx.fromRationals_ref hy cfg a b r) (fun _ hy => Fx.fromRationals_rel hy cfg _ _ _)
    (Fx.fromRationals_safe (x := ⟨x.w, true⟩) hw hB cfg (hq a (by simp)) (hq b (by simp)) (hq r (by simp)) le_rfl)
example : (∀ q ∈ [(1/2 : ℚ), 2/3, 3/5], |q.num| ≤ (5 : ℤ) ∧ (q.den : ℤ) ≤ 5) ∧ (2 : ℤ) * 5 ^ 6 < 2 ^ (32 - 1) := by
  decide +kernel

/-- **C64** addition, subtraction and multiplication are exact on operands with fields up to `B` when `4B⁴` fits. -/
theorem fixed_arith_safe (x : Fx) (cfg : Cfg) (l r : Surd) (B : ℤ) (hB : 1 ≤ B) (hl : l.Small B) (hr : r.Small B)
    (h : 4 * B ^ 4 < 2 ^ (x.w - 1)) :
    x.surdAdd cfg l r = Surd.add cfg l r ∧ x.surdSub cfg l r = Surd.sub cfg l r ∧
    x.surdMul cfg l r = Surd.mul cfg l r :=
  ⟨Fx.run_eq (f := fun y => y.surdAdd cfg l r) (fun _ hy => Fx.surdAdd_ref hy cfg l r)
      (fun _ hy => Fx.surdAdd_rel hy cfg l r) (Fx.surdAdd_safe (x := ⟨x.w, true⟩) h hB cfg hl hr le_rfl),
    Fx.run_eq (f := fun y => y.surdSub cfg l r) (fun _ hy => Fx.surdSub_ref hy cfg l r)
      (fun _ hy => Fx.surdSub_rel hy cfg l r) (Fx.surdSub_safe (x := ⟨x.w, true⟩) h hB cfg hl hr le_rfl),
    Fx.run_eq (f := fun y => y.surdMul cfg l r) (fun _ hy => Fx.surdMul_ref hy cfg l r)
      (fun _ hy => Fx.surdMul_rel hy cfg l r) (Fx.surdMul_safe (x := ⟨x.w, true⟩) h hB cfg hl hr le_rfl)⟩

/-- **C64** operations with an integer, on fields and integers up to `B`. -/
theorem fixed_int_safe (x : Fx) (cfg : Cfg) (s : Surd) (k B : ℤ) (hB : 1 ≤ B) (hs : s.Small B) (hk : |k| ≤ B)
    (h : 4 * B ^ 4 < 2 ^ (x.w - 1)) :
    x.surdAddInt cfg s k = s.addInt cfg k ∧ x.surdSubInt cfg s k = s.subInt cfg k ∧
    x.surdMulInt cfg s k = s.mulInt cfg k ∧ x.surdDivInt cfg s k = s.divInt cfg k :=
  ⟨Fx.run_eq (f := fun y => y.surdAddInt cfg s k) (fun _ hy => Fx.surdAddInt_ref hy cfg s k)
      (fun _ hy => Fx.surdAddInt_rel hy cfg s k) (Fx.surdAddInt_safe (x := ⟨x.w, true⟩) h hB cfg hs hk le_rfl),
    Fx.run_eq (f := fun y => y.surdSubInt cfg s k) (fun _ hy => Fx.surdSubInt_ref hy cfg s k)
      (fun _ hy => Fx.surdSubInt_rel hy cfg s k) (Fx.surdSubInt_safe (x := ⟨x.w, true⟩) h hB cfg hs hk le_rfl),
    Fx.run_eq (f := fun y => y.surdMulInt cfg s k) (fun _ hy => Fx.surdMulInt_ref hy cfg s k)
      (fun _ hy => Fx.surdMulInt_rel hy cfg s k) (Fx.surdMulInt_safe (x := ⟨x.w, true⟩) h hB cfg hs hk le_rfl),
    Fx.run_eq (f := fun y => y.surdDivInt cfg s k) (fun _ hy => Fx.surdDivInt_ref hy cfg s k)
      (fun _ hy => Fx.surdDivInt_rel hy cfg s k) (Fx.surdDivInt_safe (x := ⟨x.w, true⟩) h hB cfg hs hk le_rfl)⟩

/-- **C64** operations with a rational, on fields, numerators and denominators up to `B`. -/
theorem fixed_rat_safe (x : Fx) (cfg : Cfg) (s : Surd) (q : ℚ) (B : ℤ) (hB : 1 ≤ B) (hs : s.Small B) (hn : |q.num| ≤ B)
    (hd : (q.den : ℤ) ≤ B) (h : 4 * B ^ 4 < 2 ^ (x.w - 1)) :
    x.surdAddRat cfg s (.of q) = s.addRat cfg q ∧ x.surdSubRat cfg s (.of q) = s.subRat cfg q ∧
    x.surdMulRat cfg s (.of q) = s.mulRat cfg q ∧ x.surdDivRat cfg s (.of q) = s.divRat cfg q := by
  have hq : Fx.RBnd (.of q) B := ⟨hn, by
    show |((q.den : ℕ) : ℤ)| ≤ B
    rw [abs_of_nonneg (by positivity)]; exact hd⟩
  exact ⟨Fx.run_eq (f := fun y => y.surdAddRat cfg s (.of q)) (fun _ hy => Fx.surdAddRat_ref hy cfg s q)
      (fun _ hy => Fx.surdAddRat_rel hy cfg s _) (Fx.surdAddRat_safe (x := ⟨x.w, true⟩) h hB cfg hs hq le_rfl),
    Fx.run_eq (f := fun y => y.surdSubRat cfg s (.of q)) (fun _ hy => Fx.surdSubRat_ref hy cfg s q)
      (fun _ hy => Fx.surdSubRat_rel hy cfg s _) (Fx.surdSubRat_safe (x := ⟨x.w, true⟩) h hB cfg hs hq le_rfl),
    Fx.run_eq (f := fun y => y.surdMulRat cfg s (.of q)) (fun _ hy => Fx.surdMulRat_ref hy cfg s q)
      (fun _ hy => Fx.surdMulRat_rel hy cfg s _) (Fx.surdMulRat_safe (x := ⟨x.w, true⟩) h hB cfg hs hq le_rfl),
    Fx.run_eq (f := fun y => y.surdDivRat cfg s (.of q)) (fun _ hy => Fx.surdDivRat_ref hy cfg s q)
      (fun _ hy => Fx.surdDivRat_rel hy cfg s _) (Fx.surdDivRat_safe (x := ⟨x.w, true⟩) h hB cfg hs hq le_rfl)⟩

/-- **C64** division is exact when `4B¹⁰` fits. -/
theorem fixed_div_safe (x : Fx) (cfg : Cfg) (l r : Surd) (B : ℤ) (hB : 1 ≤ B) (hl : l.Small B) (hr : r.Small B)
    (hr' : r.Ok cfg) (h : 4 * B ^ 10 < 2 ^ (x.w - 1)) : x.surdDiv cfg l r = Surd.div cfg l r :=
  Fx.run_eq (f := fun y => y.surdDiv cfg l r) (fun _ hy => Fx.surdDiv_ref hy cfg l r)
    (fun _ hy => Fx.surdDiv_rel hy cfg l r) (Fx.surdDiv_safe (x := ⟨x.w, true⟩) h hB cfg hl hr hr'.irrational le_rfl)
example : (Surd.mk 1 2 3 5).Small 5 ∧ (Surd.mk 1 2 3 5).Ok ⟨false, true⟩ ∧ (4 : ℤ) * 5 ^ 10 < 2 ^ (32 - 1) := by
  refine ⟨by unfold Surd.Small; decide, by decide +kernel, by decide⟩

/-- **C64** reciprocal, rounding, conversion, comparison with zero and equality. -/
theorem fixed_unary_safe (x : Fx) (cfg : Cfg) (s : Surd) (B : ℤ) (hB : 1 ≤ B) (hs : s.Small B) :
    (4 * B ^ 6 < 2 ^ (x.w - 1) → x.recip cfg s = s.recip cfg) ∧
    (B < 2 ^ (x.w - 1) → x.conj s = .ok s.conj ∧ x.surdNeg s = .ok s.neg) ∧
    (2 * B ^ 3 < 2 ^ (x.w - 1) → x.trunc cfg s = s.trunc cfg ∧ x.toInteger cfg s = s.toInteger cfg ∧
      x.toRational cfg s = s.toRational cfg) ∧
    (5 * B ^ 3 < 2 ^ (x.w - 1) → x.floor cfg s = s.floor cfg) ∧
    (64 * B ^ 8 < 2 ^ (x.w - 1) → x.fract cfg s = s.fract cfg) ∧
    (B ^ 3 < 2 ^ (x.w - 1) → x.isPositive cfg s = s.isPositive cfg ∧ x.isNegative cfg s = s.isNegative cfg) := by
  obtain ⟨p1, p2, p3, p4, p5, _⟩ := Fx.pows hB
  refine ⟨fun h => ?_, fun h => ⟨?_, ?_⟩, fun h => ⟨?_, ?_, ?_⟩, fun h => ?_, fun h => ?_, fun h => ⟨?_, ?_⟩⟩
  · exact Fx.run_eq (f := fun y => y.recip cfg s) (fun _ hy => Fx.recip_ref hy cfg s) (fun _ hy => Fx.recip_rel hy cfg s)
      (Fx.recip_safe (x := ⟨x.w, true⟩) h hB cfg hB hs (by linarith) (by linarith))
  · exact Fx.run_eq (f := fun y => y.conj s) (fun _ hy => Fx.conj_ref hy s) (fun _ hy => Fx.conj_rel hy s)
      (Fx.conj_safe (x := ⟨x.w, true⟩) h hs le_rfl)
  · exact Fx.run_eq (f := fun y => y.surdNeg s) (fun _ hy => Fx.surdNeg_ref hy s) (fun _ hy => Fx.surdNeg_rel hy s)
      (Fx.surdNeg_safe (x := ⟨x.w, true⟩) h hs le_rfl le_rfl)
  · exact Fx.run_eq (f := fun y => y.trunc cfg s) (fun _ hy => Fx.trunc_ref hy cfg s) (fun _ hy => Fx.trunc_rel hy cfg s)
      (Fx.trunc_safe (x := ⟨x.w, true⟩) h hB cfg hs le_rfl)
  · exact Fx.run_eq (f := fun y => y.toInteger cfg s) (fun _ hy => Fx.toInteger_ref hy cfg s)
      (fun _ hy => Fx.toInteger_rel hy cfg s) (Fx.toInteger_safe (x := ⟨x.w, true⟩) h hB cfg hs le_rfl)
  · exact Fx.run_eq (f := fun y => y.toRational cfg s) (fun _ hy => Fx.toRational_ref hy cfg s)
      (fun _ hy => Fx.toRational_rel hy cfg s) (Fx.toRational_safe (x := ⟨x.w, true⟩) h hB cfg hs le_rfl)
  · exact Fx.run_eq (f := fun y => y.floor cfg s) (fun _ hy => Fx.floor_ref hy cfg s) (fun _ hy => Fx.floor_rel hy cfg s)
      (Fx.floor_safe (x := ⟨x.w, true⟩) h hB cfg hs le_rfl)
  · exact Fx.run_eq (f := fun y => y.fract cfg s) (fun _ hy => Fx.fract_ref hy cfg s) (fun _ hy => Fx.fract_rel hy cfg s)
      (Fx.fract_safe (x := ⟨x.w, true⟩) h hB cfg hs le_rfl)
  · exact Fx.run_eq (f := fun y => y.isPositive cfg s) (fun _ hy => Fx.isPositive_ref hy cfg s)
      (fun _ hy => Fx.isPositive_rel hy cfg s) (Fx.isPositive_safe (x := ⟨x.w, true⟩) h hB cfg hs le_rfl)
  · exact Fx.run_eq (f := fun y => y.isNegative cfg s) (fun _ hy => Fx.isNegative_ref hy cfg s)
      (fun _ hy => Fx.isNegative_rel hy cfg s) (Fx.isNegative_safe (x := ⟨x.w, true⟩) h hB cfg hs le_rfl)

/-- **C64** equality -/
theorem fixed_eq_safe (x : Fx) (l r : Surd) (B : ℤ) (hB : 1 ≤ B) (hl : l.Small B) (hr : r.Small B)
    (h : B ^ 5 < 2 ^ (x.w - 1)) : x.eq l r = .ok (Surd.eq l r) :=
  Fx.run_eq (f := fun y => y.eq l r) (fun _ hy => Fx.eq_ref hy l r) (fun _ hy => Fx.eq_rel hy l r)
    (Fx.eq_safe (x := ⟨x.w, true⟩) h hB hl hr le_rfl)

/-- `i64`: fields up to 38000 for `+ - *`, up to 68 for `/`, up to 2 · 10⁹ for `new` -/
example : 4 * (38000 : ℤ) ^ 4 < 2 ^ (64 - 1) ∧ 4 * (68 : ℤ) ^ 10 < 2 ^ (64 - 1) ∧
    2 * (2000000000 : ℤ) ^ 2 < 2 ^ (64 - 1) ∧ (Surd.mk (-37000) 12345 678 37999).Small 38000 := by
  refine ⟨by norm_num, by norm_num, by norm_num, ?_⟩
  unfold Surd.Small; decide

/-! ### C65 without overflow checks -/

/-- **C65** is false: without overflow checks `new` can return a different number although its arguments and the exact
result fit.  `gac * gac` wraps around and shares a square factor with the root that `gac` does not have. -/
theorem fixed_release_refuted (cfg : Cfg) (w : ℕ) (hw : w = 8 ∨ w = 16 ∨ w = 32 ∨ w = 64 ∨ w = 128) :
    ∃ (a b c r : ℤ) (s t : Surd), (⟨w, false⟩ : Fx).HoldsS ⟨a, b, c, r⟩ ∧ Surd.new cfg a b c r = .ok s ∧
      (⟨w, false⟩ : Fx).HoldsS s ∧ (⟨w, false⟩ : Fx).surdNew cfg a b c r = .ok t ∧ t.valC ≠ quadC a b c r := by
  have key : ∀ (p q : ℤ), Surd.new cfg p 1 p 18 = .ok ⟨p, 1, p, 18⟩ → (Surd.mk q 1 q 2).Ok cfg →
      Surd.eq ⟨q, 1, q, 2⟩ ⟨p, 1, p, 18⟩ = false → (Surd.mk q 1 q 2).valC ≠ quadC p 1 p 18 := by
    intro p q h1 h2 h3 h4
    rw [← surd_new_value cfg p 1 p 18 _ h1] at h4
    have := surd_eq_complete cfg _ _ h2 (surd_new_normal cfg p 1 p 18 _ h1) h4
    rw [this] at h3; cases h3
  obtain ⟨c, d⟩ := cfg
  rcases hw with rfl | rfl | rfl | rfl | rfl
  · exact ⟨31, 1, 31, 18, ⟨31, 1, 31, 18⟩, ⟨10, 1, 10, 2⟩, by unfold Fx.HoldsS Fx.Holds; decide,
      by cases c <;> cases d <;> decide +kernel, by unfold Fx.HoldsS Fx.Holds; decide,
      by cases c <;> cases d <;> decide +kernel,
      key _ _ (by cases c <;> cases d <;> decide +kernel) (by cases c <;> cases d <;> decide +kernel) (by decide +kernel)⟩
  · exact ⟨185, 1, 185, 18, ⟨185, 1, 185, 18⟩, ⟨61, 1, 61, 2⟩, by unfold Fx.HoldsS Fx.Holds; decide,
      by cases c <;> cases d <;> decide +kernel, by unfold Fx.HoldsS Fx.Holds; decide,
      by cases c <;> cases d <;> decide +kernel,
      key _ _ (by cases c <;> cases d <;> decide +kernel) (by cases c <;> cases d <;> decide +kernel) (by decide +kernel)⟩
  · exact ⟨46343, 1, 46343, 18, ⟨46343, 1, 46343, 18⟩, ⟨15447, 1, 15447, 2⟩, by unfold Fx.HoldsS Fx.Holds; decide,
      by cases c <;> cases d <;> decide +kernel, by unfold Fx.HoldsS Fx.Holds; decide,
      by cases c <;> cases d <;> decide +kernel,
      key _ _ (by cases c <;> cases d <;> decide +kernel) (by cases c <;> cases d <;> decide +kernel) (by decide +kernel)⟩
  · exact ⟨3037000505, 1, 3037000505, 18, ⟨3037000505, 1, 3037000505, 18⟩, ⟨1012333501, 1, 1012333501, 2⟩,
      by unfold Fx.HoldsS Fx.Holds; decide,
      by cases c <;> cases d <;> decide +kernel, by unfold Fx.HoldsS Fx.Holds; decide,
      by cases c <;> cases d <;> decide +kernel,
      key _ _ (by cases c <;> cases d <;> decide +kernel) (by cases c <;> cases d <;> decide +kernel) (by decide +kernel)⟩
  · exact ⟨13043817825332782219, 1, 13043817825332782219, 18, ⟨13043817825332782219, 1, 13043817825332782219, 18⟩,
      ⟨4347939275110927406, 1, 4347939275110927406, 2⟩, by unfold Fx.HoldsS Fx.Holds; decide,
      by cases c <;> cases d <;> decide +kernel, by unfold Fx.HoldsS Fx.Holds; decide,
      by cases c <;> cases d <;> decide +kernel,
      key _ _ (by cases c <;> cases d <;> decide +kernel) (by cases c <;> cases d <;> decide +kernel) (by decide +kernel)⟩

/-- **C65** the same inputs panic when overflow checks are on, although the exact result fits. -/
theorem fixed_spurious_overflow (cfg : Cfg) : ∃ (a b c r : ℤ) (s : Surd), (⟨64, true⟩ : Fx).HoldsS ⟨a, b, c, r⟩ ∧
    Surd.new cfg a b c r = .ok s ∧ (⟨64, true⟩ : Fx).HoldsS s ∧
    (⟨64, true⟩ : Fx).surdNew cfg a b c r = .error .overflow := by
  obtain ⟨c, d⟩ := cfg
  exact ⟨3037000505, 1, 3037000505, 18, ⟨3037000505, 1, 3037000505, 18⟩, by unfold Fx.HoldsS Fx.Holds; decide,
    by cases c <;> cases d <;> decide +kernel, by unfold Fx.HoldsS Fx.Holds; decide,
    by cases c <;> cases d <;> decide +kernel⟩

/-- **C65** is false of equality at every width: without overflow checks `2^k·√2 == 2^k·√3` is true, because both sides
are compared through squares that wrap to 0. -/
theorem fixed_eq_refuted (k : ℕ) (hk : 3 ≤ k) :
    (⟨2 * k, false⟩ : Fx).HoldsS ⟨0, 2 ^ k, 1, 2⟩ ∧ (⟨2 * k, false⟩ : Fx).HoldsS ⟨0, 2 ^ k, 1, 3⟩ ∧
    (⟨2 * k, false⟩ : Fx).eq ⟨0, 2 ^ k, 1, 2⟩ ⟨0, 2 ^ k, 1, 3⟩ = .ok true ∧
    (Surd.mk 0 (2 ^ k) 1 2).valC ≠ (Surd.mk 0 (2 ^ k) 1 3).valC := by
  have hw : 2 ≤ (⟨2 * k, false⟩ : Fx).w := by dsimp only; omega
  have hlt : (2 : ℤ) ^ k < 2 ^ (2 * k - 1) := pow_lt_pow_right₀ (by norm_num) (by omega)
  have hpos : (8 : ℤ) ≤ 2 ^ k := by
    have : (2 : ℤ) ^ 3 ≤ 2 ^ k := pow_le_pow_right₀ (by norm_num) hk
    linarith
  have hold : ∀ v : ℤ, 0 ≤ v → v ≤ 2 ^ k → (⟨2 * k, false⟩ : Fx).Holds v := fun v h1 h2 => by
    unfold Fx.Holds; dsimp only; constructor <;> linarith
  have hsq : (2 : ℤ) ^ k * 2 ^ k = 2 ^ (2 * k) := by rw [← pow_add]; congr 1; omega
  have holds : ∀ d : ℤ, d = 2 ∨ d = 3 → (⟨2 * k, false⟩ : Fx).HoldsS ⟨0, 2 ^ k, 1, d⟩ := fun d hd =>
    ⟨hold _ le_rfl (by linarith), hold _ (by linarith) le_rfl, hold _ (by norm_num) (by linarith),
      hold _ (by dsimp only; omega) (by rcases hd with rfl | rfl <;> dsimp only <;> linarith)⟩
  refine ⟨holds 2 (Or.inl rfl), holds 3 (Or.inr rfl), ?_, fun e => ?_⟩
  · have z : (⟨2 * k, false⟩ : Fx).wr 0 = 0 := Fx.wr_of_holds hw (Fx.holds_zero _)
    have z2 : (⟨2 * k, false⟩ : Fx).wr (2 ^ (2 * k)) = 0 := by
      have := Fx.wr_multiple hw 1
      rwa [mul_one] at this
    unfold Fx.eq
    simp only [Fx.mul_wr hw rfl, z, z2, hsq, zero_mul, bind, Except.bind, pure, Except.pure, decide_true,
      show ¬ ((2 : ℤ) = 3) by decide, show ¬ ((2 : ℤ) = 0 ∨ (3 : ℤ) = 0) by decide, if_false, ne_eq, not_true_eq_false]
  · have sq : ∀ d : ℤ, d = 2 ∨ d = 3 → ¬ IsSquare d := by
      rintro d hd ⟨m, hm⟩
      have h1 : m ≤ 1 := by rcases hd with rfl | rfl <;> nlinarith
      have h2 : -1 ≤ m := by rcases hd with rfl | rfl <;> nlinarith
      have h3 : m = -1 ∨ m = 0 ∨ m = 1 := by omega
      rcases h3 with rfl | rfl | rfl <;> omega
    have ok : ∀ d : ℤ, d = 2 ∨ d = 3 → (Surd.mk 0 (2 ^ k) 1 d).Ok ⟨false, true⟩ := fun d hd =>
      { c_pos := one_pos
        coprime := fun m _ _ h => isUnit_of_dvd_one h
        rational := ⟨fun h => by dsimp only at h; linarith, fun h => by dsimp only at h; omega⟩
        irrational := fun _ => sq d hd
        real := fun _ => by dsimp only; omega }
    have := surd_eq_complete ⟨false, true⟩ _ _ (ok 2 (Or.inl rfl)) (ok 3 (Or.inr rfl)) e
    unfold Surd.eq at this
    simp only [show ¬ ((2 : ℤ) = 3) by decide, show ¬ ((2 : ℤ) = 0 ∨ (3 : ℤ) = 0) by decide, if_false,
      hsq] at this
    have h0 : (0 : ℤ) < 2 ^ (2 * k) := by positivity
    revert this
    simp only [mul_one, ne_eq, not_true_eq_false, if_false, decide_eq_true_eq]
    omega

/-- **C65** is false of the sign tests at every width: without overflow checks `√2 - 2^(w-2)` is positive and
`2^(w-2) - √2` is negative, because the square of `2^(w-2)` wraps to 0; with overflow checks both tests panic. -/
theorem fixed_sign_refuted (cfg : Cfg) (w : ℕ) (hw : 4 ≤ w) :
    (⟨w, false⟩ : Fx).HoldsS ⟨-2 ^ (w - 2), 1, 1, 2⟩ ∧ (⟨w, false⟩ : Fx).HoldsS ⟨2 ^ (w - 2), -1, 1, 2⟩ ∧
    (⟨w, false⟩ : Fx).isPositive cfg ⟨-2 ^ (w - 2), 1, 1, 2⟩ = .ok true ∧ (Surd.mk (-2 ^ (w - 2)) 1 1 2).val < 0 ∧
    (⟨w, false⟩ : Fx).isNegative cfg ⟨2 ^ (w - 2), -1, 1, 2⟩ = .ok true ∧ 0 < (Surd.mk (2 ^ (w - 2)) (-1) 1 2).val ∧
    (⟨w, true⟩ : Fx).isPositive cfg ⟨-2 ^ (w - 2), 1, 1, 2⟩ = .error .overflow ∧
    (⟨w, true⟩ : Fx).isNegative cfg ⟨2 ^ (w - 2), -1, 1, 2⟩ = .error .overflow := by
  obtain ⟨M, hM⟩ : ∃ M : ℤ, M = 2 ^ (w - 2) := ⟨_, rfl⟩
  rw [← hM]
  have hM4 : 4 ≤ M := by
    rw [hM]
    calc (4 : ℤ) = 2 ^ 2 := by norm_num
      _ ≤ 2 ^ (w - 2) := pow_le_pow_right₀ (by norm_num) (by omega)
  have hw1 : (2 : ℤ) ^ (w - 1) = 2 * M := by rw [hM, ← pow_succ']; congr 1; omega
  have hw2 : (2 : ℤ) ^ w = 4 * M := by rw [show w = (w - 1) + 1 by omega, pow_succ, hw1]; ring
  obtain ⟨k, hk⟩ : ∃ k : ℤ, M = 4 * k := by
    refine ⟨2 ^ (w - 4), ?_⟩
    rw [hM, show (4 : ℤ) = 2 ^ 2 by norm_num, ← pow_add]; congr 1; omega
  have hold : ∀ b, ∀ v : ℤ, -M ≤ v → v ≤ M → (⟨w, b⟩ : Fx).Holds v := fun b v h1 h2 => by
    unfold Fx.Holds
    show -2 ^ (w - 1) ≤ v ∧ v < 2 ^ (w - 1)
    rw [hw1]; constructor <;> omega
  have ok : ∀ b, ∀ v : ℤ, -M ≤ v → v ≤ M → (⟨w, b⟩ : Fx).ret v = .ok v := fun b v h1 h2 => Fx.ret_ok (hold b v h1 h2)
  have hwf2 : 2 ≤ (⟨w, false⟩ : Fx).w := by show 2 ≤ w; omega
  have hz : ∀ v : ℤ, v = M ∨ v = -M → (⟨w, false⟩ : Fx).mul v v = .ok 0 := fun v hv => by
    rw [Fx.mul_wr hwf2 rfl]
    have : (⟨w, false⟩ : Fx).wr (v * v) = (⟨w, false⟩ : Fx).wr 0 := Fx.wr_congr (by
      show _ ≡ _ [ZMOD 2 ^ w]
      rw [hw2]
      refine (Int.modEq_zero_iff_dvd).2 ⟨k, ?_⟩
      rcases hv with rfl | rfl <;> rw [hk] <;> ring)
    rw [this, Fx.wr_of_holds hwf2 (Fx.holds_zero _)]
  have ho : ∀ v : ℤ, v = M ∨ v = -M → (⟨w, true⟩ : Fx).mul v v = .error .overflow := fun v hv => by
    have : v * v = M * M := by rcases hv with rfl | rfl <;> ring
    have h2 : 4 * M ≤ M * M := by nlinarith
    unfold Fx.mul Fx.ret
    rw [if_neg, if_pos rfl]
    unfold Fx.fits IntTy.signed
    simp only [hw1, this, Bool.and_eq_true, decide_eq_true_eq]
    omega
  have m1 : ∀ b, (⟨w, b⟩ : Fx).mul 1 1 = .ok 1 := fun b => ok b 1 (by omega) (by omega)
  have m1' : ∀ b, (⟨w, b⟩ : Fx).mul (-1) (-1) = .ok 1 := fun b => ok b _ (by omega) (by omega)
  have m2 : ∀ b, (⟨w, b⟩ : Fx).mul 1 2 = .ok 2 := fun b => ok b _ (by omega) (by omega)
  have hpc : ∀ a b, (Surd.mk a b 1 2).panicIfComplex cfg = .ok () := fun a b => by
    unfold Surd.panicIfComplex
    simp
  have hs2 : Real.sqrt 2 < 2 := by
    rw [Real.sqrt_lt' (by norm_num)]; norm_num
  have hMr : (4 : ℝ) ≤ M := by exact_mod_cast hM4
  have holdS : ∀ a b : ℤ, -M ≤ a → a ≤ M → -1 ≤ b → b ≤ 1 → (⟨w, false⟩ : Fx).HoldsS ⟨a, b, 1, 2⟩ :=
    fun a b h1 h2 h3 h4 => ⟨hold _ _ h1 h2, hold _ _ (by dsimp only; omega) (by dsimp only; omega),
      hold _ _ (by dsimp only; omega) (by dsimp only; omega), hold _ _ (by dsimp only; omega) (by dsimp only; omega)⟩
  refine ⟨holdS _ _ (by omega) (by omega) (by omega) (by omega), holdS _ _ (by omega) (by omega) (by omega) (by omega),
    ?_, ?_, ?_, ?_, ?_, ?_⟩
  · unfold Fx.isPositive Fx.cmpSquares
    simp only [hpc, Surd.ok_bind, hz _ (Or.inr rfl), m1, m2]
    rw [if_neg (by norm_num), if_pos (by norm_num), if_neg (by omega)]
    rfl
  · unfold Surd.val quadR
    push_cast
    rw [div_one]; linarith
  · unfold Fx.isNegative Fx.cmpSquares
    simp only [hpc, Surd.ok_bind, hz _ (Or.inl rfl), m1', m2]
    rw [if_neg (by norm_num), if_pos (by norm_num), if_neg (by omega)]
    rfl
  · unfold Surd.val quadR
    push_cast
    rw [div_one]; linarith
  · unfold Fx.isPositive Fx.cmpSquares
    simp only [hpc, Surd.ok_bind, ho _ (Or.inr rfl)]
    rw [if_neg (by norm_num), if_pos (by norm_num), if_neg (by omega)]
    rfl
  · unfold Fx.isNegative Fx.cmpSquares
    simp only [hpc, Surd.ok_bind, ho _ (Or.inl rfl)]
    rw [if_neg (by norm_num), if_pos (by norm_num), if_neg (by omega)]
    rfl

/-- **C65** partial: without overflow checks an operation agrees with arbitrary precision whenever the same operation
with overflow checks does not panic with an overflow.
Missing from the full claim: runs in which some intermediate result overflows. -/
theorem fixed_release_partial (w : ℕ) (cfg : Cfg) (l r : Surd) :
    (∀ a b c d, (⟨w, true⟩ : Fx).surdNew cfg a b c d ≠ .error .overflow →
      (⟨w, false⟩ : Fx).surdNew cfg a b c d = Surd.new cfg a b c d) ∧
    ((⟨w, true⟩ : Fx).surdAdd cfg l r ≠ .error .overflow → (⟨w, false⟩ : Fx).surdAdd cfg l r = Surd.add cfg l r) ∧
    ((⟨w, true⟩ : Fx).surdSub cfg l r ≠ .error .overflow → (⟨w, false⟩ : Fx).surdSub cfg l r = Surd.sub cfg l r) ∧
    ((⟨w, true⟩ : Fx).surdMul cfg l r ≠ .error .overflow → (⟨w, false⟩ : Fx).surdMul cfg l r = Surd.mul cfg l r) ∧
    ((⟨w, true⟩ : Fx).surdDiv cfg l r ≠ .error .overflow → (⟨w, false⟩ : Fx).surdDiv cfg l r = Surd.div cfg l r) ∧
    ((⟨w, true⟩ : Fx).recip cfg l ≠ .error .overflow → (⟨w, false⟩ : Fx).recip cfg l = Surd.recip cfg l) ∧
    ((⟨w, true⟩ : Fx).floor cfg l ≠ .error .overflow → (⟨w, false⟩ : Fx).floor cfg l = Surd.floor cfg l) ∧
    ((⟨w, true⟩ : Fx).eq l r ≠ .error .overflow → (⟨w, false⟩ : Fx).eq l r = .ok (Surd.eq l r)) :=
  have go : ∀ {α : Type} {c u b : Res α}, Refines c b → Refines c u → c ≠ .error .overflow → u = b :=
    fun h1 h2 h => (h2.resolve_right h).symm.trans (h1.resolve_right h)
  ⟨fun a b c d => go (Fx.surdNew_ref rfl cfg a b c d) (Fx.surdNew_rel rfl cfg a b c d),
    go (Fx.surdAdd_ref rfl cfg l r) (Fx.surdAdd_rel rfl cfg l r),
    go (Fx.surdSub_ref rfl cfg l r) (Fx.surdSub_rel rfl cfg l r),
    go (Fx.surdMul_ref rfl cfg l r) (Fx.surdMul_rel rfl cfg l r),
    go (Fx.surdDiv_ref rfl cfg l r) (Fx.surdDiv_rel rfl cfg l r),
    go (Fx.recip_ref rfl cfg l) (Fx.recip_rel rfl cfg l),
    go (Fx.floor_ref rfl cfg l) (Fx.floor_rel rfl cfg l),
    go (Fx.eq_ref rfl l r) (Fx.eq_rel rfl l r)⟩

/-- `i16` without checks: exact where the checked product does not overflow, wrong where it does -/
example : (⟨16, true⟩ : Fx).surdMul ⟨false, true⟩ ⟨1, 2, 3, 5⟩ ⟨4, 1, 7, 5⟩ ≠ .error .overflow ∧
    (⟨16, false⟩ : Fx).surdMul ⟨false, true⟩ ⟨1, 2, 3, 5⟩ ⟨4, 1, 7, 5⟩ = .ok ⟨14, 9, 21, 5⟩ ∧
    (⟨16, true⟩ : Fx).surdMul ⟨false, true⟩ ⟨300, 1, 1, 5⟩ ⟨300, 1, 1, 5⟩ = .error .overflow ∧
    (⟨16, false⟩ : Fx).surdMul ⟨false, true⟩ ⟨300, 1, 1, 5⟩ ⟨300, 1, 1, 5⟩ = .ok ⟨24469, 600, 1, 5⟩ := by decide +kernel

end NumIrr
