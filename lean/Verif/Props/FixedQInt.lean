/-
C66-C68: quadratic and Gaussian integers over the fixed-width integers `i8 … i128`.
`Fx` is a width and whether overflow checks are compiled in (`Model/Fixed.lean`); `QInt.add`, `GInt.mul`, … are the
arbitrary-precision operations, `Refines r b` says that `r` is `b` or an overflow panic (`Spec/Fixed.lean`).
-/
import Verif.Lemmas.FixedQSafe
import Verif.Lemmas.FixedQHolds
import Verif.Props.QIntArith
import Verif.Props.QIntEq

namespace NumIrr

/-! ### C66 with overflow checks: exact or an overflow panic -/

/-- **C66** constructors and functions of one quadratic integer -/
theorem fixed_qint_unary_refines (x : Fx) (hx : x.checks = true) (cfg : Cfg) :
    (∀ a b r, Refines (x.qNew cfg a b r) (QInt.new cfg a b r)) ∧
    (∀ c d, Refines (x.qFromCoeffs cfg c d) (QInt.fromCoeffs cfg c d)) ∧
    ∀ u : QInt, Refines (x.qConj u) u.conj ∧ Refines (x.qNorm u) u.norm ∧ Refines (x.qIsPure u) u.isPure ∧
      Refines (x.qNeg u) (.ok u.neg) :=
  ⟨Fx.qNew_ref hx cfg, Fx.qFromCoeffs_ref hx cfg,
    fun u => ⟨Fx.qConj_ref hx u, Fx.qNorm_ref hx u, Fx.qIsPure_ref hx u, Fx.qNeg_ref hx u⟩⟩
example : (⟨8, true⟩ : Fx).qNew ⟨false, true⟩ 3 2 20 = .ok ⟨-1, 8, 5⟩ ∧
    (⟨8, true⟩ : Fx).qNew ⟨false, true⟩ 3 100 20 = .error .overflow := by decide +kernel

/-- **C66** operations on quadratic integers -/
theorem fixed_qint_arith_refines (x : Fx) (hx : x.checks = true) (cfg : Cfg) (u v : QInt) (k : ℤ) :
    Refines (x.qAdd cfg u v) (QInt.add cfg u v) ∧ Refines (x.qSub cfg u v) (QInt.sub cfg u v) ∧
    Refines (x.qMul cfg u v) (QInt.mul cfg u v) ∧ Refines (x.qDiv cfg u v) (QInt.div cfg u v) ∧
    Refines (x.qRem cfg u v) (QInt.rem cfg u v) ∧ Refines (x.qEq u v) (QInt.eq u v) ∧
    Refines (x.qAddInt u k) (.ok (u.addInt k)) ∧ Refines (x.qSubInt u k) (.ok (u.subInt k)) ∧
    Refines (x.qMulInt u k) (.ok (u.mulInt k)) ∧ Refines (x.qDivInt u k) (u.divInt k) ∧
    Refines (x.qRemInt u k) (u.remInt k) :=
  ⟨Fx.qAdd_ref hx cfg u v, Fx.qSub_ref hx cfg u v, Fx.qMul_ref hx cfg u v, Fx.qDiv_ref hx cfg u v, Fx.qRem_ref hx cfg u v,
    Fx.qEq_ref hx u v, Fx.qAddInt_ref hx u k, Fx.qSubInt_ref hx u k, Fx.qMulInt_ref hx u k, Fx.qDivInt_ref hx u k,
    Fx.qRemInt_ref hx u k⟩
example : (⟨8, true⟩ : Fx).qMul ⟨false, true⟩ ⟨0, 1, 5⟩ ⟨0, 1, 5⟩ = .ok ⟨1, 1, 5⟩ ∧
    (⟨8, true⟩ : Fx).qMul ⟨false, true⟩ ⟨0, 12, 5⟩ ⟨0, 12, 5⟩ = .error .overflow := by decide +kernel

/-- **C66** operations on Gaussian integers, and the conversions of a surd -/
theorem fixed_gint_refines (x : Fx) (hx : x.checks = true) (u v : GInt) :
    Refines (x.gAdd u v) (.ok (u.add v)) ∧ Refines (x.gSub u v) (.ok (u.sub v)) ∧ Refines (x.gMul u v) (u.mul v) ∧
    Refines (x.gDiv u v) (u.div v) ∧ Refines (x.gRem u v) (u.rem v) ∧ Refines (x.gConj u) (.ok u.conj) ∧
    Refines (x.gNorm u) (.ok u.norm) ∧
    ∀ cfg s, Refines (x.toGaussint cfg s) (s.toGaussint cfg) ∧ Refines (x.toQuadint cfg s) (s.toQuadint cfg) :=
  ⟨Fx.gAdd_ref hx u v, Fx.gSub_ref hx u v, Fx.gMul_ref hx u v, Fx.gDiv_ref hx u v, Fx.gRem_ref hx u v, Fx.gConj_ref hx u,
    Fx.gNorm_ref hx u, fun cfg s => ⟨Fx.toGaussint_ref hx cfg s, Fx.toQuadint_ref hx cfg s⟩⟩

/-- **C66** read as values: whatever a checked operation returns is the exact sum, difference or product. -/
theorem fixed_qint_value (x : Fx) (hx : x.checks = true) (cfg : Cfg) (u v z : QInt) (hu : u.Ok cfg) (hv : v.Ok cfg) :
    (x.qAdd cfg u v = .ok z → z.valC = u.valC + v.valC) ∧ (x.qSub cfg u v = .ok z → z.valC = u.valC - v.valC) ∧
    (x.qMul cfg u v = .ok z → z.valC = u.valC * v.valC) :=
  ⟨fun h => qint_add_value cfg u v z hu hv ((Fx.qAdd_ref hx cfg u v).returns h),
    fun h => qint_sub_value cfg u v z hu hv ((Fx.qSub_ref hx cfg u v).returns h),
    fun h => qint_mul_value cfg u v z hu hv ((Fx.qMul_ref hx cfg u v).returns h)⟩

theorem fixed_gint_value (x : Fx) (hx : x.checks = true) (u v z : GInt) :
    (x.gAdd u v = .ok z → z.valC = u.valC + v.valC) ∧ (x.gSub u v = .ok z → z.valC = u.valC - v.valC) ∧
    (x.gMul u v = .ok z → z.valC = u.valC * v.valC) ∧
    (∀ r, x.gDiv u v = .ok z → x.gRem u v = .ok r → u.valC = z.valC * v.valC + r.valC ∧ r.norm < v.norm) := by
  obtain ⟨h1, h2, ⟨m, h3, h4⟩, _⟩ := gint_ring_ops u v
  refine ⟨fun h => ?_, fun h => ?_, fun h => ?_, fun r h h' => ?_⟩
  · cases (Fx.gAdd_ref hx u v).returns h; exact h1
  · cases (Fx.gSub_ref hx u v).returns h; exact h2
  · have := (Fx.gMul_ref hx u v).returns h
    rw [h3] at this; cases this; exact h4
  · have e1 := (Fx.gDiv_ref hx u v).returns h
    have e2 := (Fx.gRem_ref hx u v).returns h'
    have hv : v.valC ≠ 0 := by
      intro h0
      have : v = ⟨0, 0⟩ := gint_valC_inj v ⟨0, 0⟩ (by rw [h0]; simp [GInt.valC])
      rw [this, (gint_div_zero u).1] at e1; cases e1
    obtain ⟨q, r', g1, g2, g3, _, g4, _⟩ := gint_euclid u v hv
    rw [g1] at e1; rw [g2] at e2
    cases e1; cases e2
    exact ⟨g3, g4⟩

/-- `i16` with checks: ω · ω for d = 5, a Gaussian quotient, and an overflow -/
example : (⟨16, true⟩ : Fx).qMul ⟨false, true⟩ ⟨0, 1, 5⟩ ⟨0, 1, 5⟩ = .ok ⟨1, 1, 5⟩ ∧
    (⟨16, true⟩ : Fx).gDiv ⟨7, 3⟩ ⟨2, -1⟩ = .ok ⟨2, 3⟩ ∧
    (⟨16, true⟩ : Fx).gMul ⟨200, 0⟩ ⟨200, 0⟩ = .error .overflow := by decide +kernel

/-- **C66** everything stored is representable, with or without overflow checks: quadratic integers -/
theorem fixed_qint_holds (x : Fx) (hw : 2 ≤ x.w) (cfg : Cfg) (u v z : QInt) (k : ℤ) (hu : x.HoldsQ u) (hv : x.HoldsQ v)
    (h : x.qAdd cfg u v = .ok z ∨ x.qSub cfg u v = .ok z ∨ x.qMul cfg u v = .ok z ∨ x.qDiv cfg u v = .ok z ∨
      x.qRem cfg u v = .ok z ∨ x.qAddInt u k = .ok z ∨ x.qSubInt u k = .ok z ∨ x.qMulInt u k = .ok z ∨
      x.qDivInt u k = .ok z ∨ x.qRemInt u k = .ok z ∨ x.qConj u = .ok z ∨ x.qNeg u = .ok z) : x.HoldsQ z := by
  rcases h with h | h | h | h | h | h | h | h | h | h | h | h
  · exact Fx.qAdd_holds hw cfg hu hv z h
  · exact Fx.qSub_holds hw cfg hu hv z h
  · exact Fx.qMul_holds hw cfg hu hv z h
  · exact Fx.qDiv_holds hw cfg hu hv z h
  · exact Fx.qRem_holds hw cfg hu hv z h
  · exact Fx.qAddInt_holds hw hu k z h
  · exact Fx.qSubInt_holds hw hu k z h
  · exact Fx.qMulInt_holds hw hu k z h
  · exact Fx.qDivInt_holds hw hu k z h
  · exact Fx.qRemInt_holds hw hu k z h
  · exact Fx.qConj_holds hw hu z h
  · exact Fx.qNeg_holds hw hu z h

/-- **C66** everything stored is representable: constructors and norm of quadratic integers, Gaussian integers -/
theorem fixed_gint_holds (x : Fx) (hw : 2 ≤ x.w) (cfg : Cfg) :
    (∀ a b r z, x.Holds a → x.Holds b → x.Holds r → x.qNew cfg a b r = .ok z → x.HoldsQ z) ∧
    (∀ a b d z, x.Holds a → x.Holds b → x.Holds d → x.qFromCoeffs cfg ⟨a, b⟩ d = .ok z → x.HoldsQ z) ∧
    (∀ u n, x.qNorm u = .ok n → x.Holds n) ∧
    ∀ u v z : GInt, x.HoldsG u →
      (x.gAdd u v = .ok z ∨ x.gSub u v = .ok z ∨ x.gMul u v = .ok z ∨ x.gDiv u v = .ok z ∨ x.gRem u v = .ok z ∨
        x.gConj u = .ok z → x.HoldsG z) ∧ ∀ n, x.gNorm u = .ok n → x.Holds n := by
  refine ⟨fun a b r z ha hb hr h => Fx.qNew_holds hw cfg ha hb hr z h,
    fun a b d z ha hb hd h => Fx.qFromCoeffs_holds hw cfg ⟨ha, hb⟩ hd z h, fun u n h => Fx.qNorm_holds hw u n h,
    fun u v z hu => ⟨fun h => ?_, fun n h => Fx.gNorm_holds hw u n h⟩⟩
  rcases h with h | h | h | h | h | h
  · exact Fx.gAdd_holds hw u v z h
  · exact Fx.gSub_holds hw u v z h
  · exact Fx.gMul_holds hw u v z h
  · exact Fx.gDiv_holds hw u v z h
  · exact Fx.gRem_holds hw u v z h
  · exact Fx.gConj_holds hw hu z h

/-- a wrapped result is stored as a representable number -/
example : (⟨8, false⟩ : Fx).gMul ⟨12, 1⟩ ⟨12, 0⟩ = .ok ⟨-112, 12⟩ := by decide +kernel

/-! ### C67 operands that are small enough -/

/-- **C67** addition and subtraction of quadratic integers with the same discriminant (or a rational operand) are exact on
fields up to `B` when `4B²` fits; multiplication when `6B⁴`, division when `20B⁵`, remainder when `40B⁶` fits. -/
theorem fixed_qint_arith_safe (x : Fx) (cfg : Cfg) (u v : QInt) (B : ℤ) (hB : 1 ≤ B) (hu : u.Small B) (hv : v.Small B)
    (hd : u.d = v.d ∨ u.b = 0 ∨ v.b = 0) :
    (4 * B ^ 2 < 2 ^ (x.w - 1) → x.qAdd cfg u v = QInt.add cfg u v ∧ x.qSub cfg u v = QInt.sub cfg u v) ∧
    (6 * B ^ 4 < 2 ^ (x.w - 1) → x.qMul cfg u v = QInt.mul cfg u v) ∧
    (20 * B ^ 5 < 2 ^ (x.w - 1) → x.qDiv cfg u v = QInt.div cfg u v) ∧
    (40 * B ^ 6 < 2 ^ (x.w - 1) → u.d = v.d ∨ v.b = 0 → x.qRem cfg u v = QInt.rem cfg u v) := by
  refine ⟨fun h => ⟨?_, ?_⟩, fun h => ?_, fun h => ?_, fun h hd => ?_⟩
  · exact Fx.run_eq (f := fun y => y.qAdd cfg u v) (fun _ hy => Fx.qAdd_ref hy cfg u v) (fun _ hy => Fx.qAdd_rel hy cfg u v)
      (Fx.qAdd_safe (x := ⟨x.w, true⟩) h hB cfg hu hv hd le_rfl)
  · exact Fx.run_eq (f := fun y => y.qSub cfg u v) (fun _ hy => Fx.qSub_ref hy cfg u v) (fun _ hy => Fx.qSub_rel hy cfg u v)
      (Fx.qSub_safe (x := ⟨x.w, true⟩) h hB cfg hu hv hd le_rfl)
  · exact Fx.run_eq (f := fun y => y.qMul cfg u v) (fun _ hy => Fx.qMul_ref hy cfg u v) (fun _ hy => Fx.qMul_rel hy cfg u v)
      (Fx.qMul_safe (x := ⟨x.w, true⟩) h hB cfg hu hv hd le_rfl)
  · exact Fx.run_eq (f := fun y => y.qDiv cfg u v) (fun _ hy => Fx.qDiv_ref hy cfg u v) (fun _ hy => Fx.qDiv_rel hy cfg u v)
      (Fx.qDiv_safe (x := ⟨x.w, true⟩) h hB cfg hu hv hd le_rfl)
  · exact Fx.run_eq (f := fun y => y.qRem cfg u v) (fun _ hy => Fx.qRem_ref hy cfg u v) (fun _ hy => Fx.qRem_rel hy cfg u v)
      (Fx.qRem_safe (x := ⟨x.w, true⟩) h hB cfg hu hv hd le_rfl)
example : (QInt.mk 3 (-4) 2).Small 4 ∧ (QInt.mk 1 2 2).Small 4 ∧ (6 : ℤ) * 4 ^ 4 < 2 ^ (16 - 1) ∧
    (⟨16, false⟩ : Fx).qMul ⟨false, true⟩ ⟨3, -4, 2⟩ ⟨1, 2, 2⟩ = .ok ⟨-13, 2, 2⟩ := by
  unfold QInt.Small; decide +kernel

/-- **C67** constructor, conjugate, negation, norm and equality; no condition on the discriminants -/
theorem fixed_qint_unary_safe (x : Fx) (cfg : Cfg) (u v : QInt) (B : ℤ) (hB : 1 ≤ B) (hu : u.Small B) (hv : v.Small B) :
    (6 * B ^ 3 < 2 ^ (x.w - 1) → ∀ a b r : ℤ, |a| ≤ B → |b| ≤ B → |r| ≤ B → x.qNew cfg a b r = QInt.new cfg a b r) ∧
    (2 * B < 2 ^ (x.w - 1) → x.qConj u = u.conj ∧ x.qNeg u = .ok u.neg) ∧
    (5 * B ^ 3 < 2 ^ (x.w - 1) → x.qNorm u = u.norm) ∧
    (4 * B ^ 3 < 2 ^ (x.w - 1) → x.qEq u v = QInt.eq u v) := by
  refine ⟨fun h a b r ha hb hr => ?_, fun h => ⟨?_, ?_⟩, fun h => ?_, fun h => ?_⟩
  · exact Fx.run_eq (f := fun y => y.qNew cfg a b r) (fun _ hy => Fx.qNew_ref hy cfg a b r)
      (fun _ hy => Fx.qNew_rel hy cfg a b r) (Fx.qNew_safe (x := ⟨x.w, true⟩) h hB cfg ha hb hr le_rfl)
  · exact Fx.run_eq (f := fun y => y.qConj u) (fun _ hy => Fx.qConj_ref hy u) (fun _ hy => Fx.qConj_rel hy u)
      (Fx.qConj_safe (x := ⟨x.w, true⟩) h hu le_rfl)
  · exact Fx.run_eq (f := fun y => y.qNeg u) (fun _ hy => Fx.qNeg_ref hy u) (fun _ hy => Fx.qNeg_rel hy u)
      (Fx.qNeg_safe (x := ⟨x.w, true⟩) h hu (by linarith))
  · exact Fx.run_eq (f := fun y => y.qNorm u) (fun _ hy => Fx.qNorm_ref hy u) (fun _ hy => Fx.qNorm_rel hy u)
      (Fx.qNorm_safe (x := ⟨x.w, true⟩) h hB hu le_rfl)
  · exact Fx.run_eq (f := fun y => y.qEq u v) (fun _ hy => Fx.qEq_ref hy u v) (fun _ hy => Fx.qEq_rel hy u v)
      (Fx.qEq_safe (x := ⟨x.w, true⟩) h hB hu hv le_rfl)

/-- **C67** Gaussian integers -/
theorem fixed_gint_safe (x : Fx) (u v : GInt) (B : ℤ) (hB : 1 ≤ B) (hu : u.Small B) (hv : v.Small B) :
    (2 * B < 2 ^ (x.w - 1) → x.gAdd u v = .ok (u.add v) ∧ x.gSub u v = .ok (u.sub v) ∧ x.gConj u = .ok u.conj) ∧
    (2 * B ^ 2 < 2 ^ (x.w - 1) → x.gMul u v = u.mul v ∧ x.gNorm u = .ok u.norm) ∧
    (4 * B ^ 3 < 2 ^ (x.w - 1) → x.gDiv u v = u.div v ∧ x.gRem u v = u.rem v) := by
  refine ⟨fun h => ⟨?_, ?_, ?_⟩, fun h => ⟨?_, ?_⟩, fun h => ⟨?_, ?_⟩⟩
  · exact Fx.run_eq (f := fun y => y.gAdd u v) (fun _ hy => Fx.gAdd_ref hy u v) (fun _ hy => Fx.gAdd_rel hy u v)
      (Fx.gAdd_safe (x := ⟨x.w, true⟩) h hu hv le_rfl)
  · exact Fx.run_eq (f := fun y => y.gSub u v) (fun _ hy => Fx.gSub_ref hy u v) (fun _ hy => Fx.gSub_rel hy u v)
      (Fx.gSub_safe (x := ⟨x.w, true⟩) h hu hv le_rfl)
  · exact Fx.run_eq (f := fun y => y.gConj u) (fun _ hy => Fx.gConj_ref hy u) (fun _ hy => Fx.gConj_rel hy u)
      (Fx.gConj_safe (x := ⟨x.w, true⟩) h hu (by linarith))
  · exact Fx.run_eq (f := fun y => y.gMul u v) (fun _ hy => Fx.gMul_ref hy u v) (fun _ hy => Fx.gMul_rel hy u v)
      (Fx.gMul_safe (x := ⟨x.w, true⟩) h hB hu hv le_rfl)
  · exact Fx.run_eq (f := fun y => y.gNorm u) (fun _ hy => Fx.gNorm_ref hy u) (fun _ hy => Fx.gNorm_rel hy u)
      (Fx.gNorm_safe (x := ⟨x.w, true⟩) h hu le_rfl)
  · exact Fx.run_eq (f := fun y => y.gDiv u v) (fun _ hy => Fx.gDiv_ref hy u v) (fun _ hy => Fx.gDiv_rel hy u v)
      (Fx.gDiv_safe (x := ⟨x.w, true⟩) h hB hu hv le_rfl)
  · exact Fx.run_eq (f := fun y => y.gRem u v) (fun _ hy => Fx.gRem_ref hy u v) (fun _ hy => Fx.gRem_rel hy u v)
      (Fx.gRem_safe (x := ⟨x.w, true⟩) h hB hu hv le_rfl)

/-- `i64`: Gaussian integers up to 2 · 10⁹ for `*`, up to 1.3 · 10⁶ for `/`; quadratic integers up to 35000 for `*` -/
example : 2 * (2000000000 : ℤ) ^ 2 < 2 ^ (64 - 1) ∧ 4 * (1300000 : ℤ) ^ 3 < 2 ^ (64 - 1) ∧
    6 * (35000 : ℤ) ^ 4 < 2 ^ (64 - 1) ∧ (QInt.mk (-34999) 12345 (-33333)).Small 35000 := by
  refine ⟨by norm_num, by norm_num, by norm_num, ?_⟩
  unfold QInt.Small; decide

/-! ### C68 without overflow checks -/

/-- **C68** partial: without overflow checks the ring operations on Gaussian integers return the exact result whenever it
is representable, whatever happens in between.
Missing from the full claim: division and remainder (`fixed_gint_div_refuted`). -/
theorem fixed_gint_ring_partial (x : Fx) (hw : 3 ≤ x.w) (hx : x.checks = false) (u v : GInt) :
    (x.HoldsG (u.add v) → x.gAdd u v = .ok (u.add v)) ∧ (x.HoldsG (u.sub v) → x.gSub u v = .ok (u.sub v)) ∧
    (∀ t, u.mul v = .ok t → x.HoldsG t → x.gMul u v = .ok t) ∧ (x.HoldsG u.conj → x.gConj u = .ok u.conj) ∧
    (x.Holds u.norm → x.gNorm u = .ok u.norm) :=
  ⟨Fx.gAdd_wr (by omega) hx, Fx.gSub_wr (by omega) hx, fun _ => Fx.gMul_wr hw hx, Fx.gConj_wr (by omega) hx,
    Fx.gNorm_wr (by omega) hx⟩

/-- **C68** partial: the same for quadratic integers with equal discriminants (or a rational operand).
Missing from the full claim: different discriminants, the norm for the discriminant `MIN + 1`, division, remainder and
equality (`fixed_gint_div_refuted`, `fixed_qint_eq_refuted`, `fixed_qint_norm_refuted`). -/
theorem fixed_qint_ring_partial (x : Fx) (hw : 3 ≤ x.w) (hx : x.checks = false) (cfg : Cfg) (u v : QInt) (hv : v.Ok cfg)
    (hvd : x.Holds v.d) (hd : u.d = v.d ∨ u.b = 0 ∨ v.b = 0) :
    (∀ t, QInt.add cfg u v = .ok t → x.HoldsQ t → x.qAdd cfg u v = .ok t) ∧
    (∀ t, QInt.sub cfg u v = .ok t → x.HoldsQ t → x.qSub cfg u v = .ok t) ∧
    (∀ t, QInt.mul cfg u v = .ok t → x.HoldsQ t → x.qMul cfg u v = .ok t) ∧
    (∀ t, v.conj = .ok t → x.HoldsQ t → x.qConj v = .ok t) ∧
    (∀ n, v.norm = .ok n → x.Holds n → v.d ≠ -2 ^ (x.w - 1) + 1 → x.qNorm v = .ok n) ∧
    (∀ k, (x.HoldsQ (v.addInt k) → x.qAddInt v k = .ok (v.addInt k)) ∧
      (x.HoldsQ (v.subInt k) → x.qSubInt v k = .ok (v.subInt k)) ∧
      (x.HoldsQ (v.mulInt k) → x.qMulInt v k = .ok (v.mulInt k))) :=
  ⟨fun _ => Fx.qAdd_wr hw hx cfg hv hvd hd, fun _ => Fx.qSub_wr hw hx cfg hv hvd hd, fun _ => Fx.qMul_wr hw hx cfg hv hvd hd,
    fun _ => Fx.qConj_wr (by omega) hx, fun _ h hn hm => Fx.qNorm_wr hw hx hvd hm h hn,
    fun k => ⟨Fx.qAddInt_wr (by omega) hx v k, Fx.qSubInt_wr (by omega) hx v k, Fx.qMulInt_wr (by omega) hx v k⟩⟩

/-- `i8`: 12 · 12 overflows on the way to (12 - 5i)² = 119 - 120i, which is exact without overflow checks and panics with
them -/
example : (⟨8, false⟩ : Fx).gMul ⟨12, -5⟩ ⟨12, -5⟩ = .ok ⟨119, -120⟩ ∧ GInt.mul ⟨12, -5⟩ ⟨12, -5⟩ = .ok ⟨119, -120⟩ ∧
    (⟨8, true⟩ : Fx).gMul ⟨12, -5⟩ ⟨12, -5⟩ = .error .overflow := by decide +kernel

/-- `i8`: the same with quadratic integers, (12 - 4√2)(12 + 4√2) = 112 -/
example : (⟨8, false⟩ : Fx).qMul ⟨false, true⟩ ⟨12, -4, 2⟩ ⟨12, 4, 2⟩ = .ok ⟨112, 0, 0⟩ ∧
    QInt.mul ⟨false, true⟩ ⟨12, -4, 2⟩ ⟨12, 4, 2⟩ = .ok ⟨112, 0, 0⟩ ∧ (QInt.mk 12 4 2).Ok ⟨false, true⟩ ∧
    (⟨8, true⟩ : Fx).qMul ⟨false, true⟩ ⟨12, -4, 2⟩ ⟨12, 4, 2⟩ = .error .overflow := by
  refine ⟨by decide +kernel, by decide +kernel, ⟨by decide, by decide, ?_, by decide⟩, by decide +kernel⟩
  rintro - ⟨k, hk⟩
  have h1 : k ≤ 1 := by nlinarith
  have h2 : -1 ≤ k := by nlinarith
  have h3 : k = -1 ∨ k = 0 ∨ k = 1 := by omega
  rcases h3 with rfl | rfl | rfl <;> revert hk <;> decide

/-- **C68** is false of division at every width: without overflow checks the Gaussian integer `2^k` divided by itself
panics with a division by zero (its norm `2^(2k)` wraps to 0), although the quotient is 1.  With overflow checks it panics
with an overflow. -/
theorem fixed_gint_div_refuted (k : ℕ) (hk : 2 ≤ k) :
    (⟨2 * k, false⟩ : Fx).HoldsG ⟨2 ^ k, 0⟩ ∧ GInt.div ⟨2 ^ k, 0⟩ ⟨2 ^ k, 0⟩ = .ok ⟨1, 0⟩ ∧
    (⟨2 * k, false⟩ : Fx).gDiv ⟨2 ^ k, 0⟩ ⟨2 ^ k, 0⟩ = .error .divZero ∧
    (⟨2 * k, true⟩ : Fx).gDiv ⟨2 ^ k, 0⟩ ⟨2 ^ k, 0⟩ = .error .overflow := by
  have hlt : (2 : ℤ) ^ k < 2 ^ (2 * k - 1) := pow_lt_pow_right₀ (by norm_num) (by omega)
  have hpos : (0 : ℤ) < 2 ^ k := by positivity
  have hh : ∀ c, (⟨2 * k, c⟩ : Fx).Holds (-1) := fun c => by
    unfold Fx.Holds; dsimp only; constructor <;> linarith
  have n1 : ∀ c, (⟨2 * k, c⟩ : Fx).neg 1 = .ok (-1) := fun c => Fx.ret_ok (hh c)
  have hM : (2 : ℤ) ^ k * 2 ^ k = 2 ^ (2 * k) := by rw [← pow_add]; congr 1; omega
  refine ⟨⟨⟨?_, hlt⟩, ⟨?_, ?_⟩⟩, ?_, ?_, ?_⟩
  · dsimp only; linarith
  · dsimp only; linarith
  · dsimp only; linarith
  · have hv : (GInt.mk (2 ^ k) 0).valC ≠ 0 := by
      simp [GInt.valC]
    obtain ⟨q, r, e, _, _, _, _, u, v, h1, h2, h3⟩ := gint_euclid ⟨2 ^ k, 0⟩ ⟨2 ^ k, 0⟩ hv
    rw [div_self hv] at h1
    have hu := congrArg Complex.re h1
    have hi := congrArg Complex.im h1
    simp only [Complex.one_re, Complex.one_im, Complex.add_re, Complex.add_im, Complex.mul_re, Complex.mul_im,
      Complex.I_re, Complex.I_im, Complex.ratCast_re, Complex.ratCast_im] at hu hi
    have hu' : u = 1 := by
      have : (u : ℝ) = 1 := by linarith
      exact_mod_cast this
    have hv' : v = 0 := by
      have : (v : ℝ) = 0 := by linarith
      exact_mod_cast this
    subst hu' hv'
    have r1 : RoundAway 1 1 := ⟨by norm_num, by norm_num⟩
    have r0 : RoundAway 0 0 := ⟨by norm_num, by norm_num⟩
    rw [e]
    obtain ⟨q1, q2⟩ := q
    rw [show q1 = 1 from roundAway_unique 1 _ _ h2 r1, show q2 = 0 from roundAway_unique 0 _ _ h3 r0]
  · have hw : 2 ≤ (⟨2 * k, false⟩ : Fx).w := by dsimp only; omega
    have z : (⟨2 * k, false⟩ : Fx).wr 0 = 0 := Fx.wr_of_holds hw (Fx.holds_zero _)
    have z2 : (⟨2 * k, false⟩ : Fx).wr (2 ^ (2 * k)) = 0 := by
      have := Fx.wr_multiple hw 1
      rwa [mul_one] at this
    have dz : (⟨2 * k, false⟩ : Fx).div 0 2 = .ok 0 := Fx.div_ok (by decide) (Fx.holds_zero _)
    have az : (⟨2 * k, false⟩ : Fx).abs 0 = .ok 0 := Fx.ret_ok (Fx.holds_zero _)
    unfold Fx.gDiv Fx.qcDiv Fx.qcDivRem Fx.qcDivNumer Fx.qcNorm Fx.divRemRound
    simp only [n1, GInt.coeffs, show mod4d2 (-1) = 1 from rfl, Fx.mul_wr hw rfl, Fx.sub_wr hw rfl, Fx.add_wr hw rfl, hM, z, z2,
      mul_zero, zero_mul, sub_zero, bind, Except.bind, show ¬ ((-1 : ℤ) = 0) by decide, if_false, az, dz, add_zero]
    rfl
  · have ov : (⟨2 * k, true⟩ : Fx).mul (2 ^ k) (2 ^ k) = .error .overflow := by
      refine Fx.ret_overflow rfl fun h => ?_
      have h2 := h.2
      rw [hM] at h2
      have : (2 : ℤ) ^ (2 * k - 1) ≤ 2 ^ (2 * k) := pow_le_pow_right₀ (by norm_num) (by omega)
      dsimp only at h2
      linarith
    unfold Fx.gDiv Fx.qcDiv Fx.qcDivRem Fx.qcDivNumer
    simp only [n1, GInt.coeffs, show mod4d2 (-1) = 1 from rfl, ov, bind, Except.bind]

/-- **C68** is false of equality at every width: without overflow checks `2^k·√2 == 2^k·√3` is true, because both sides are
compared through squares that wrap to 0. -/
theorem fixed_qint_eq_refuted (k : ℕ) (hk : 2 ≤ k) :
    (⟨2 * k + 2, false⟩ : Fx).HoldsQ ⟨0, 2 ^ k, 2⟩ ∧ (⟨2 * k + 2, false⟩ : Fx).HoldsQ ⟨0, 2 ^ k, 3⟩ ∧
    (⟨2 * k + 2, false⟩ : Fx).qEq ⟨0, 2 ^ k, 2⟩ ⟨0, 2 ^ k, 3⟩ = .ok true ∧
    (QInt.mk 0 (2 ^ k) 2).valC ≠ (QInt.mk 0 (2 ^ k) 3).valC := by
  have hw : 2 ≤ (⟨2 * k + 2, false⟩ : Fx).w := by dsimp only; omega
  have hlt : (2 : ℤ) ^ k * 4 ≤ 2 ^ (2 * k + 2 - 1) := by
    have : (2 : ℤ) ^ (k + 2) ≤ 2 ^ (2 * k + 2 - 1) := pow_le_pow_right₀ (by norm_num) (by omega)
    rw [pow_add] at this; linarith
  have hpos : (4 : ℤ) ≤ 2 ^ k := by
    have : (2 : ℤ) ^ 2 ≤ 2 ^ k := pow_le_pow_right₀ (by norm_num) hk
    linarith
  have hold : ∀ v : ℤ, 0 ≤ v → v ≤ 2 * 2 ^ k → (⟨2 * k + 2, false⟩ : Fx).Holds v := fun v h1 h2 => by
    unfold Fx.Holds; dsimp only; constructor <;> linarith
  have hsq : ((2 : ℤ) ^ k + 2 ^ k) * (2 ^ k + 2 ^ k) = 2 ^ (2 * k + 2) := by
    have : (2 : ℤ) ^ (2 * k + 2) = 2 ^ k * 2 ^ k * 4 := by rw [pow_add, two_mul, pow_add]; norm_num
    rw [this]; ring
  refine ⟨⟨hold _ le_rfl (by linarith), hold _ (by linarith) (by linarith), hold _ (by norm_num) (by linarith)⟩,
    ⟨hold _ le_rfl (by linarith), hold _ (by linarith) (by linarith), hold _ (by norm_num) (by linarith)⟩, ?_, fun e => ?_⟩
  · have z : (⟨2 * k + 2, false⟩ : Fx).wr 0 = 0 := Fx.wr_of_holds hw (Fx.holds_zero _)
    have z2 : (⟨2 * k + 2, false⟩ : Fx).wr (2 ^ (2 * k + 2)) = 0 := by
      have := Fx.wr_multiple hw 1
      rwa [mul_one] at this
    have z3 : (⟨2 * k + 2, false⟩ : Fx).wr (2 ^ k + 2 ^ k) = 2 ^ k + 2 ^ k :=
      Fx.wr_of_holds hw (hold _ (by linarith) (by linarith))
    unfold Fx.qEq Fx.qPartsDoubled
    simp only [show mod4d2 2 = 1 from rfl, show mod4d2 3 = 1 from rfl, Fx.mul_wr hw rfl, Fx.add_wr hw rfl, z, z2, z3, hsq,
      zero_mul, add_zero, bind, Except.bind, pure, Except.pure, if_true, decide_true,
      show ¬ ((2 : ℤ) = 3) by decide, show ¬ ((2 : ℤ) = 0 ∨ (3 : ℤ) = 0) by decide, if_false]
  · have sq : ∀ d : ℤ, d = 2 ∨ d = 3 → ¬ IsSquare d := by
      rintro d hd ⟨m, hm⟩
      have h1 : m ≤ 1 := by rcases hd with rfl | rfl <;> nlinarith
      have h2 : -1 ≤ m := by rcases hd with rfl | rfl <;> nlinarith
      have h3 : m = -1 ∨ m = 0 ∨ m = 1 := by omega
      rcases h3 with rfl | rfl | rfl <;> omega
    have ok : ∀ d : ℤ, d = 2 ∨ d = 3 → (QInt.mk 0 (2 ^ k) d).Ok ⟨false, true⟩ := fun d hd =>
      ⟨fun h => by dsimp only at h; omega, fun _ => by dsimp only; omega, fun _ => sq d hd, fun _ => by dsimp only; omega⟩
    have hb : (QInt.mk 0 (2 ^ k) 2).b ≠ 0 := by dsimp only; linarith
    have := qint_eq_complete_partial ⟨false, true⟩ _ _ (ok 2 (Or.inl rfl)) (ok 3 (Or.inr rfl)) (fun h => absurd h hb)
      (fun h => absurd h hb) e
    simp only [QInt.eq, QInt.partsDoubled, show mod4d2 2 = 1 from rfl, show mod4d2 3 = 1 from rfl,
      show ¬ ((2 : ℤ) = 3) by decide, show ¬ ((2 : ℤ) = 0 ∨ (3 : ℤ) = 0) by decide, if_false, bind, Except.bind, pure,
      Except.pure, Except.ok.injEq, decide_eq_true_eq, hsq] at this
    have h0 : (0 : ℤ) < 2 ^ (2 * k + 2) := by positivity
    omega

/-- **C68** is false of the norm at every width: for the discriminant `MIN + 1` the norm of `ω` is `2^(w-3)`, and the code
returns `-2^(w-3)` because `1 - MIN - 1` wraps around. -/
theorem fixed_qint_norm_refuted (k : ℕ) (hk : 1 ≤ k) :
    (⟨k + 3, false⟩ : Fx).HoldsQ ⟨0, 1, -2 ^ (k + 2) + 1⟩ ∧ (QInt.mk 0 1 (-2 ^ (k + 2) + 1)).Ok ⟨true, true⟩ ∧
    (QInt.mk 0 1 (-2 ^ (k + 2) + 1)).norm = .ok (2 ^ k) ∧
    (⟨k + 3, false⟩ : Fx).qNorm ⟨0, 1, -2 ^ (k + 2) + 1⟩ = .ok (-2 ^ k) ∧
    (⟨k + 3, true⟩ : Fx).qNorm ⟨0, 1, -2 ^ (k + 2) + 1⟩ = .error .overflow := by
  have hw : 2 ≤ (⟨k + 3, false⟩ : Fx).w := by dsimp only; omega
  have h4 : (2 : ℤ) ^ (k + 2) = 4 * 2 ^ k := by rw [pow_add]; ring
  have hp : (2 : ℤ) ≤ 2 ^ k := by
    have : (2 : ℤ) ^ 1 ≤ 2 ^ k := pow_le_pow_right₀ (by norm_num) hk
    linarith
  rw [h4]
  have hm : mod4d2 (-(4 * 2 ^ k) + 1) = 0 := by
    rw [mod4d2_eq, if_neg (by omega), if_pos (by omega)]
  have h0 : ¬ (-(4 * 2 ^ k) + 1 : ℤ) = 0 := by omega
  have hold : ∀ c (v : ℤ), -(4 * 2 ^ k) ≤ v → v < 4 * 2 ^ k → (⟨k + 3, c⟩ : Fx).Holds v := fun c v h1 h2 => by
    unfold Fx.Holds; dsimp only [Nat.add_sub_cancel]
    rw [show k + 3 - 1 = k + 2 from rfl, h4]
    exact ⟨h1, h2⟩
  have e1 : (1 : ℤ) - (-(4 * 2 ^ k) + 1) = 4 * 2 ^ k := by ring
  refine ⟨⟨hold _ _ (by dsimp only; linarith) (by dsimp only; linarith), hold _ _ (by dsimp only; linarith) (by dsimp only; linarith),
    hold _ _ (by dsimp only; linarith) (by dsimp only; linarith)⟩, ⟨fun h => absurd h h0, fun _ => by dsimp only; omega, ?_, by intro h; cases h⟩,
    ?_, ?_, ?_⟩
  · rintro - ⟨m, hm⟩
    dsimp only at hm
    nlinarith [mul_self_nonneg m]
  · simp only [QInt.norm, QInt.coeffs, QCoeffs.norm, hm, h0, if_false, e1, Int.mul_tdiv_cancel_left _ (show (4 : ℤ) ≠ 0 by decide)]
    norm_num
  · have z : ∀ v : ℤ, -(4 * 2 ^ k) ≤ v → v < 4 * 2 ^ k → (⟨k + 3, false⟩ : Fx).wr v = v := fun v h1 h2 =>
      Fx.wr_of_holds hw (hold false v h1 h2)
    have z1 : (⟨k + 3, false⟩ : Fx).wr (4 * 2 ^ k) = -(4 * 2 ^ k) := by
      have hc : (4 * 2 ^ k : ℤ) ≡ -(4 * 2 ^ k) [ZMOD 2 ^ (k + 3)] := by
        rw [Int.modEq_iff_dvd]
        refine ⟨-1, ?_⟩
        rw [pow_add]; ring
      rw [Fx.wr_congr (x := ⟨k + 3, false⟩) hc, z _ le_rfl (by linarith)]
    have hq : (-(4 * 2 ^ k) : ℤ).tdiv 4 = -2 ^ k := by
      rw [show (-(4 * 2 ^ k) : ℤ) = 4 * (-2 ^ k) by ring, Int.mul_tdiv_cancel_left _ (by decide)]
    have hd : (⟨k + 3, false⟩ : Fx).div (-(4 * 2 ^ k)) 4 = .ok (-2 ^ k) := by
      rw [← hq]
      exact Fx.div_ok (by decide) (by rw [hq]; exact hold _ _ (by linarith) (by linarith))
    unfold Fx.qNorm Fx.qcNorm
    simp only [QInt.coeffs, hm, h0, if_false, Fx.mul_wr hw rfl, Fx.add_wr hw rfl, Fx.sub_wr hw rfl, e1, z1, hd, bind, Except.bind,
      mul_zero, mul_one, one_mul, z 0 (by linarith) (by linarith), z 1 (by linarith) (by linarith), zero_add,
      z (-2 ^ k) (by linarith) (by linarith)]
  · have ov : (⟨k + 3, true⟩ : Fx).sub 1 (-(4 * 2 ^ k) + 1) = .error .overflow := by
      refine Fx.ret_overflow rfl fun h => ?_
      have h2 := h.2
      rw [e1, show (⟨k + 3, true⟩ : Fx).w - 1 = k + 2 from rfl, h4] at h2
      linarith
    have m0 : (⟨k + 3, true⟩ : Fx).mul 0 0 = .ok 0 := Fx.ret_ok (v := 0 * 0) (hold _ _ (by linarith) (by linarith))
    have m1 : (⟨k + 3, true⟩ : Fx).mul 0 1 = .ok 0 := Fx.ret_ok (v := 0 * 1) (hold _ _ (by linarith) (by linarith))
    have m2 : (⟨k + 3, true⟩ : Fx).mul 1 1 = .ok 1 := Fx.ret_ok (v := 1 * 1) (hold _ _ (by linarith) (by linarith))
    have a0 : (⟨k + 3, true⟩ : Fx).add 0 0 = .ok 0 := Fx.ret_ok (v := 0 + 0) (hold _ _ (by linarith) (by linarith))
    unfold Fx.qNorm Fx.qcNorm
    simp only [QInt.coeffs, hm, h0, if_false, m0, m1, m2, a0, ov, bind, Except.bind]

/-- **C68** partial: an operation without overflow checks agrees with arbitrary precision whenever the same operation with
overflow checks does not panic with an overflow.
Missing from the full claim: runs in which some intermediate result overflows. -/
theorem fixed_qint_release_partial (w : ℕ) (cfg : Cfg) (u v : QInt) (g h : GInt) :
    (∀ a b r, (⟨w, true⟩ : Fx).qNew cfg a b r ≠ .error .overflow → (⟨w, false⟩ : Fx).qNew cfg a b r = QInt.new cfg a b r) ∧
    ((⟨w, true⟩ : Fx).qAdd cfg u v ≠ .error .overflow → (⟨w, false⟩ : Fx).qAdd cfg u v = QInt.add cfg u v) ∧
    ((⟨w, true⟩ : Fx).qSub cfg u v ≠ .error .overflow → (⟨w, false⟩ : Fx).qSub cfg u v = QInt.sub cfg u v) ∧
    ((⟨w, true⟩ : Fx).qMul cfg u v ≠ .error .overflow → (⟨w, false⟩ : Fx).qMul cfg u v = QInt.mul cfg u v) ∧
    ((⟨w, true⟩ : Fx).qDiv cfg u v ≠ .error .overflow → (⟨w, false⟩ : Fx).qDiv cfg u v = QInt.div cfg u v) ∧
    ((⟨w, true⟩ : Fx).qRem cfg u v ≠ .error .overflow → (⟨w, false⟩ : Fx).qRem cfg u v = QInt.rem cfg u v) ∧
    ((⟨w, true⟩ : Fx).qNorm u ≠ .error .overflow → (⟨w, false⟩ : Fx).qNorm u = u.norm) ∧
    ((⟨w, true⟩ : Fx).qEq u v ≠ .error .overflow → (⟨w, false⟩ : Fx).qEq u v = QInt.eq u v) ∧
    ((⟨w, true⟩ : Fx).gDiv g h ≠ .error .overflow → (⟨w, false⟩ : Fx).gDiv g h = g.div h) ∧
    ((⟨w, true⟩ : Fx).gRem g h ≠ .error .overflow → (⟨w, false⟩ : Fx).gRem g h = g.rem h) :=
  have go : ∀ {α : Type} {c u b : Res α}, Refines c b → Refines c u → c ≠ .error .overflow → u = b :=
    fun h1 h2 h => (h2.resolve_right h).symm.trans (h1.resolve_right h)
  ⟨fun a b r => go (Fx.qNew_ref rfl cfg a b r) (Fx.qNew_rel rfl cfg a b r),
    go (Fx.qAdd_ref rfl cfg u v) (Fx.qAdd_rel rfl cfg u v), go (Fx.qSub_ref rfl cfg u v) (Fx.qSub_rel rfl cfg u v),
    go (Fx.qMul_ref rfl cfg u v) (Fx.qMul_rel rfl cfg u v), go (Fx.qDiv_ref rfl cfg u v) (Fx.qDiv_rel rfl cfg u v),
    go (Fx.qRem_ref rfl cfg u v) (Fx.qRem_rel rfl cfg u v), go (Fx.qNorm_ref rfl u) (Fx.qNorm_rel rfl u),
    go (Fx.qEq_ref rfl u v) (Fx.qEq_rel rfl u v), go (Fx.gDiv_ref rfl g h) (Fx.gDiv_rel rfl g h),
    go (Fx.gRem_ref rfl g h) (Fx.gRem_rel rfl g h)⟩

/-- `i16` without checks: exact where the checked quotient does not overflow, wrong where it does (1000/200 = 5) -/
example : (⟨16, true⟩ : Fx).gDiv ⟨70, 30⟩ ⟨2, -1⟩ ≠ .error .overflow ∧
    (⟨16, false⟩ : Fx).gDiv ⟨70, 30⟩ ⟨2, -1⟩ = .ok ⟨22, 26⟩ ∧
    (⟨16, true⟩ : Fx).gDiv ⟨1000, 0⟩ ⟨200, 0⟩ = .error .overflow ∧
    (⟨16, false⟩ : Fx).gDiv ⟨1000, 0⟩ ⟨200, 0⟩ = .ok ⟨0, 0⟩ := by decide +kernel

end NumIrr
