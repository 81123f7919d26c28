/-
C117: laws of arithmetic of quadratic and Gaussian integers over primitive integers.
-/
import Verif.Lemmas.QIntMod

namespace NumIrr
open Fx

variable {x : Fx} {cfg : Cfg} {D : ℤ}

/-- **C117** Without overflow checks, the ring operations of `QuadraticInt` on operands with one discriminant always
return, and the result is the exact one with both coefficients reduced modulo `2^w`. -/
theorem fixed_qint_mod (hw : 3 ≤ x.w) (hx : x.checks = false) (hD : x.Discr cfg D) (u v : QInt) (hu : x.InRing D u)
    (hv : x.InRing D v) :
    (∃ z, x.qAdd cfg u v = .ok z ∧ x.InRing D z ∧ z.a ≡ u.a + v.a [ZMOD 2 ^ x.w] ∧ z.b ≡ u.b + v.b [ZMOD 2 ^ x.w]) ∧
    (∃ z, x.qSub cfg u v = .ok z ∧ x.InRing D z ∧ z.a ≡ u.a - v.a [ZMOD 2 ^ x.w] ∧ z.b ≡ u.b - v.b [ZMOD 2 ^ x.w]) ∧
    (∃ z, x.qNeg u = .ok z ∧ x.InRing D z ∧ z.a ≡ -u.a [ZMOD 2 ^ x.w] ∧ z.b ≡ -u.b [ZMOD 2 ^ x.w]) ∧
    (∃ z, x.qMul cfg u v = .ok z ∧ x.InRing D z ∧ z.a ≡ u.a * v.a + omegaSq D * (u.b * v.b) [ZMOD 2 ^ x.w] ∧
      z.b ≡ u.a * v.b + u.b * v.a + omegaLin D * (u.b * v.b) [ZMOD 2 ^ x.w]) := by
  have hw' : 2 ≤ x.w := by omega
  obtain ⟨z1, e1, h1⟩ := add_is hw hx hD hu hv
  obtain ⟨z2, e2, h2⟩ := sub_is hw hx hD hu hv
  obtain ⟨z3, e3, h3⟩ := neg_is hw' hx hu
  obtain ⟨z4, e4, h4⟩ := mul_is hw hx hD hu hv
  refine ⟨⟨z1, e1, h1.ring, ?_, ?_⟩, ⟨z2, e2, h2.ring, ?_, ?_⟩, ⟨z3, e3, h3.ring, ?_, ?_⟩, ⟨z4, e4, h4.ring, ?_, ?_⟩⟩ <;>
    rw [← md_iff]
  · rw [h1.a]; simp [md]
  · rw [h1.b]; simp [md]
  · rw [h2.a]; simp [md]
  · rw [h2.b]; simp [md]
  · rw [h3.a]; simp [md]
  · rw [h3.b]; simp [md]
  · rw [h4.a]; simp [md]
  · rw [h4.b]; simp [md]

/-- over `i8`, `100 + 50√2` squared is `5000·2 + 10000 = 15000 ≡ -104` and `10000 ≡ 16` -/
example : (Fx.mk 8 false).qMul ⟨false, false⟩ ⟨100, 50, 2⟩ ⟨100, 50, 2⟩ = .ok ⟨-104, 16, 2⟩ := by decide +kernel
example : (Fx.mk 8 false).Discr ⟨false, false⟩ 2 ∧ (Fx.mk 8 false).InRing 2 ⟨100, 50, 2⟩ ∧ (Fx.mk 8 false).InRing 2 ⟨3, 0, 0⟩ := by
  refine ⟨⟨by unfold Fx.Holds; decide, by decide, ?_, by decide⟩, ⟨by unfold Fx.Holds; decide, by unfold Fx.Holds; decide, by simp⟩,
    ⟨by unfold Fx.Holds; decide, by unfold Fx.Holds; decide, by simp⟩⟩
  rintro ⟨r, hr⟩
  have : r < 2 := by nlinarith
  have : -2 < r := by nlinarith
  interval_cases r <;> omega

/-- **C117** So the laws of a commutative ring hold for the coefficients of the results, whatever overflows. -/
theorem fixed_qint_laws (hw : 3 ≤ x.w) (hx : x.checks = false) (hD : x.Discr cfg D) (u v t : QInt) (hu : x.InRing D u)
    (hv : x.InRing D v) (ht : x.InRing D t) :
    QInt.Agree (x.qAdd cfg u v) (x.qAdd cfg v u) ∧
    QInt.Agree (x.qMul cfg u v) (x.qMul cfg v u) ∧
    QInt.Agree (x.qAdd cfg u v >>= fun p => x.qAdd cfg p t) (x.qAdd cfg v t >>= fun p => x.qAdd cfg u p) ∧
    QInt.Agree (x.qMul cfg u v >>= fun p => x.qMul cfg p t) (x.qMul cfg v t >>= fun p => x.qMul cfg u p) ∧
    QInt.Agree (x.qAdd cfg v t >>= fun p => x.qMul cfg u p)
      (x.qMul cfg u v >>= fun p => x.qMul cfg u t >>= fun q => x.qAdd cfg p q) ∧
    QInt.Agree (x.qSub cfg u v >>= fun p => x.qAdd cfg p v) (.ok u) ∧
    QInt.Agree (x.qSub cfg u v) (x.qNeg v >>= fun p => x.qAdd cfg u p) := by
  have hw' : 2 ≤ x.w := by omega
  obtain ⟨auv, e1, h1⟩ := add_is hw hx hD hu hv
  obtain ⟨avu, e2, h2⟩ := add_is hw hx hD hv hu
  obtain ⟨muv, e3, h3⟩ := mul_is hw hx hD hu hv
  obtain ⟨mvu, e4, h4⟩ := mul_is hw hx hD hv hu
  obtain ⟨avt, e5, h5⟩ := add_is hw hx hD hv ht
  obtain ⟨mvt, e6, h6⟩ := mul_is hw hx hD hv ht
  obtain ⟨s7, e7, h7⟩ := add_is hw hx hD h1.ring ht
  obtain ⟨s8, e8, h8⟩ := add_is hw hx hD hu h5.ring
  obtain ⟨s9, e9, h9⟩ := mul_is hw hx hD h3.ring ht
  obtain ⟨s10, e10, h10⟩ := mul_is hw hx hD hu h6.ring
  obtain ⟨s11, e11, h11⟩ := mul_is hw hx hD hu h5.ring
  obtain ⟨mt, e12, h12⟩ := mul_is hw hx hD hu ht
  obtain ⟨s13, e13, h13⟩ := add_is hw hx hD h3.ring h12.ring
  obtain ⟨suv, e14, h14⟩ := sub_is hw hx hD hu hv
  obtain ⟨s15, e15, h15⟩ := add_is hw hx hD h14.ring hv
  obtain ⟨nv, e16, h16⟩ := neg_is hw' hx hv
  obtain ⟨s17, e17, h17⟩ := add_is hw hx hD hu h16.ring
  refine ⟨⟨auv, avu, e1, e2, h1.unique hw' h2 (by ring) (by ring)⟩, ⟨muv, mvu, e3, e4, h3.unique hw' h4 (by ring) (by ring)⟩,
    ⟨s7, s8, by rw [e1]; exact e7, by rw [e5]; exact e8, h7.unique hw' h8 ?_ ?_⟩,
    ⟨s9, s10, by rw [e3]; exact e9, by rw [e6]; exact e10, h9.unique hw' h10 ?_ ?_⟩,
    ⟨s11, s13, by rw [e5]; exact e11, by rw [e3, e12]; exact e13, h11.unique hw' h13 ?_ ?_⟩,
    ⟨s15, u, by rw [e14]; exact e15, rfl, h15.unique hw' ⟨hu, rfl, rfl⟩ ?_ ?_⟩,
    ⟨suv, s17, e14, by rw [e16]; exact e17, h14.unique hw' h17 ?_ ?_⟩⟩
  · rw [h1.a, h5.a]; ring
  · rw [h1.b, h5.b]; ring
  · rw [h3.a, h3.b, h6.a, h6.b]; ring
  · rw [h3.a, h3.b, h6.a, h6.b]; ring
  · rw [h5.a, h5.b, h3.a, h12.a]; ring
  · rw [h5.a, h5.b, h3.b, h12.b]; ring
  · rw [h14.a]; ring
  · rw [h14.b]; ring
  · rw [h16.a]; ring
  · rw [h16.b]; ring

/-- **C117** With overflow checks, whenever both sides of a law return, they have the same coefficients. -/
theorem fixed_qint_laws_checked (hw : 3 ≤ x.w) (hx : x.checks = true) (hD : x.Discr cfg D) (u v t : QInt)
    (hu : x.InRing D u) (hv : x.InRing D v) (ht : x.InRing D t) :
    QInt.AgreeIfReturn (x.qAdd cfg u v) (x.qAdd cfg v u) ∧
    QInt.AgreeIfReturn (x.qMul cfg u v) (x.qMul cfg v u) ∧
    QInt.AgreeIfReturn (x.qAdd cfg u v >>= fun p => x.qAdd cfg p t) (x.qAdd cfg v t >>= fun p => x.qAdd cfg u p) ∧
    QInt.AgreeIfReturn (x.qMul cfg u v >>= fun p => x.qMul cfg p t) (x.qMul cfg v t >>= fun p => x.qMul cfg u p) ∧
    QInt.AgreeIfReturn (x.qAdd cfg v t >>= fun p => x.qMul cfg u p)
      (x.qMul cfg u v >>= fun p => x.qMul cfg u t >>= fun q => x.qAdd cfg p q) ∧
    QInt.AgreeIfReturn (x.qSub cfg u v >>= fun p => x.qAdd cfg p v) (.ok u) ∧
    QInt.AgreeIfReturn (x.qSub cfg u v) (x.qNeg v >>= fun p => x.qAdd cfg u p) := by
  have key : ∀ {l r l' r' : Res QInt}, QInt.Agree l r → Refines l' l → Refines r' r → QInt.AgreeIfReturn l' r' := by
    rintro l r l' r' ⟨s, t, e1, e2, h⟩ hl hr s' t' e1' e2'
    have f1 := hl.returns e1'
    have f2 := hr.returns e2'
    rw [e1] at f1; rw [e2] at f2
    cases f1; cases f2
    exact h
  have A := fun u v => qAdd_rel hx cfg u v
  have M := fun u v => qMul_rel hx cfg u v
  have S := fun u v => qSub_rel hx cfg u v
  obtain ⟨k1, k2, k3, k4, k5, k6, k7⟩ := fixed_qint_laws (x := x.rel) (cfg := cfg) (D := D) hw rfl
    ⟨hD.holds, hD.mod4, hD.irrational, hD.real⟩ u v t ⟨hu.a, hu.b, hu.discr⟩ ⟨hv.a, hv.b, hv.discr⟩ ⟨ht.a, ht.b, ht.discr⟩
  exact ⟨key k1 (A _ _) (A _ _), key k2 (M _ _) (M _ _), key k3 ((A _ _).bind fun _ _ => A _ _) ((A _ _).bind fun _ _ => A _ _),
    key k4 ((M _ _).bind fun _ _ => M _ _) ((M _ _).bind fun _ _ => M _ _),
    key k5 ((A _ _).bind fun _ _ => M _ _) ((M _ _).bind fun _ _ => (M _ _).bind fun _ _ => A _ _),
    key k6 ((S _ _).bind fun _ _ => A _ _) .rfl', key k7 (S _ _) ((qNeg_rel hx _).bind fun _ _ => A _ _)⟩

/-- in a checked build one side of a law can panic where the other returns: over `i8`, `(100 - (-100)) + (-100)` -/
example : ((Fx.mk 8 true).qSub ⟨false, true⟩ ⟨100, 1, 2⟩ ⟨-100, 1, 2⟩ >>= fun p => (Fx.mk 8 true).qAdd ⟨false, true⟩ p ⟨-100, 1, 2⟩)
    = .error .overflow := by decide +kernel
example : (Fx.mk 8 true).qMul ⟨false, true⟩ ⟨3, 2, 5⟩ ⟨-1, 4, 5⟩ = .ok ⟨5, 18, 5⟩ ∧
    (Fx.mk 8 true).qMul ⟨false, true⟩ ⟨-1, 4, 5⟩ ⟨3, 2, 5⟩ = .ok ⟨5, 18, 5⟩ := by decide +kernel

/-- **C117** The laws fail for `==` at every width: with `u = 2^(w-2)·√2` both `u·(2 + 2)` and `u·2 + u·2` are zero modulo
`2^w`, the first stored with the discriminant 2 and the second with 0, and `==` calls them different. -/
theorem fixed_qint_distrib_eq_refuted (hw : 4 ≤ x.w) (hx : x.checks = false) (cfg : Cfg) :
    ∃ u v : QInt, ∃ s t, x.InRing 2 u ∧ x.InRing 2 v ∧ (x.qAdd cfg v v >>= fun p => x.qMul cfg u p) = .ok s ∧
      (x.qMul cfg u v >>= fun p => x.qMul cfg u v >>= fun q => x.qAdd cfg p q) = .ok t ∧ s.a = t.a ∧ s.b = t.b ∧
      x.qEq s t = .ok false := by
  have hw' : 2 ≤ x.w := by omega
  obtain ⟨k, hk⟩ : ∃ k, x.w = k + 4 := ⟨x.w - 4, by omega⟩
  have hP : (1 : ℤ) ≤ 2 ^ k := one_le_pow₀ (by norm_num)
  have hQ : (2 : ℤ) ^ (x.w - 1) = 8 * 2 ^ k := by rw [hk]; show (2 : ℤ) ^ (k + 3) = _; ring
  have hR : (2 : ℤ) ^ x.w = 16 * 2 ^ k := by rw [hk]; ring
  have hold : ∀ n : ℤ, -(8 * 2 ^ k) ≤ n → n < 8 * 2 ^ k → x.Holds n := fun n h1 h2 => by unfold Fx.Holds; rw [hQ]; omega
  have w0 : x.wr 0 = 0 := wr_of_holds hw' (holds_zero x)
  have w4 : x.wr 4 = 4 := wr_of_holds hw' (hold _ (by omega) (by omega))
  have wz : x.wr (4 * 2 ^ k * 4) = 0 := by
    rw [show (4 * 2 ^ k * 4 : ℤ) = 2 ^ x.w * 1 by rw [hR]; ring]; exact wr_multiple hw' 1
  have wh : x.wr (4 * 2 ^ k * 2) = -(8 * 2 ^ k) := by
    rw [← wr_of_holds hw' (hold (-(8 * 2 ^ k)) (by omega) (by omega))]
    refine wr_congr (Int.modEq_iff_dvd.2 ⟨-1, ?_⟩)
    rw [hR]; ring
  have wn : x.wr (-(8 * 2 ^ k) + -(8 * 2 ^ k)) = 0 := by
    rw [show (-(8 * 2 ^ k) + -(8 * 2 ^ k) : ℤ) = 2 ^ x.w * (-1) by rw [hR]; ring]; exact wr_multiple hw' _
  have hD : x.Discr cfg 2 := by
    refine ⟨hold _ (by omega) (by omega), by decide, ?_, by simp⟩
    rintro ⟨r, hr⟩
    have : r < 2 := by nlinarith
    have : -2 < r := by nlinarith
    interval_cases r <;> omega
  have m2 : x.qMulInt ⟨0, 4 * 2 ^ k, 2⟩ 2 = .ok ⟨0, -(8 * 2 ^ k), 2⟩ := by
    unfold qMulInt
    rw [if_neg (by decide), qcMulInt_wr hw' hx]
    simp only [QInt.coeffs, QCoeffs.mulInt, zero_mul, w0, wh]; rfl
  have m4 : x.qMulInt ⟨0, 4 * 2 ^ k, 2⟩ 4 = .ok ⟨0, 0, 2⟩ := by
    unfold qMulInt
    rw [if_neg (by decide), qcMulInt_wr hw' hx]
    simp only [QInt.coeffs, QCoeffs.mulInt, zero_mul, w0, wz]; rfl
  have a4 : x.qAdd cfg ⟨2, 0, 0⟩ ⟨2, 0, 0⟩ = .ok ⟨4, 0, 0⟩ := by
    unfold qAdd
    rw [if_pos (by decide)]
    unfold qAddInt
    rw [qcAddInt_wr hw' hx]
    simp only [QInt.coeffs, QCoeffs.addInt, show (2 + 2 : ℤ) = 4 from rfl, w4]; rfl
  have aa : x.qAdd cfg ⟨0, -(8 * 2 ^ k), 2⟩ ⟨0, -(8 * 2 ^ k), 2⟩ = .ok ⟨0, 0, 0⟩ := by
    have hn : ¬ (QInt.mk 0 (-(8 * 2 ^ k)) 2).isRational := by
      simp only [QInt.isRational, decide_eq_true_eq]; omega
    unfold qAdd
    rw [if_neg hn, if_neg hn,
      (qReduceBinOpUnwrap_same (by omega) cfg (QInt.mk 0 (-(8 * 2 ^ k)) 2) (QInt.mk 0 (-(8 * 2 ^ k)) 2) hD.holds rfl hD.mod4).1]
    show (x.qcAdd ⟨0, -(8 * 2 ^ k)⟩ ⟨0, -(8 * 2 ^ k)⟩ >>= fun c => x.qFromCoeffs cfg c 2) = _
    rw [qcAdd_wr hw' hx]
    simp only [QCoeffs.add, add_zero, w0, wn]
    exact (qFromCoeffs_ok (by omega) cfg ⟨0, 0⟩ hD.holds hD.mod4 hD.irrational hD.real).trans (by rw [if_pos rfl])
  have mu : ∀ n, x.qMul cfg ⟨0, 4 * 2 ^ k, 2⟩ ⟨n, 0, 0⟩ = x.qMulInt ⟨0, 4 * 2 ^ k, 2⟩ n := fun n => by
    unfold qMul
    rw [if_pos (by simp [QInt.isRational])]
  refine ⟨⟨0, 4 * 2 ^ k, 2⟩, ⟨2, 0, 0⟩, ⟨0, 0, 2⟩, ⟨0, 0, 0⟩, ⟨holds_zero x, hold _ (by simp only; omega) (by simp only; omega), fun _ => rfl⟩,
    ⟨hold _ (by simp only; omega) (by simp only; omega), holds_zero x, fun h => absurd rfl h⟩, ?_, ?_, rfl, rfl, by simp [qEq]⟩
  · rw [a4]; exact (mu 4).trans m4
  · rw [mu, m2]; exact aa
example : (Fx.mk 8 false).qMul ⟨false, false⟩ ⟨0, 64, 2⟩ ⟨4, 0, 0⟩ = .ok ⟨0, 0, 2⟩ ∧
    (Fx.mk 8 false).qAdd ⟨false, false⟩ ⟨0, -128, 2⟩ ⟨0, -128, 2⟩ = .ok ⟨0, 0, 0⟩ := by decide +kernel

/-- **C117** The same for `GaussianInt`, where the results agree in full. -/
theorem fixed_gint_laws (hw : 3 ≤ x.w) (hx : x.checks = false) (u v t : GInt) (hu : x.HoldsG u) :
    GInt.Agree (x.gAdd u v) (x.gAdd v u) ∧
    GInt.Agree (x.gMul u v) (x.gMul v u) ∧
    GInt.Agree (x.gAdd u v >>= fun p => x.gAdd p t) (x.gAdd v t >>= fun p => x.gAdd u p) ∧
    GInt.Agree (x.gMul u v >>= fun p => x.gMul p t) (x.gMul v t >>= fun p => x.gMul u p) ∧
    GInt.Agree (x.gAdd v t >>= fun p => x.gMul u p) (x.gMul u v >>= fun p => x.gMul u t >>= fun q => x.gAdd p q) ∧
    GInt.Agree (x.gSub u v >>= fun p => x.gAdd p v) (.ok u) ∧
    GInt.Agree (x.gMul u ⟨1, 0⟩) (.ok u) ∧ GInt.Agree (x.gAdd u ⟨0, 0⟩) (.ok u) ∧ GInt.Agree (x.gSub u u) (.ok ⟨0, 0⟩) := by
  have hw' : 2 ≤ x.w := by omega
  have A := fun u v => gAdd_is (x := x) hw' hx u v
  have S := fun u v => gSub_is (x := x) hw' hx u v
  have M := fun u v => gMul_is (x := x) hw hx u v
  obtain ⟨auv, e1, h1⟩ := A u v
  obtain ⟨avu, e2, h2⟩ := A v u
  obtain ⟨muv, e3, h3⟩ := M u v
  obtain ⟨mvu, e4, h4⟩ := M v u
  obtain ⟨avt, e5, h5⟩ := A v t
  obtain ⟨mvt, e6, h6⟩ := M v t
  obtain ⟨s7, e7, h7⟩ := A auv t
  obtain ⟨s8, e8, h8⟩ := A u avt
  obtain ⟨s9, e9, h9⟩ := M muv t
  obtain ⟨s10, e10, h10⟩ := M u mvt
  obtain ⟨s11, e11, h11⟩ := M u avt
  obtain ⟨mt, e12, h12⟩ := M u t
  obtain ⟨s13, e13, h13⟩ := A muv mt
  obtain ⟨suv, e14, h14⟩ := S u v
  obtain ⟨s15, e15, h15⟩ := A suv v
  obtain ⟨s16, e16, h16⟩ := M u ⟨1, 0⟩
  obtain ⟨s17, e17, h17⟩ := A u ⟨0, 0⟩
  obtain ⟨s18, e18, h18⟩ := S u u
  have key : ∀ {s t : GInt} {l r : Res GInt}, l = .ok s → r = .ok t → s = t → GInt.Agree l r := by
    rintro s _ l r h1 h2 rfl
    exact ⟨s, h1, h2⟩
  refine ⟨key e1 e2 (h1.unique hw' h2 (by ring) (by ring)), key e3 e4 (h3.unique hw' h4 (by ring) (by ring)),
    key (s := s7) (t := s8) (by rw [e1]; exact e7) (by rw [e5]; exact e8) (h7.unique hw' h8 ?_ ?_),
    key (s := s9) (t := s10) (by rw [e3]; exact e9) (by rw [e6]; exact e10) (h9.unique hw' h10 ?_ ?_),
    key (s := s11) (t := s13) (by rw [e5]; exact e11) (by rw [e3, e12]; exact e13) (h11.unique hw' h13 ?_ ?_),
    key (s := s15) (t := u) (by rw [e14]; exact e15) rfl (h15.unique hw' ⟨hu, rfl, rfl⟩ ?_ ?_),
    key e16 rfl (h16.unique hw' ⟨hu, rfl, rfl⟩ (by simp [md]) (by simp [md])),
    key e17 rfl (h17.unique hw' ⟨hu, rfl, rfl⟩ (by simp [md]) (by simp [md])),
    key e18 rfl (h18.unique hw' ⟨⟨holds_zero x, holds_zero x⟩, rfl, rfl⟩ (by simp [md]) (by simp [md]))⟩
  · rw [h1.a, h5.a]; ring
  · rw [h1.b, h5.b]; ring
  · rw [h3.a, h3.b, h6.a, h6.b]; ring
  · rw [h3.a, h3.b, h6.a, h6.b]; ring
  · rw [h5.a, h5.b, h3.a, h12.a]; ring
  · rw [h5.a, h5.b, h3.b, h12.b]; ring
  · rw [h14.a]; ring
  · rw [h14.b]; ring

example : (Fx.mk 8 false).gMul ⟨100, 50⟩ ⟨100, 50⟩ = .ok ⟨76, 16⟩ := by decide +kernel

/-- **C117** With overflow checks, whenever both sides of a law of `GaussianInt` return, they are equal. -/
theorem fixed_gint_laws_checked (hw : 3 ≤ x.w) (hx : x.checks = true) (u v t : GInt) (hu : x.HoldsG u) :
    GInt.AgreeIfReturn (x.gAdd u v) (x.gAdd v u) ∧
    GInt.AgreeIfReturn (x.gMul u v) (x.gMul v u) ∧
    GInt.AgreeIfReturn (x.gAdd u v >>= fun p => x.gAdd p t) (x.gAdd v t >>= fun p => x.gAdd u p) ∧
    GInt.AgreeIfReturn (x.gMul u v >>= fun p => x.gMul p t) (x.gMul v t >>= fun p => x.gMul u p) ∧
    GInt.AgreeIfReturn (x.gAdd v t >>= fun p => x.gMul u p) (x.gMul u v >>= fun p => x.gMul u t >>= fun q => x.gAdd p q) ∧
    GInt.AgreeIfReturn (x.gSub u v >>= fun p => x.gAdd p v) (.ok u) := by
  have key : ∀ {l r l' r' : Res GInt}, GInt.Agree l r → Refines l' l → Refines r' r → GInt.AgreeIfReturn l' r' := by
    rintro l r l' r' ⟨s, e1, e2⟩ hl hr s' t' e1' e2'
    have f1 := hl.returns e1'
    have f2 := hr.returns e2'
    rw [e1] at f1; rw [e2] at f2
    cases f1; cases f2
    rfl
  have A := fun u v => gAdd_rel (x := x) hx u v
  have M := fun u v => gMul_rel (x := x) hx u v
  have S := fun u v => gSub_rel (x := x) hx u v
  obtain ⟨k1, k2, k3, k4, k5, k6, -⟩ := fixed_gint_laws (x := x.rel) hw rfl u v t hu
  exact ⟨key k1 (A _ _) (A _ _), key k2 (M _ _) (M _ _), key k3 ((A _ _).bind fun _ _ => A _ _) ((A _ _).bind fun _ _ => A _ _),
    key k4 ((M _ _).bind fun _ _ => M _ _) ((M _ _).bind fun _ _ => M _ _),
    key k5 ((A _ _).bind fun _ _ => M _ _) ((M _ _).bind fun _ _ => (M _ _).bind fun _ _ => A _ _),
    key k6 ((S _ _).bind fun _ _ => A _ _) .rfl'⟩

example : (Fx.mk 8 true).gMul ⟨10, 5⟩ ⟨3, -2⟩ = .ok ⟨40, -5⟩ ∧ (Fx.mk 8 true).gMul ⟨3, -2⟩ ⟨10, 5⟩ = .ok ⟨40, -5⟩ := by decide +kernel

/-- **C117** Without checks the norm is multiplicative and the conjugation is a homomorphism, modulo `2^w`; the only
discriminant excluded is `MIN + 1`, for which `1 - d` overflows (`fixed_qint_norm_refuted`). -/
theorem fixed_qint_norm_conj (hw : 3 ≤ x.w) (hx : x.checks = false) (hD : x.Discr cfg D) (hm : D ≠ -2 ^ (x.w - 1) + 1)
    (u v : QInt) (hu : x.InRing D u) (hv : x.InRing D v) (hu' : u.d = 0 ∨ u.d = D) (hv' : v.d = 0 ∨ v.d = D) :
    (∃ z m n k, x.qMul cfg u v = .ok z ∧ x.qNorm u = .ok m ∧ x.qNorm v = .ok n ∧ x.qNorm z = .ok k ∧ x.mul m n = .ok k) ∧
    QInt.Agree (x.qMul cfg u v >>= fun p => x.qConj p) (x.qConj u >>= fun p => x.qConj v >>= fun q => x.qMul cfg p q) ∧
    QInt.Agree (x.qConj u >>= fun p => x.qConj p) (.ok u) ∧
    (∃ n z, x.qNorm u = .ok n ∧ (x.qConj u >>= fun p => x.qMul cfg u p) = .ok z ∧ z.a = n ∧ z.b = 0) := by
  have hw' : 2 ≤ x.w := by omega
  obtain ⟨z, e1, h1⟩ := mul_is hw hx hD hu hv
  have hz := mul_d hw hx hD hu hv hu' hv' e1
  obtain ⟨m, e2, k2, h2⟩ := norm_is hw hx hD hm hu hu'
  obtain ⟨n, e3, k3, h3⟩ := norm_is hw hx hD hm hv hv'
  obtain ⟨k, e4, k4, h4⟩ := norm_is hw hx hD hm h1.ring hz
  obtain ⟨cu, e5, d5, h5⟩ := conj_is hw hx hD hu hu'
  obtain ⟨cv, e6, d6, h6⟩ := conj_is hw hx hD hv hv'
  obtain ⟨cz, e7, d7, h7⟩ := conj_is hw hx hD h1.ring hz
  obtain ⟨p, e8, h8⟩ := mul_is hw hx hD h5.ring h6.ring
  obtain ⟨cc, e9, d9, h9⟩ := conj_is hw hx hD h5.ring (by rw [d5]; exact hu')
  obtain ⟨q, e10, h10⟩ := mul_is hw hx hD hu h5.ring
  refine ⟨⟨z, m, n, k, e1, e2, e3, e4, ?_⟩, ⟨cz, p, by rw [e1]; exact e7, by rw [e5, e6]; exact e8, h7.unique hw' h8 ?_ ?_⟩,
    ⟨cc, u, by rw [e5]; exact e9, rfl, h9.unique hw' ⟨hu, rfl, rfl⟩ ?_ ?_⟩,
    ⟨m, q, e2, by rw [e5]; exact e10, md_inj hw' h10.ring.a k2 ?_, md_inj hw' h10.ring.b (holds_zero x) ?_⟩⟩
  · rw [mul_wr hw' hx, md_inj hw' (wr_holds hw' (m * n)) k4]
    rw [md_wr, md, Int.cast_mul]
    show x.md m * x.md n = _
    rw [h2, h3, h4, h1.a, h1.b]
    ring
  · rw [h1.a, h1.b, h5.a, h5.b, h6.a, h6.b]
    ring
  · rw [h1.b, h5.a, h5.b, h6.a, h6.b]; ring
  · rw [h5.a, h5.b]; ring
  · rw [h5.b]; ring
  · rw [h10.a, h5.a, h5.b, h2]; ring
  · rw [h10.b, h5.a, h5.b]; simp only [md, Int.cast_zero]; ring

example : (Fx.mk 8 false).qNorm ⟨100, 50, 5⟩ = .ok (-44) ∧ (Fx.mk 8 false).qConj ⟨100, 50, 5⟩ = .ok ⟨-106, -50, 5⟩ ∧
    (Fx.mk 8 false).qMul ⟨false, false⟩ ⟨100, 50, 5⟩ ⟨-106, -50, 5⟩ = .ok ⟨-44, 0, 0⟩ := by decide +kernel

/-- **C117** The same for `GaussianInt`. -/
theorem fixed_gint_norm_conj (hw : 3 ≤ x.w) (hx : x.checks = false) (u v : GInt) (hu : x.HoldsG u) (hv : x.HoldsG v) :
    (∃ z m n k, x.gMul u v = .ok z ∧ x.gNorm u = .ok m ∧ x.gNorm v = .ok n ∧ x.gNorm z = .ok k ∧ x.mul m n = .ok k) ∧
    GInt.Agree (x.gMul u v >>= fun p => x.gConj p) (x.gConj u >>= fun p => x.gConj v >>= fun q => x.gMul p q) ∧
    GInt.Agree (x.gAdd u v >>= fun p => x.gConj p) (x.gConj u >>= fun p => x.gConj v >>= fun q => x.gAdd p q) ∧
    GInt.Agree (x.gConj u >>= fun p => x.gConj p) (.ok u) ∧
    (∃ n, x.gNorm u = .ok n ∧ (x.gConj u >>= fun p => x.gMul u p) = .ok ⟨n, 0⟩) := by
  have hw' : 2 ≤ x.w := by omega
  obtain ⟨z, e1, h1⟩ := gMul_is (x := x) hw hx u v
  obtain ⟨m, e2, k2, h2⟩ := gNorm_is (x := x) hw' hx u
  obtain ⟨n, e3, k3, h3⟩ := gNorm_is (x := x) hw' hx v
  obtain ⟨k, e4, k4, h4⟩ := gNorm_is (x := x) hw' hx z
  obtain ⟨cu, e5, h5⟩ := gConj_is hw' hx u hu
  obtain ⟨cv, e6, h6⟩ := gConj_is hw' hx v hv
  obtain ⟨cz, e7, h7⟩ := gConj_is hw' hx z h1.holds
  obtain ⟨p, e8, h8⟩ := gMul_is (x := x) hw hx cu cv
  obtain ⟨cc, e9, h9⟩ := gConj_is hw' hx cu h5.holds
  obtain ⟨q, e10, h10⟩ := gMul_is (x := x) hw hx u cu
  obtain ⟨s, e11, h11⟩ := gAdd_is (x := x) hw' hx u v
  obtain ⟨cs, e12, h12⟩ := gConj_is hw' hx s h11.holds
  obtain ⟨t, e13, h13⟩ := gAdd_is (x := x) hw' hx cu cv
  have key : ∀ {s t : GInt} {l r : Res GInt}, l = .ok s → r = .ok t → s = t → GInt.Agree l r := by
    rintro s _ l r h1 h2 rfl
    exact ⟨s, h1, h2⟩
  refine ⟨⟨z, m, n, k, e1, e2, e3, e4, ?_⟩,
    key (s := cz) (t := p) (by rw [e1]; exact e7) (by rw [e5, e6]; exact e8) (h7.unique hw' h8 ?_ ?_),
    key (s := cs) (t := t) (by rw [e11]; exact e12) (by rw [e5, e6]; exact e13) (h12.unique hw' h13 ?_ ?_),
    key (s := cc) (t := u) (by rw [e5]; exact e9) rfl (h9.unique hw' ⟨hu, rfl, rfl⟩ ?_ ?_),
    ⟨m, e2, ?_⟩⟩
  · rw [mul_wr hw' hx, md_inj hw' (wr_holds hw' (m * n)) k4]
    rw [md_wr, md, Int.cast_mul]
    show x.md m * x.md n = _
    rw [h2, h3, h4, h1.a, h1.b]
    ring
  · rw [h1.a, h5.a, h5.b, h6.a, h6.b]; ring
  · rw [h1.b, h5.a, h5.b, h6.a, h6.b]; ring
  · rw [h11.a, h5.a, h6.a]
  · rw [h11.b, h5.b, h6.b]; ring
  · rw [h5.a]
  · rw [h5.b]; ring
  · rw [e5]
    show x.gMul u cu = _
    rw [e10]
    congr 1
    refine h10.unique hw' (t := ⟨m, 0⟩) ⟨⟨k2, holds_zero x⟩, h2, rfl⟩ ?_ ?_
    · rw [h5.a, h5.b]; ring
    · rw [h5.a, h5.b]; simp only [md, Int.cast_zero]; ring

example : (Fx.mk 8 false).gNorm ⟨100, 50⟩ = .ok (-44) ∧ (Fx.mk 8 false).gMul ⟨100, 50⟩ ⟨100, -50⟩ = .ok ⟨-44, 0⟩ := by decide +kernel

end NumIrr
