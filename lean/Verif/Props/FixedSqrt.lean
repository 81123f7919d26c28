/-
C79, C80: square roots and `reduced()` of surds over the primitive signed integer types.
-/
import Verif.Lemmas.FixedSqrtSafe
import Verif.Props.SurdSqrt

namespace NumIrr
open Surd

/-! ### C79 from_sqrt -/

/-- **C79** in both kinds of build `from_sqrt` of a fraction reports `Complex` exactly for negative fractions without the
`complex` feature, and `Overflow` exactly if the product of numerator and denominator does not fit (and the fraction is not
an integer); the error carries the fraction. -/
theorem fixed_sqrt_rat_errors (x : Fx) (cfg : Cfg) (t : ℚ) :
    (cfg.complex = false ∧ t < 0 → x.fromSqrtRat cfg (.of t) = .ok (.error ⟨.of t, .complex⟩)) ∧
    (¬ (cfg.complex = false ∧ t < 0) → t.den ≠ 1 → ¬ x.Holds (t.num * t.den) →
      x.fromSqrtRat cfg (.of t) = .ok (.error ⟨.of t, .overflow⟩)) ∧
    (¬ (cfg.complex = false ∧ t < 0) → (t.den = 1 ∨ x.Holds (t.num * t.den)) →
      ∀ e, x.fromSqrtRat cfg (.of t) ≠ .ok (.error e)) := by
  have hneg : (cfg.complex = false ∧ Fx.rtIsNeg (.of t) = true) ↔ (cfg.complex = false ∧ t < 0) := by
    rw [Fx.rtIsNeg_of]
  have hd : (Rt.of t).den = 1 ↔ t.den = 1 := by show ((t.den : ℕ) : ℤ) = 1 ↔ _; omega
  have hn : ∀ (r : Res Surd) (e : SqrtErr Rt),
      (r >>= fun s => (pure (.ok s) : Res (Except (SqrtErr Rt) Surd))) ≠ .ok (.error e) := by
    intro r e h
    cases r with
    | error p => cases h
    | ok s => injection h with h; cases h
  unfold Fx.fromSqrtRat
  refine ⟨fun h => if_pos (hneg.2 h), fun h h1 h2 => ?_, fun h h1 e => ?_⟩
  · rw [if_neg (fun g => h (hneg.1 g)), if_neg (fun g => h1 (hd.1 g)), if_neg]
    intro g; exact h2 (Fx.fits_holds g)
  · rw [if_neg (fun g => h (hneg.1 g))]
    split
    · exact hn _ e
    · rename_i hd1
      have h2 := h1.resolve_left (fun g => hd1 (hd.2 g))
      rw [if_pos (show x.fits ((Rt.of t).num * (Rt.of t).den) = true from Fx.holds_fits h2)]
      exact hn _ e

/-- `i8`: √(13/10) is not computed because 130 does not fit; √(−2) is `Complex`, or i√2 with the feature -/
example : (⟨8, false⟩ : Fx).fromSqrtRat ⟨false, true⟩ (.of (13/10)) = .ok (.error ⟨⟨13, 10⟩, .overflow⟩) ∧
    (⟨8, false⟩ : Fx).fromSqrtRat ⟨false, true⟩ (.of (-2)) = .ok (.error ⟨⟨-2, 1⟩, .complex⟩) ∧
    (⟨8, false⟩ : Fx).fromSqrtRat ⟨true, true⟩ (.of (-2)) = .ok (.ok ⟨0, 1, 1, -2⟩) := by decide +kernel

/-- **C79** partial: with overflow checks, where `from_sqrt` of a fraction should return the root, it returns the principal
square root or panics with an overflow.
Missing from the full claim: that it does not panic when the root is representable, which is false
(`fixed_sqrt_rat_refuted`), and builds without overflow checks. -/
theorem fixed_sqrt_rat_partial (x : Fx) (hx : x.checks = true) (cfg : Cfg) (t : ℚ)
    (h : ¬ (cfg.complex = false ∧ t < 0)) (hf : t.den = 1 ∨ x.Holds (t.num * t.den)) :
    x.fromSqrtRat cfg (.of t) = .error .overflow ∨
    ∃ s, x.fromSqrtRat cfg (.of t) = .ok (.ok s) ∧ s.Ok cfg ∧ (0 ≤ t → s.valC = ((Real.sqrt t : ℝ) : ℂ)) ∧
      (t < 0 → s.valC = Complex.I * ((Real.sqrt (-t) : ℝ) : ℂ)) := by
  rcases Fx.fromSqrtRat_ref hx cfg t with g | g
  · right
    obtain ⟨s, h1, h2⟩ := (surd_fromSqrtRat cfg x.fits t).2.2 h (hf.imp_right Fx.holds_fits)
    refine ⟨s, ?_, h2⟩
    rw [g, h1]; rfl
  · exact Or.inl g

/-- `i16`: √(8/9) = √8/3, and a panic on √(1/1000) -/
example : (⟨16, true⟩ : Fx).fromSqrtRat ⟨false, true⟩ (.of (8/9)) = .ok (.ok ⟨0, 1, 3, 8⟩) ∧
    (⟨16, true⟩ : Fx).Holds (8 * 9) ∧ (⟨16, true⟩ : Fx).Holds (1 * 1000) ∧
    (⟨16, true⟩ : Fx).fromSqrtRat ⟨false, true⟩ (.of (1/1000)) = .error .overflow := by
  refine ⟨by decide +kernel, by unfold Fx.Holds; decide, by unfold Fx.Holds; decide, by decide +kernel⟩

/-- **C79** range: `from_sqrt` of a fraction is exact in both kinds of build when the product of numerator and denominator
and the square of the denominator fit. -/
theorem fixed_sqrt_rat_exact (x : Fx) (cfg : Cfg) (t : ℚ) (h : ¬ (cfg.complex = false ∧ t < 0))
    (hn : |t.num * t.den| < 2 ^ (x.w - 1)) (hd : (t.den * t.den : ℤ) < 2 ^ (x.w - 1)) :
    ∃ s, x.fromSqrtRat cfg (.of t) = .ok (.ok s) ∧ s.Ok cfg ∧ (0 ≤ t → s.valC = ((Real.sqrt t : ℝ) : ℂ)) ∧
      (t < 0 → s.valC = Complex.I * ((Real.sqrt (-t) : ℝ) : ℂ)) := by
  have hd1 : (1 : ℤ) ≤ t.den := by exact_mod_cast t.pos
  have hnd : |t.num| ≤ |t.num * t.den| := by
    rw [abs_mul, abs_of_pos (by omega : (0 : ℤ) < t.den)]
    nlinarith [abs_nonneg t.num]
  have hL : (2 ^ (x.w - 1) - 1 : ℤ) < 2 ^ ((⟨x.w, true⟩ : Fx).w - 1) := by show _ < (2 : ℤ) ^ (x.w - 1); linarith
  have hsafe := Fx.fromSqrtRat_safe (x := ⟨x.w, true⟩) (t := .of t) hL cfg (by nlinarith)
    (by show |t.num| ≤ _; linarith) (by show |((t.den : ℕ) : ℤ)| ≤ _; rw [abs_of_pos (by omega)]; nlinarith)
    (fun _ => by show |t.num * t.den| ≤ _; linarith) (by show (t.den * t.den : ℤ) ≤ _; linarith)
  have hrun : x.fromSqrtRat cfg (.of t) = (Surd.fromSqrtRat cfg x.fits t).map sqrtRt :=
    Fx.run_eq_at (f := fun y => y.fromSqrtRat cfg (.of t))
      (Fx.fromSqrtRat_ref (x := ⟨x.w, true⟩) rfl cfg t) (Fx.fromSqrtRat_rel (x := ⟨x.w, true⟩) rfl cfg _) hsafe
  have hf : x.fits (t.num * t.den) = true := Fx.holds_fits ⟨by have := (abs_lt.1 hn).1; linarith, (abs_lt.1 hn).2⟩
  obtain ⟨s, h1, h2⟩ := (surd_fromSqrtRat cfg x.fits t).2.2 h (.inr hf)
  refine ⟨s, ?_, h2⟩
  rw [hrun, h1]; rfl

/-- `i8` without checks: √(11/10) = √110/10 -/
example : |((11/10 : ℚ).num) * (11/10 : ℚ).den| < 2 ^ ((⟨8, false⟩ : Fx).w - 1) ∧
    (((11/10 : ℚ).den) * ((11/10 : ℚ).den) : ℤ) < 2 ^ ((⟨8, false⟩ : Fx).w - 1) ∧
    (⟨8, false⟩ : Fx).fromSqrtRat ⟨false, true⟩ (.of (11/10)) = .ok (.ok ⟨0, 1, 10, 110⟩) := by decide +kernel

/-- **C79** the range is sharp, and the claim that `from_sqrt` reports an overflow as an error is false: with overflow checks
it panics on every positive fraction whose root is irrational and whose product of numerator and denominator fits, if the
square of the denominator does not fit — though the exact result is representable. -/
theorem fixed_sqrt_rat_refuted (x : Fx) (hx : x.checks = true) (cfg : Cfg) (t : ℚ) (ht : 0 < t)
    (hn : x.Holds (t.num * t.den)) (hsq : ¬ IsSquare (t.num * t.den)) (hd : 2 ^ (x.w - 1) ≤ (t.den * t.den : ℤ)) :
    x.fromSqrtRat cfg (.of t) = .error .overflow ∧
    ∃ s, Surd.fromSqrtRat cfg x.fits t = .ok (.ok s) ∧ x.HoldsS s := by
  have hnum : 0 < t.num := Rat.num_pos.2 ht
  have hd1 : (1 : ℤ) ≤ t.den := by exact_mod_cast t.pos
  have hL0 : (0 : ℤ) < 2 ^ (x.w - 1) := by positivity
  have hpos : 0 < t.num * t.den := mul_pos hnum (by omega)
  have hdL : (t.den : ℤ) < 2 ^ (x.w - 1) := by
    have := hn.2
    nlinarith
  have hne : ¬ (cfg.complex = false ∧ t < 0) := by rintro ⟨_, g⟩; exact absurd g (not_lt.2 ht.le)
  have hneR : ¬ (cfg.complex = false ∧ Fx.rtIsNeg (.of t) = true) := by rw [Fx.rtIsNeg_of]; exact hne
  have hf := Fx.holds_fits hn
  obtain ⟨s, h1, -⟩ := (surd_fromSqrtRat cfg x.fits t).2.2 hne (.inr hf)
  have h2 : ∀ w : ℤ, w = t.den → 2 ^ (x.w - 1) ≤ w * w := by rintro w rfl; exact hd
  have hden : t.den = 1 → (2 : ℤ) ^ (x.w - 1) = 1 := by
    intro e
    have := h2 1 (by exact_mod_cast e.symm)
    linarith
  have hden1 : t.den ≠ 1 := by
    intro e
    have := hn.2
    rw [hden e] at this
    omega
  refine ⟨?_, s, h1, ?_⟩
  · unfold Fx.fromSqrtRat
    rw [if_neg hneR, if_neg (by show ¬ ((t.den : ℕ) : ℤ) = 1; omega),
      if_pos (show x.fits ((Rt.of t).num * (Rt.of t).den) = true from hf)]
    show (x.surdNew cfg 0 1 ((t.den : ℕ) : ℤ) (t.num * t.den) >>= _) = _
    rw [Fx.newRoot_overflow hx cfg (by omega) hdL hd hpos.le hn.2 hsq]
    rfl
  · unfold Surd.fromSqrtRat at h1
    rw [if_neg hne, if_neg hden1, if_pos hf] at h1
    cases hs : Surd.new cfg 0 1 (t.den : ℤ) (t.num * t.den) with
    | error e => rw [hs] at h1; cases h1
    | ok s' =>
      rw [hs] at h1
      have e : s' = s := by injection h1 with h1; injection h1
      subst e
      obtain ⟨a1, a2, a3, a4⟩ := Fx.big_newRoot_bnd cfg hs
      rw [abs_of_pos hpos] at a1 a4
      rw [abs_of_pos (by omega : (0 : ℤ) < t.den)] at a3
      have hk : ∀ v : ℤ, |v| < 2 ^ (x.w - 1) → x.Holds v := fun v hv =>
        ⟨by have := (abs_lt.1 hv).1; linarith, (abs_lt.1 hv).2⟩
      refine ⟨hk _ (by have := hn.2; linarith), hk _ ?_, hk _ (by linarith), hk _ (by have := hn.2; linarith)⟩
      have := hn.2
      omega

/-- `i64`: √(1/4294967298) = √4294967298/4294967298, but 4294967298² does not fit -/
example : (⟨64, true⟩ : Fx).Holds ((1/4294967298 : ℚ).num * (1/4294967298 : ℚ).den) ∧
    2 ^ ((⟨64, true⟩ : Fx).w - 1) ≤ ((1/4294967298 : ℚ).den * (1/4294967298 : ℚ).den : ℤ) ∧
    Surd.fromSqrtRat ⟨false, true⟩ (⟨64, true⟩ : Fx).fits (1/4294967298) =
      .ok (.ok ⟨0, 1, 4294967298, 4294967298⟩) ∧
    (⟨64, true⟩ : Fx).fromSqrtRat ⟨false, true⟩ (.of (1/4294967298)) = .error .overflow := by
  refine ⟨by unfold Fx.Holds; decide +kernel, by decide +kernel, by decide +kernel, by decide +kernel⟩

/-- **C79** partial: with overflow checks `from_sqrt` of a surd panics with an overflow, or returns a surd that squares to the
argument, or reports an error that carries back the argument and is right: `Complex` only for negative numbers without the
`complex` feature, `Unrepresentable` only if no surd squares to the argument.
Missing from the full claim: that it does not panic when the root is representable, and builds without overflow checks
(`fixed_sqrt_release_refuted`). -/
theorem fixed_sqrt_surd_partial (x : Fx) (hx : x.checks = true) (cfg : Cfg) (t : Surd) (ht : t.Ok cfg) :
    x.fromSqrtSurd cfg t = .error .overflow ∨
    (∃ s, x.fromSqrtSurd cfg t = .ok (.ok s) ∧ s.Ok cfg ∧ s.valC ^ 2 = t.valC) ∨
    ∃ d k, x.fromSqrtSurd cfg t = .ok (.error ⟨d, k⟩) ∧ d.Ok cfg ∧ d.valC = t.valC ∧
      (k = .complex → cfg.complex = false ∧ t.val < 0) ∧
      (k = .unrepresentable → ∀ w : Surd, w.c ≠ 0 → w.valC ^ 2 ≠ t.valC) := by
  rcases Fx.fromSqrtSurd_ref hx cfg ht with g | g
  · right
    obtain ⟨o, h1, h2⟩ := surd_fromSqrt_value cfg x.fits t ht
    rw [g, h1]
    cases o with
    | ok s => exact Or.inl ⟨s, rfl, h2 s rfl⟩
    | error e =>
      obtain ⟨d, k⟩ := e
      obtain ⟨a1, a2, -, a4, -⟩ := surd_fromSqrt_error cfg x.fits t ht d k h1
      refine Or.inr ⟨d, k, rfl, a1, a2, a4, ?_⟩
      rintro rfl
      exact surd_fromSqrt_unrepresentable cfg x.fits t ht d h1
  · exact Or.inl g

/-- `i16`: √(7+4√3) = 2+√3; √(4+√7) is not a surd; −√2 has no real root -/
example : (Surd.mk 7 4 1 3).Ok ⟨false, true⟩ ∧ (Surd.mk 4 1 1 7).Ok ⟨false, true⟩ ∧
    (⟨16, true⟩ : Fx).fromSqrtSurd ⟨false, true⟩ ⟨7, 4, 1, 3⟩ = .ok (.ok ⟨2, 1, 1, 3⟩) ∧
    (⟨16, true⟩ : Fx).fromSqrtSurd ⟨false, true⟩ ⟨4, 1, 1, 7⟩ = .ok (.error ⟨⟨4, 1, 1, 7⟩, .unrepresentable⟩) ∧
    (⟨16, true⟩ : Fx).fromSqrtSurd ⟨false, true⟩ ⟨0, -1, 1, 2⟩ = .ok (.error ⟨⟨0, -1, 1, 2⟩, .complex⟩) ∧
    (⟨16, true⟩ : Fx).fromSqrtSurd ⟨false, true⟩ ⟨700, 400, 1, 3⟩ = .error .overflow := by decide +kernel

/-- **C79** in both kinds of build what `from_sqrt` returns is representable. -/
theorem fixed_sqrt_fits (x : Fx) (hw : 2 ≤ x.w) (cfg : Cfg) :
    (∀ (n d : ℤ), x.Holds n → x.Holds d → ∀ s, x.fromSqrtRat cfg ⟨n, d⟩ = .ok (.ok s) → x.HoldsS s) ∧
    (∀ t, x.HoldsS t → (∀ s, x.fromSqrtSurd cfg t = .ok (.ok s) → x.HoldsS s) ∧
      ∀ d k, x.fromSqrtSurd cfg t = .ok (.error ⟨d, k⟩) → x.HoldsS d) :=
  ⟨fun n d hn hd _ hs => Fx.fromSqrtRat_holds hw cfg (t := ⟨n, d⟩) ⟨hn, hd⟩ _ hs,
    fun _ ht => ⟨fun _ hs => Fx.fromSqrtSurd_holds hw cfg ht _ hs, fun _ _ hs => Fx.fromSqrtSurd_holds hw cfg ht _ hs⟩⟩

/-- `i16`: the root of a surd at the upper end of the range -/
example : (⟨16, false⟩ : Fx).HoldsS ⟨32767, 0, 1, 0⟩ ∧
    (⟨16, false⟩ : Fx).fromSqrtSurd ⟨false, true⟩ ⟨32767, 0, 1, 0⟩ = .ok (.ok ⟨0, 1, 1, 32767⟩) := by
  refine ⟨by unfold Fx.HoldsS Fx.Holds; decide, by decide +kernel⟩

/-- **C79** partial: without overflow checks `from_sqrt` agrees with arbitrary precision wherever the same call with overflow
checks does not panic with an overflow.
Missing from the full claim: calls in which some intermediate result overflows (`fixed_sqrt_release_refuted`). -/
theorem fixed_sqrt_release_partial (w : ℕ) (cfg : Cfg) :
    (∀ t : ℚ, (⟨w, true⟩ : Fx).fromSqrtRat cfg (.of t) ≠ .error .overflow →
      (⟨w, false⟩ : Fx).fromSqrtRat cfg (.of t) = (⟨w, true⟩ : Fx).fromSqrtRat cfg (.of t)) ∧
    (∀ t : Surd, t.Ok cfg → (⟨w, true⟩ : Fx).fromSqrtSurd cfg t ≠ .error .overflow →
      (⟨w, false⟩ : Fx).fromSqrtSurd cfg t = Surd.fromSqrtSurd cfg (⟨w, false⟩ : Fx).fits t) :=
  ⟨fun _ h => ((Fx.fromSqrtRat_rel (x := ⟨w, true⟩) rfl cfg _).resolve_right h).symm,
    fun t ht h => ((Fx.fromSqrtSurd_rel (x := ⟨w, true⟩) rfl cfg t).resolve_right h).symm.trans
      ((Fx.fromSqrtSurd_ref (x := ⟨w, true⟩) rfl cfg ht).resolve_right h)⟩

/-- `i16`: no overflow on √(28+10√3) = 5+√3 -/
example : (Surd.mk 28 10 1 3).Ok ⟨false, true⟩ ∧
    (⟨16, true⟩ : Fx).fromSqrtSurd ⟨false, true⟩ ⟨28, 10, 1, 3⟩ ≠ .error .overflow ∧
    (⟨16, false⟩ : Fx).fromSqrtSurd ⟨false, true⟩ ⟨28, 10, 1, 3⟩ = .ok (.ok ⟨5, 1, 1, 3⟩) := by decide +kernel

/-- **C79** range: if the fields of a surd are at most `B` and `12·B⁸` fits, then in both kinds of build `from_sqrt` does not
panic, returns a root that squares to the argument whenever there is one (and the argument is not negative, or `complex` is
enabled), and reports `Complex` or `Unrepresentable` otherwise, never `Overflow`. -/
theorem fixed_sqrt_surd_exact (x : Fx) (cfg : Cfg) (t : Surd) (B : ℤ) (ht : t.Ok cfg) (hB : 1 ≤ B) (hs : t.Small B)
    (h : 12 * B ^ 8 < 2 ^ (x.w - 1)) :
    (∃ s, x.fromSqrtSurd cfg t = .ok (.ok s) ∧ s.Ok cfg ∧ s.valC ^ 2 = t.valC) ∨
    (cfg.complex = false ∧ t.val < 0 ∧ x.fromSqrtSurd cfg t = .ok (.error ⟨t, .complex⟩)) ∨
    ((∀ w : Surd, w.c ≠ 0 → w.valC ^ 2 ≠ t.valC) ∧
      ∃ d, x.fromSqrtSurd cfg t = .ok (.error ⟨d, .unrepresentable⟩) ∧ d.valC = t.valC) := by
  have hsafe := Fx.fromSqrtSurd_safe (x := ⟨x.w, true⟩) (L := 12 * B ^ 8) h rfl hB le_rfl cfg ht hs
  have hck := (Fx.fromSqrtSurd_ref (x := ⟨x.w, true⟩) rfl cfg ht).eq_of_safe hsafe
  have hrun : x.fromSqrtSurd cfg t = Surd.fromSqrtSurd cfg x.fits t :=
    Fx.run_eq_at (f := fun y => y.fromSqrtSurd cfg t)
      (Fx.fromSqrtSurd_ref (x := ⟨x.w, true⟩) rfl cfg ht) (Fx.fromSqrtSurd_rel (x := ⟨x.w, true⟩) rfl cfg _) hsafe
  obtain ⟨o, h1, h2⟩ := surd_fromSqrt_value cfg x.fits t ht
  cases o with
  | ok s => exact Or.inl ⟨s, hrun.trans h1, h2 s rfl⟩
  | error e =>
    obtain ⟨d, k⟩ := e
    obtain ⟨a1, a2, -, a4, -⟩ := surd_fromSqrt_error cfg x.fits t ht d k h1
    right
    cases k with
    | complex =>
      obtain ⟨b1, b2⟩ := a4 rfl
      exact Or.inl ⟨b1, b2, hrun.trans (surd_fromSqrt_complex cfg x.fits t ht b1 b2)⟩
    | unrepresentable =>
      exact Or.inr ⟨surd_fromSqrt_unrepresentable cfg x.fits t ht d h1, d, hrun.trans h1, a2⟩
    | overflow => exact absurd rfl (hsafe.2 _ (hck.trans h1) _ rfl)

/-- `i64`: fields up to 172 -/
example : (Surd.mk 172 99 1 3).Ok ⟨false, true⟩ ∧ (Surd.mk 172 99 1 3).Small 172 ∧
    (12 * 172 ^ 8 : ℤ) < 2 ^ ((⟨64, false⟩ : Fx).w - 1) ∧
    (⟨64, false⟩ : Fx).fromSqrtSurd ⟨false, true⟩ ⟨172, 70, 1, 3⟩ = .ok (.ok ⟨5, 7, 1, 3⟩) ∧
    (⟨64, false⟩ : Fx).fromSqrtSurd ⟨false, true⟩ ⟨172, 99, 1, 3⟩ =
      .ok (.error ⟨⟨172, 99, 1, 3⟩, .unrepresentable⟩) := by
  refine ⟨by decide +kernel, by unfold Surd.Small; decide, by decide, by decide +kernel, by decide +kernel⟩

/-- **C79** without overflow checks `from_sqrt` is wrong for fractions, for the types of 16 bits and more: it returns a number
that does not square to the argument. -/
theorem fixed_sqrt_rat_release_refuted (cfg : Cfg) (w : ℕ) (hw : w = 16 ∨ w = 32 ∨ w = 64 ∨ w = 128) :
    ∃ (t : ℚ) (s : Surd), (⟨w, false⟩ : Fx).Holds (t.num * t.den) ∧ 0 < t ∧
      (⟨w, false⟩ : Fx).fromSqrtRat cfg (.of t) = .ok (.ok s) ∧ s.Ok cfg ∧ s.valC ^ 2 ≠ t := by
  have key : ∀ (q d : ℕ), d = 3 * q + 1 → 1 < q → ((⟨0, 1, q, d⟩ : Surd).valC) ^ 2 ≠ (((9 : ℚ) / d : ℚ) : ℂ) := by
    intro q d hd hq e
    have hv : (⟨0, 1, q, d⟩ : Surd).valC = ((Real.sqrt d / q : ℝ) : ℂ) := by
      simp [Surd.valC, quadC, rootC]
    rw [hv] at e
    have e2 : (Real.sqrt d / q : ℝ) ^ 2 = (9 : ℝ) / d := by
      have : (((Real.sqrt d / q) ^ 2 : ℝ) : ℂ) = ((9 / d : ℝ) : ℂ) := by
        push_cast at e ⊢; exact e
      exact_mod_cast this
    rw [div_pow, Real.sq_sqrt (by positivity)] at e2
    have hq0 : (q : ℝ) ≠ 0 := by positivity
    have hd0 : (d : ℝ) ≠ 0 := by rw [hd]; positivity
    field_simp at e2
    have e3 : d * d = 9 * (q * q) := by
      have : (d : ℝ) * d = 9 * (q * q) := by nlinarith
      exact_mod_cast this
    subst hd
    nlinarith
  have hq : ∀ d : ℕ, (9 / d : ℚ) = Rat.divInt 9 d := fun d => by rw [Rat.divInt_eq_div]; push_cast; rfl
  rcases hw with rfl | rfl | rfl | rfl
  · refine ⟨9 / (265 : ℕ), ⟨0, 1, (88 : ℕ), (265 : ℕ)⟩, ?_, by norm_num, ?_, ?_, key 88 265 rfl (by norm_num)⟩
    · rw [hq]; unfold Fx.Holds; decide +kernel
    · rw [hq]; obtain ⟨c, d⟩ := cfg; cases c <;> cases d <;> decide +kernel
    · obtain ⟨c, d⟩ := cfg; cases c <;> cases d <;> decide +kernel
  · refine ⟨9 / (65545 : ℕ), ⟨0, 1, (21848 : ℕ), (65545 : ℕ)⟩, ?_, by norm_num, ?_, ?_, key 21848 65545 rfl (by norm_num)⟩
    · rw [hq]; unfold Fx.Holds; decide +kernel
    · rw [hq]; obtain ⟨c, d⟩ := cfg; cases c <;> cases d <;> decide +kernel
    · obtain ⟨c, d⟩ := cfg; cases c <;> cases d <;> decide +kernel
  · refine ⟨9 / (4294967305 : ℕ), ⟨0, 1, (1431655768 : ℕ), (4294967305 : ℕ)⟩, ?_, by norm_num, ?_, ?_, key 1431655768 4294967305 rfl (by norm_num)⟩
    · rw [hq]; unfold Fx.Holds; decide +kernel
    · rw [hq]; obtain ⟨c, d⟩ := cfg; cases c <;> cases d <;> decide +kernel
    · obtain ⟨c, d⟩ := cfg; cases c <;> cases d <;> decide +kernel
  · refine ⟨9 / (18446744073709551625 : ℕ), ⟨0, 1, (6148914691236517208 : ℕ), (18446744073709551625 : ℕ)⟩, ?_, by norm_num, ?_, ?_, key 6148914691236517208 18446744073709551625 rfl (by norm_num)⟩
    · rw [hq]; unfold Fx.Holds; decide +kernel
    · rw [hq]; obtain ⟨c, d⟩ := cfg; cases c <;> cases d <;> decide +kernel
    · obtain ⟨c, d⟩ := cfg; cases c <;> cases d <;> decide +kernel

/-- `i16`: √(9/265) comes out as √265/88, which squares to 265/7744 -/
example : (⟨16, false⟩ : Fx).fromSqrtRat ⟨false, true⟩ (.of (9/265)) = .ok (.ok ⟨0, 1, 88, 265⟩) ∧
    (⟨16, true⟩ : Fx).fromSqrtRat ⟨false, true⟩ (.of (9/265)) = .error .overflow := by decide +kernel

/-- **C79** without overflow checks `from_sqrt` is wrong for surds, for each of the five widths: from a representable surd it
returns a surd that does not square to it. -/
theorem fixed_sqrt_release_refuted (cfg : Cfg) (w : ℕ) (hw : w = 8 ∨ w = 16 ∨ w = 32 ∨ w = 64 ∨ w = 128) :
    ∃ t s : Surd, t.Ok cfg ∧ (⟨w, false⟩ : Fx).HoldsS t ∧ (⟨w, false⟩ : Fx).fromSqrtSurd cfg t = .ok (.ok s) ∧
      s.Ok cfg ∧ s.valC ^ 2 ≠ t.valC := by
  rcases hw with rfl | hw
  · refine ⟨⟨51, 3, 2, 8⟩, ⟨12, 1, 4, 8⟩, ?_, by unfold Fx.HoldsS Fx.Holds; decide, ?_, ?_, ?_⟩
    · obtain ⟨c, d⟩ := cfg; cases c <;> cases d <;> decide +kernel
    · obtain ⟨c, d⟩ := cfg; cases c <;> cases d <;> decide +kernel
    · obtain ⟨c, d⟩ := cfg; cases c <;> cases d <;> decide +kernel
    · intro e
      have h1 : (⟨12, 1, 4, 8⟩ : Surd).valC = (((12 + Real.sqrt 8) / 4 : ℝ) : ℂ) := by
        simp [Surd.valC, quadC, rootC]
      have h2 : (⟨51, 3, 2, 8⟩ : Surd).valC = (((51 + 3 * Real.sqrt 8) / 2 : ℝ) : ℂ) := by
        simp [Surd.valC, quadC, rootC]
      rw [h1, h2] at e
      have e2 : ((12 + Real.sqrt 8) / 4 : ℝ) ^ 2 = (51 + 3 * Real.sqrt 8) / 2 := by exact_mod_cast e
      have h8 := Real.sq_sqrt (by norm_num : (0 : ℝ) ≤ 8)
      nlinarith
  · obtain ⟨t, s, h1, h2, h3, h4, h5⟩ := fixed_sqrt_rat_release_refuted cfg w hw
    have hd1 : (1 : ℤ) ≤ t.den := by exact_mod_cast t.pos
    have hn1 : 1 ≤ t.num := Rat.num_pos.2 h2
    have hH : (⟨w, false⟩ : Fx).HoldsS ⟨t.num, 0, t.den, 0⟩ := by
      have hp : (0 : ℤ) < 2 ^ ((⟨w, false⟩ : Fx).w - 1) := by positivity
      have hm := h1.2
      refine ⟨⟨?_, ?_⟩, ⟨?_, ?_⟩, ⟨?_, ?_⟩, ⟨?_, ?_⟩⟩ <;> dsimp only at * <;> first | linarith | nlinarith
    have hv : (⟨t.num, 0, t.den, 0⟩ : Surd).valC = t := by
      have := surd_ofRat_value t
      exact this
    have hok : (⟨t.num, 0, t.den, 0⟩ : Surd).Ok cfg := surd_ofRat_normal cfg t
    refine ⟨⟨t.num, 0, t.den, 0⟩, s, hok, hH, ?_, h4, by rw [hv]; exact h5⟩
    have hp : (⟨t.num, 0, t.den, 0⟩ : Surd).panicIfComplex cfg = .ok () := panicIfComplex_ok le_rfl
    have hneg : (⟨w, false⟩ : Fx).isNegative cfg ⟨t.num, 0, t.den, 0⟩ = .ok false := by
      unfold Fx.isNegative
      rw [hp, ok_bind, if_pos rfl]
      show Except.ok (decide (t.num < 0)) = _
      rw [decide_eq_false (by omega)]
    have hto : (⟨w, false⟩ : Fx).toRational cfg ⟨t.num, 0, t.den, 0⟩ = .ok (.exact (t.num, t.den)) := by
      unfold Fx.toRational
      rw [hp, ok_bind, if_pos rfl]; rfl
    have hif : (if cfg.complex then (pure false : Res Bool) else
        (⟨w, false⟩ : Fx).isNegative cfg ⟨t.num, 0, t.den, 0⟩) = .ok false := by
      split
      · rfl
      · exact hneg
    unfold Fx.fromSqrtSurd
    rw [hif, ok_bind]
    simp only [Bool.false_eq_true, if_false]
    rw [if_pos (hok.isRational_iff.mpr rfl)]
    unfold Fx.fromSqrtSurdRat
    rw [hto, ok_bind]
    show ((⟨w, false⟩ : Fx).fromSqrtRat cfg (.of t) >>= _) = _
    rw [h3]
    rfl

/-- `i8` without checks: √((51+3√8)/2) comes out as (12+√8)/4, while no surd squares to it -/
example : (⟨8, false⟩ : Fx).fromSqrtSurd ⟨false, true⟩ ⟨51, 3, 2, 8⟩ = .ok (.ok ⟨12, 1, 4, 8⟩) ∧
    Surd.fromSqrtSurd ⟨false, true⟩ (⟨8, false⟩ : Fx).fits ⟨51, 3, 2, 8⟩ =
      .ok (.error ⟨⟨51, 6, 2, 2⟩, .unrepresentable⟩) ∧
    (⟨8, true⟩ : Fx).fromSqrtSurd ⟨false, true⟩ ⟨51, 3, 2, 8⟩ = .error .overflow := by decide +kernel

/-! ### C80 reduced -/

/-- **C80** partial: with overflow checks, over a type that holds 251, `reduced()` of an irrational surd terminates and
panics with an overflow or returns a surd of the same value in normal form, whose root is not divisible by the square of any
prime `≤ 251` (whose square fits the type).
Missing from the full claim: that it does not panic when the result is representable, and builds without overflow checks;
both are false (`fixed_reduced_refuted`). -/
theorem fixed_reduced_partial (x : Fx) (hx : x.checks = true) (hw : 9 ≤ x.w) (cfg : Cfg) (s : Surd) (h : s.Ok cfg)
    (hr : s.r ≠ 0) :
    ∃ t N, (∀ fuel, N ≤ fuel →
        x.reduced fuel s = some (.error .overflow) ∨ x.reduced fuel s = some (.ok t)) ∧
      t.Ok cfg ∧ t.valC = s.valC ∧ t.r ≠ 0 ∧
      ∀ p : ℕ, p.Prime → p ≤ 251 → x.Holds (p * p) → ¬ (p * p : ℤ) ∣ t.r := by
  obtain ⟨t, N, h1, h2, h3, h4, h5⟩ := surd_reduced_partial cfg x.fits (fun p h0 h1 => Fx.holds_251 hw h0 h1) s h hr
  refine ⟨t, N, fun fuel hf => ?_, h2, h3, h4, fun p a1 a2 a3 => h5 p a1 a2 (Fx.holds_fits a3)⟩
  rcases Fx.reduced_ref hx fuel s with g | g
  · exact Or.inr (g.trans (h1 fuel hf))
  · exact Or.inl g

/-- `i16`: (1+√72)/2 = (1+6√2)/2 -/
example : (Surd.mk 1 1 2 72).Ok ⟨false, true⟩ ∧ (⟨16, true⟩ : Fx).reduced 100 ⟨1, 1, 2, 72⟩ = some (.ok ⟨1, 6, 2, 2⟩) ∧
    (⟨16, true⟩ : Fx).reduced 100 ⟨1, 32767, 2, 72⟩ = some (.error .overflow) := by decide +kernel

/-- **C80** in both kinds of build what `reduced()` returns is representable. -/
theorem fixed_reduced_fits (x : Fx) (hw : 2 ≤ x.w) (s : Surd) (hs : x.HoldsS s) (fuel : ℕ) (t : Surd)
    (h : x.reduced fuel s = some (.ok t)) : x.HoldsS t :=
  Fx.reduced_holds hw fuel hs t h

/-- `i16` without checks: a root at the lower end of the range -/
example : (⟨16, false⟩ : Fx).HoldsS ⟨1, 1, 2, -32768⟩ ∧
    (⟨16, false⟩ : Fx).reduced 100 ⟨1, 1, 2, -32768⟩ = some (.ok ⟨1, 128, 2, -2⟩) := by
  refine ⟨by unfold Fx.HoldsS Fx.Holds; decide, by decide +kernel⟩

/-- **C80** partial: without overflow checks `reduced()` agrees with arbitrary precision (over the same table of primes)
wherever the same call with overflow checks does not panic with an overflow.
Missing from the full claim: calls in which some intermediate result overflows (`fixed_reduced_refuted`). -/
theorem fixed_reduced_release_partial (w : ℕ) (fuel : ℕ) (s : Surd)
    (h : (⟨w, true⟩ : Fx).reduced fuel s ≠ some (.error .overflow)) :
    (⟨w, false⟩ : Fx).reduced fuel s = Surd.reduced fuel (⟨w, false⟩ : Fx).fits s :=
  ((Fx.reduced_rel (x := ⟨w, true⟩) rfl fuel s).resolve_right h).symm.trans
    ((Fx.reduced_ref (x := ⟨w, true⟩) rfl fuel s).resolve_right h)

example : (⟨16, true⟩ : Fx).reduced 100 ⟨1, 1, 2, 72⟩ ≠ some (.error .overflow) ∧
    (⟨16, false⟩ : Fx).reduced 100 ⟨1, 1, 2, 72⟩ = some (.ok ⟨1, 6, 2, 2⟩) := by decide +kernel

/-- **C80** range: over a type that holds 251, if the fields of an irrational surd are at most `B` and `B²` fits, then in both
kinds of build `reduced()` returns a surd of the same value in normal form, whose root is not divisible by the square of any
prime `≤ 251` (whose square fits the type). -/
theorem fixed_reduced_exact (x : Fx) (hw : 9 ≤ x.w) (cfg : Cfg) (s : Surd) (B : ℤ) (h : s.Ok cfg) (hr : s.r ≠ 0)
    (hB : 1 ≤ B) (hs : s.Small B) (hBw : B ^ 2 < 2 ^ (x.w - 1)) :
    ∃ t N, (∀ fuel, N ≤ fuel → x.reduced fuel s = some (.ok t)) ∧ t.Ok cfg ∧ t.valC = s.valC ∧ t.r ≠ 0 ∧
      ∀ p : ℕ, p.Prime → p ≤ 251 → x.Holds (p * p) → ¬ (p * p : ℤ) ∣ t.r := by
  obtain ⟨t, N, h1, h2, h3, h4, h5⟩ := surd_reduced_partial cfg x.fits (fun p h0 h1 => Fx.holds_251 hw h0 h1) s h hr
  refine ⟨t, N, fun fuel hf => ?_, h2, h3, h4, fun p a1 a2 a3 => h5 p a1 a2 (Fx.holds_fits a3)⟩
  have hsafe := Fx.reduced_safe (x := ⟨x.w, true⟩) (L := B ^ 2) hBw hB le_rfl fuel hs (h.irrational hr)
  have hck : (⟨x.w, true⟩ : Fx).reduced fuel s = some (.ok t) :=
    ((Fx.reduced_ref (x := ⟨x.w, true⟩) rfl fuel s).resolve_right hsafe).trans (h1 fuel hf)
  have hrl := (Fx.reduced_rel (x := ⟨x.w, true⟩) rfl fuel s).resolve_right hsafe
  obtain ⟨w, c⟩ := x
  cases c
  · exact hrl.symm.trans hck
  · exact hck

/-- `i16` without checks: fields up to 180 -/
example : (Surd.mk 1 171 179 180).Ok ⟨false, true⟩ ∧ (Surd.mk 1 171 179 180).Small 180 ∧
    (180 ^ 2 : ℤ) < 2 ^ ((⟨16, false⟩ : Fx).w - 1) ∧
    (⟨16, false⟩ : Fx).reduced 100 ⟨1, 171, 179, 180⟩ = some (.ok ⟨1, 1026, 179, 5⟩) := by
  refine ⟨by decide +kernel, by unfold Surd.Small; decide, by decide, by decide +kernel⟩

/-- **C80** is false of `reduced()` over the types of 16 bits and more: on a surd that `new` returns, whose reduced form is
representable, it panics with an overflow in a build with overflow checks, and returns a surd of another value in a build
without. -/
theorem fixed_reduced_refuted (cfg : Cfg) (w : ℕ) (hw : w = 16 ∨ w = 32 ∨ w = 64 ∨ w = 128) :
    ∃ s t u : Surd, s.Ok cfg ∧ (⟨w, true⟩ : Fx).HoldsS s ∧
      (⟨w, true⟩ : Fx).surdNew cfg s.a s.b s.c s.r = .ok s ∧
      Surd.reduced 10 (⟨w, true⟩ : Fx).fits s = some (.ok t) ∧ (⟨w, true⟩ : Fx).HoldsS t ∧ t.valC = s.valC ∧
      (⟨w, true⟩ : Fx).reduced 10 s = some (.error .overflow) ∧
      (⟨w, false⟩ : Fx).reduced 10 s = some (.ok u) ∧ u.valC ≠ s.valC := by
  have hval : ∀ b : ℤ, (⟨3, b, 3, 3⟩ : Surd).valC = (⟨6, b, 6, 12⟩ : Surd).valC := by
    intro b
    have h12 : Real.sqrt 12 = 2 * Real.sqrt 3 := by
      rw [show (12 : ℝ) = 2 ^ 2 * 3 by norm_num, Real.sqrt_mul (by norm_num), Real.sqrt_sq (by norm_num)]
    simp only [Surd.valC, quadC, rootC]
    norm_num
    rw [h12]; push_cast; ring
  have hne : ∀ b : ℤ, b ≠ -1 → (⟨3, -1, 3, 3⟩ : Surd).valC ≠ (⟨6, b, 6, 12⟩ : Surd).valC := by
    intro b hb e
    rw [← hval b] at e
    have h1 : ∀ b : ℤ, (⟨3, b, 3, 3⟩ : Surd).valC = (((3 + b * Real.sqrt 3) / 3 : ℝ) : ℂ) := by
      intro b; simp [Surd.valC, quadC, rootC]
    rw [h1, h1] at e
    have e2 : ((3 + ((-1 : ℤ) : ℝ) * Real.sqrt 3) / 3 : ℝ) = (3 + b * Real.sqrt 3) / 3 := by exact_mod_cast e
    have h3 : Real.sqrt 3 ≠ 0 := by positivity
    have e3 : (b : ℝ) = -1 := by
      push_cast at e2
      have : (b + 1 : ℝ) * Real.sqrt 3 = 0 := by linarith
      rcases mul_eq_zero.1 this with g | g
      · linarith
      · exact absurd g h3
    exact hb (by exact_mod_cast e3)
  rcases hw with rfl | rfl | rfl | rfl
  · refine ⟨⟨6, 32767, 6, 12⟩, ⟨3, 32767, 3, 3⟩, ⟨3, -1, 3, 3⟩, ?_, by unfold Fx.HoldsS Fx.Holds; decide, ?_,
      by decide +kernel, by unfold Fx.HoldsS Fx.Holds; decide, hval _, by decide +kernel, by decide +kernel, hne _ (by norm_num)⟩
    · obtain ⟨c, d⟩ := cfg; cases c <;> cases d <;> decide +kernel
    · obtain ⟨c, d⟩ := cfg; cases c <;> cases d <;> decide +kernel
  · refine ⟨⟨6, 2147483647, 6, 12⟩, ⟨3, 2147483647, 3, 3⟩, ⟨3, -1, 3, 3⟩, ?_, by unfold Fx.HoldsS Fx.Holds; decide, ?_,
      by decide +kernel, by unfold Fx.HoldsS Fx.Holds; decide, hval _, by decide +kernel, by decide +kernel, hne _ (by norm_num)⟩
    · obtain ⟨c, d⟩ := cfg; cases c <;> cases d <;> decide +kernel
    · obtain ⟨c, d⟩ := cfg; cases c <;> cases d <;> decide +kernel
  · refine ⟨⟨6, 9223372036854775807, 6, 12⟩, ⟨3, 9223372036854775807, 3, 3⟩, ⟨3, -1, 3, 3⟩, ?_, by unfold Fx.HoldsS Fx.Holds; decide, ?_,
      by decide +kernel, by unfold Fx.HoldsS Fx.Holds; decide, hval _, by decide +kernel, by decide +kernel, hne _ (by norm_num)⟩
    · obtain ⟨c, d⟩ := cfg; cases c <;> cases d <;> decide +kernel
    · obtain ⟨c, d⟩ := cfg; cases c <;> cases d <;> decide +kernel
  · refine ⟨⟨6, 170141183460469231731687303715884105727, 6, 12⟩, ⟨3, 170141183460469231731687303715884105727, 3, 3⟩, ⟨3, -1, 3, 3⟩, ?_, by unfold Fx.HoldsS Fx.Holds; decide, ?_,
      by decide +kernel, by unfold Fx.HoldsS Fx.Holds; decide, hval _, by decide +kernel, by decide +kernel, hne _ (by norm_num)⟩
    · obtain ⟨c, d⟩ := cfg; cases c <;> cases d <;> decide +kernel
    · obtain ⟨c, d⟩ := cfg; cases c <;> cases d <;> decide +kernel

/-- `i16`: (6+32767√12)/6 = (3+32767√3)/3 comes out as (3−√3)/3 -/
example : (⟨16, false⟩ : Fx).reduced 10 ⟨6, 32767, 6, 12⟩ = some (.ok ⟨3, -1, 3, 3⟩) ∧
    Surd.reduced 10 (⟨16, true⟩ : Fx).fits ⟨6, 32767, 6, 12⟩ = some (.ok ⟨3, 32767, 3, 3⟩) := by decide +kernel

/-- **C80** in both kinds of build `reduced()` never returns on a rational surd (for any type that holds 4): no number of loop
iterations is enough. -/
theorem fixed_reduced_hangs (x : Fx) (hw : 4 ≤ x.w) (cfg : Cfg) (s : Surd) (h : s.Ok cfg) (hr : s.r = 0) (fuel : ℕ) :
    x.reduced fuel s = none := by
  have hL : (2 : ℤ) ^ 3 ≤ 2 ^ (x.w - 1) := pow_le_pow_right₀ (by norm_num) (by omega)
  have hf : ∀ n : ℤ, 0 ≤ n → n ≤ 4 → x.fits n = true := fun n h0 h1 => Fx.holds_fits ⟨by linarith, by linarith⟩
  have hloop : ∀ fuel, x.stripLoop fuel 2 0 0 = none := by
    intro fuel
    induction fuel with
    | zero => rfl
    | succ fuel ih =>
      unfold Fx.stripLoop
      have hm : x.mul 0 2 = .ok 0 := by
        unfold Fx.mul Fx.ret
        rw [zero_mul, if_pos (hf 0 le_rfl (by norm_num))]
      rw [if_pos (by decide), hm]
      exact ih
  unfold Fx.reduced smallPrimes
  rw [hr, h.rational.mpr hr, Fx.stripAll, if_pos (hf 2 (by norm_num) (by norm_num)),
    if_pos (hf (2 * 2) (by norm_num) (by norm_num)), hloop fuel]

example : (Surd.mk 1 0 2 0).Ok ⟨false, true⟩ ∧ (⟨16, false⟩ : Fx).reduced 50 ⟨1, 0, 2, 0⟩ = none := by decide +kernel

/-- **C80** over `i8` in both kinds of build `reduced()` never returns a surd: the table holds primes that do not fit. -/
theorem fixed_reduced_i8 (x : Fx) (hw : x.w = 8) (s t : Surd) (fuel : ℕ) : x.reduced fuel s ≠ some (.ok t) := by
  have key : ∀ (ps : List ℤ), (∃ p ∈ ps, x.fits p = false) → ∀ b r v, x.stripAll fuel ps b r ≠ some (.ok v) := by
    intro ps
    induction ps with
    | nil => rintro ⟨p, hp, -⟩; cases hp
    | cons p ps ih =>
      rintro ⟨q, hq, hqf⟩ b r v
      unfold Fx.stripAll
      by_cases hp : x.fits p = true
      · have hex : ∃ p ∈ ps, x.fits p = false := by
          rcases List.mem_cons.1 hq with e | e
          · subst e; rw [hp] at hqf; cases hqf
          · exact ⟨q, e, hqf⟩
        rw [if_pos hp]
        split
        · cases hl : x.stripLoop fuel p b r with
          | none => simp
          | some o =>
            cases o with
            | error e => simp
            | ok br => exact ih hex _ _ v
        · exact ih hex _ _ v
      · rw [if_neg hp]; simp
  have hbad : ∃ p ∈ smallPrimes, x.fits p = false := by
    refine ⟨251, by decide, ?_⟩
    unfold Fx.fits; rw [hw]; decide
  unfold Fx.reduced
  cases hl : x.stripAll fuel smallPrimes s.b s.r with
  | none => simp
  | some o =>
    cases o with
    | error e => simp
    | ok br => exact absurd hl (key _ hbad _ _ br)

example : (⟨8, false⟩ : Fx).reduced 50 ⟨0, 1, 1, 2⟩ = some (.error .unwrapNone) ∧
    (⟨8, true⟩ : Fx).reduced 50 ⟨0, 1, 1, 8⟩ = some (.error .unwrapNone) := by decide +kernel

end NumIrr
