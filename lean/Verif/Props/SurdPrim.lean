/-
C110: conversions between surds and the other primitive types.
-/
import Verif.Model.SurdPrim
import Verif.Props.SurdRound
import Verif.Props.Float32
import Verif.Props.SurdClass

namespace NumIrr

/-- the numbers of a primitive integer type -/
def InPrim (sg : Bool) (w : ℕ) (n : ℤ) : Prop :=
  if sg then -2 ^ (w - 1) ≤ n ∧ n < 2 ^ (w - 1) else 0 ≤ n ∧ n < 2 ^ w

theorem primFits_iff (sg : Bool) (w : ℕ) (n : ℤ) : primFits sg w n = true ↔ InPrim sg w n := by
  cases sg <;> simp [primFits, InPrim, IntTy.signed, IntTy.unsigned]

theorem InPrim.mono {sg : Bool} {v w : ℕ} (h : v ≤ w) {n : ℤ} (hn : InPrim sg v n) : InPrim sg w n := by
  cases sg
  · simp only [InPrim] at hn ⊢
    have : (2:ℤ) ^ v ≤ 2 ^ w := pow_le_pow_right₀ (by norm_num) h
    exact ⟨hn.1, by simp at hn ⊢; omega⟩
  · simp only [InPrim] at hn ⊢
    have : (2:ℤ) ^ (v - 1) ≤ 2 ^ (w - 1) := pow_le_pow_right₀ (by norm_num) (by omega)
    simp at hn ⊢; omega

/-- **C110** what every integer conversion returns: never a panic, and `Some(v)` exactly if the surd is the integer `v`, and `v`
fits both the target and the 64-bit type the conversion goes through. -/
theorem surd_toPrimW (cfg : Cfg) (sg : Bool) (w : ℕ) (s : Surd) (h : s.Ok cfg) :
    ∃ o, Surd.toPrimW cfg sg w s = .ok o ∧
      ∀ v : ℤ, o = some v ↔ s.valC = v ∧ InPrim sg w v ∧ InPrim sg 64 v := by
  obtain ⟨o, ho, hv⟩ := surd_toPrim cfg (primFits sg 64) s h
  unfold Surd.toPrimW
  rw [ho]
  cases o with
  | none =>
    refine ⟨none, rfl, fun v => ⟨fun e => (nomatch e), ?_⟩⟩
    rintro ⟨h1, -, h3⟩
    have := (hv v).mpr ⟨h1, (primFits_iff ..).mpr h3⟩
    cases this
  | some u =>
    refine ⟨_, rfl, fun v => ?_⟩
    obtain ⟨h1, h2⟩ := (hv u).mp rfl
    rw [primFits_iff] at h2
    by_cases hw : primFits sg w u = true
    · rw [if_pos hw]
      rw [primFits_iff] at hw
      constructor
      · intro e; cases e; exact ⟨h1, hw, h2⟩
      · rintro ⟨e, -, -⟩
        rw [h1] at e
        congr 1; exact_mod_cast e
    · rw [if_neg hw]
      refine ⟨fun e => (nomatch e), ?_⟩
      rintro ⟨e, h3, -⟩
      rw [h1] at e
      have e' : u = v := by exact_mod_cast e
      rw [primFits_iff] at hw
      exact absurd (e' ▸ h3) hw

example : Surd.toPrimW ⟨false, true⟩ true 8 (Surd.ofInt (-128)) = .ok (some (-128)) ∧
    Surd.toPrimW ⟨false, true⟩ true 8 (Surd.ofInt 128) = .ok none ∧
    Surd.toPrimW ⟨false, true⟩ false 8 (Surd.ofInt 128) = .ok (some 128) ∧
    Surd.toPrimW ⟨false, true⟩ true 32 ⟨1, 1, 1, 5⟩ = .ok none := by decide +kernel

/-- **C110** partial: up to 64 bits the conversions are exact: `Some(v)` iff the surd is the integer `v` and `v` fits the target.
Missing from the full claim: 128 bits. -/
theorem surd_toPrimW_partial (cfg : Cfg) (sg : Bool) (w : ℕ) (hw : w ≤ 64) (s : Surd) (h : s.Ok cfg) :
    ∃ o, Surd.toPrimW cfg sg w s = .ok o ∧ ∀ v : ℤ, o = some v ↔ s.valC = v ∧ InPrim sg w v := by
  obtain ⟨o, ho, hv⟩ := surd_toPrimW cfg sg w s h
  exact ⟨o, ho, fun v => (hv v).trans ⟨fun h => ⟨h.1, h.2.1⟩, fun h => ⟨h.1, h.2, h.2.mono hw⟩⟩⟩

example : (16 : ℕ) ≤ 64 ∧ (Surd.ofInt 300).Ok ⟨false, true⟩ := by decide +kernel

/-- C110 is false for 128 bits: `to_i128` of `2^63` and `to_u128` of `2^64` are `None`, and `from_i128(2^63)`, `from_u128(2^64)`
are `None` even for `BigInt`. -/
theorem surd_prim128_refuted (cfg : Cfg) :
    (InPrim true 128 (2 ^ 63) ∧ (Surd.ofInt (2 ^ 63)).valC = (2 ^ 63 : ℤ) ∧
      Surd.toPrimW cfg true 128 (Surd.ofInt (2 ^ 63)) = .ok none) ∧
    (InPrim false 128 (2 ^ 64) ∧ (Surd.ofInt (2 ^ 64)).valC = (2 ^ 64 : ℤ) ∧
      Surd.toPrimW cfg false 128 (Surd.ofInt (2 ^ 64)) = .ok none) ∧
    Surd.fromPrimW (fun _ => true) true (2 ^ 63) = none ∧ Surd.fromPrimW (fun _ => true) false (2 ^ 64) = none := by
  have hv : ∀ n : ℤ, (Surd.ofInt n).valC = n := fun n => by simp [Surd.ofInt, Surd.valC, quadC]
  refine ⟨⟨by simp [InPrim], hv _, ?_⟩, ⟨by simp [InPrim], hv _, ?_⟩, by decide +kernel, by decide +kernel⟩ <;>
  · obtain ⟨c, d⟩ := cfg; cases c <;> cases d <;> decide +kernel

/-- **C110** `from_*`: `Some(s)` exactly if the number fits the 64-bit type and `T`, and then `s` is that number in normal form;
converting back gives it again, for every type that holds it. -/
theorem surd_fromPrimW (cfg : Cfg) (fitsT : ℤ → Bool) (sg : Bool) (n : ℤ) :
    ((∃ s, Surd.fromPrimW fitsT sg n = some s) ↔ InPrim sg 64 n ∧ fitsT n = true) ∧
    ∀ s, Surd.fromPrimW fitsT sg n = some s → s.Ok cfg ∧ s.valC = n ∧
      ∀ w, InPrim sg w n → Surd.toPrimW cfg sg w s = .ok (some n) := by
  have hof : ∀ s, Surd.fromPrimW fitsT sg n = some s → InPrim sg 64 n ∧ fitsT n = true ∧ s = Surd.ofInt n := by
    intro s e
    unfold Surd.fromPrimW at e
    split at e
    · next h1 =>
      unfold Surd.fromPrim at e
      split at e
      · next h2 => cases e; exact ⟨(primFits_iff ..).mp h1, h2, rfl⟩
      · cases e
    · cases e
  refine ⟨⟨fun ⟨s, e⟩ => ⟨(hof s e).1, (hof s e).2.1⟩, fun ⟨h1, h2⟩ => ?_⟩, fun s e => ?_⟩
  · refine ⟨Surd.ofInt n, ?_⟩
    unfold Surd.fromPrimW Surd.fromPrim
    rw [if_pos ((primFits_iff ..).mpr h1), if_pos h2]
  · obtain ⟨h1, h2, -⟩ := hof s e
    obtain ⟨s', e', hval, hok, -⟩ := surd_prim_roundtrip cfg fitsT (fun _ => true) n h2 rfl
    have : s' = s := by
      unfold Surd.fromPrimW at e
      rw [if_pos ((primFits_iff ..).mpr h1), e'] at e
      exact Option.some.inj e
    subst this
    refine ⟨hok, hval, fun w hw => ?_⟩
    obtain ⟨o, ho, hv⟩ := surd_toPrimW cfg sg w s' hok
    rw [ho, (hv n).mpr ⟨hval, hw, h1⟩]

example : Surd.fromPrimW (IntTy.signed 8).fits true (-128) = some (Surd.ofInt (-128)) ∧
    Surd.fromPrimW (IntTy.signed 8).fits false 200 = none := by decide +kernel

/-- **C110** `to_f32` is the real part of `to_complex32`, and `None` exactly for non-real surds. -/
theorem surd_toF32 (cfg : Cfg) (s : Surd) (h : s.Ok cfg) :
    (s.toF32 = none ↔ s.valC.im ≠ 0) ∧ ∀ x, s.toF32 = some x → ∃ y, s.toComplex32 = some (x, y) := by
  rw [← surd_isComplex cfg s h]
  unfold Surd.toF32 Surd.toComplex32 Surd.toComplex64 Surd.toF64 Surd.isComplex
  by_cases hr : s.r < 0
  · simp [hr]
  · simp [hr]

example : (Surd.mk 1 1 2 5).Ok ⟨true, true⟩ ∧ (Surd.mk 1 1 2 (-5)).Ok ⟨true, true⟩ := by decide +kernel

/-- **C110** partial: for real surds with fields up to `2^128`, `to_f32` is the nearest `f32` up to the error of `to_f64`
(C81).  Missing from the full claim: that error. -/
theorem surd_toF32_partial (s : Surd) (hs : s.Small (2 ^ 128)) (hc : 0 < s.c) (hr : 0 ≤ s.r) :
    ∃ x, s.toF32 = some x ∧
      Near32 ((|(s.a : ℝ)| + |(s.b : ℝ)| * Real.sqrt s.r) / s.c / 2 ^ 50) x s.val := by
  obtain ⟨x, e, hx⟩ := surd_toComplex32_real_partial s hs hc hr
  refine ⟨x, ?_, hx⟩
  unfold Surd.toComplex32 at e
  unfold Surd.toF32
  rw [surd_toComplex64_real s hr] at e
  cases h : s.toF64 with
  | none => rw [h] at e; cases e
  | some v =>
    rw [h] at e
    have := congrArg (Option.map Prod.fst) e
    simpa using this

example : (Surd.mk 1 (-2) 3 5).Small (2 ^ 128) := by unfold Surd.Small; decide

/-- C110 is false for `to_f32`: not always the nearest `f32` (an `i64` integer is rounded twice). -/
theorem surd_toF32_nearest_refuted (cfg : Cfg) : ∃ s : Surd, ∃ w v : ℝ, s.Ok cfg ∧ (⟨64, true⟩ : Fx).HoldsS s ∧
    s.toF32 = some (.fin w) ∧ IsF32 v ∧ |v - s.val| < |w - s.val| := by
  obtain ⟨s, w, v, hok, hr, hh, e, hv, hlt⟩ := surd_toComplex32_nearest_refuted cfg
  refine ⟨s, w, v, hok, hh, ?_, hv, hlt⟩
  unfold Surd.toComplex32 Surd.toComplex64 at e
  unfold Surd.toF32
  rw [if_neg (not_lt.mpr hr)] at e
  have := congrArg (Option.map Prod.fst) e
  simpa [Option.map_map, Function.comp_def] using this

end NumIrr
