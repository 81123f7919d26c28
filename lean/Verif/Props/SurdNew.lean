/-
C01, C02: the surd constructors.
-/
import Verif.Lemmas.SurdDecide

namespace NumIrr
open Surd

/-- **C01** `QuadraticSurd::new(a,b,c,r)` denotes exactly `(a+b√r)/c` whenever it returns. -/
theorem surd_new_value (cfg : Cfg) (a b c r : ℤ) (s : Surd) (h : Surd.new cfg a b c r = .ok s) :
    s.valC = quadC a b c r := (new_ok h).1

/-- **C01** the same over the reals. -/
theorem surd_new_value_real (cfg : Cfg) (a b c r : ℤ) (s : Surd) (hr : 0 ≤ r)
    (h : Surd.new cfg a b c r = .ok s) : 0 ≤ s.r ∧ s.val = quadR a b c r := by
  have h1 := (new_ok h).1
  have h2 := new_ok_nonneg h hr
  refine ⟨h2, ?_⟩
  rw [valC_eq_val h2] at h1
  have : quadC a b c r = ((quadR a b c r : ℝ) : ℂ) := by
    unfold quadC quadR; rw [rootC_of_nonneg hr]; push_cast; rfl
  rw [this] at h1
  exact_mod_cast h1
example : Surd.new ⟨false, true⟩ 4 6 (-8) 12 = .ok ⟨-1, -3, 2, 3⟩ ∧ (0 : ℤ) ≤ 12 := by decide +kernel

/-- **C01** `from_coeffs` denotes what was asked for. -/
theorem surd_fromCoeffs_value (cfg : Cfg) (x : Coeffs) (r : ℤ) (s : Surd)
    (h : Surd.fromCoeffs cfg x r = .ok s) : s.valC = quadC x.a x.b x.c r := (new_ok h).1

/-- **C01** `From<T>` and `From<Ratio<T>>`. -/
theorem surd_ofInt_value (t : ℤ) : (Surd.ofInt t).valC = t := by
  simp [Surd.valC, quadC, Surd.ofInt]

theorem surd_ofRat_value (t : ℚ) : (Surd.ofRat t).valC = t := by
  rw [rat_cast_eq]
  simp [Surd.valC, quadC, Surd.ofRat]
example : Surd.ofRat (-22 / 7) = ⟨-22, 0, 7, 0⟩ ∧ Surd.ofInt (-3) = ⟨-3, 0, 1, 0⟩ := by decide +kernel

/-- **C02** the constructor returns a surd exactly when `c ≠ 0` and (`r ≥ 0` or `complex`). -/
theorem surd_new_returns_iff (cfg : Cfg) (a b c r : ℤ) :
    (∃ s, Surd.new cfg a b c r = .ok s) ↔ c ≠ 0 ∧ (cfg.complex = true ∨ 0 ≤ r) := by
  constructor
  · rintro ⟨s, h⟩
    obtain ⟨h1, h2⟩ := new_inv h
    refine ⟨h1, ?_⟩
    cases hc : cfg.complex
    · exact .inr (h2 hc)
    · exact .inl rfl
  · rintro ⟨h1, h2⟩
    obtain ⟨t, ht, _⟩ := new_spec (cfg := cfg) (a := a) (b := b) h1
      (fun hf => h2.resolve_left (by simp [hf]))
    exact ⟨t, ht⟩
example : Surd.new ⟨true, true⟩ 1 1 2 (-5) = .ok ⟨1, 1, 2, -5⟩ ∧
    Surd.new ⟨false, true⟩ 1 1 2 (-5) = .error .negRoot := by decide +kernel

/-- **C02** and the panics are the documented ones. -/
theorem surd_new_panics (cfg : Cfg) (a b c r : ℤ) (p : Panic)
    (h : Surd.new cfg a b c r = .error p) :
    (p = .negRoot ∧ cfg.complex = false ∧ r < 0) ∨ (p = .denomZero ∧ c = 0) := by
  unfold Surd.new at h
  split at h
  · next hh => cases h; exact .inl ⟨rfl, hh⟩
  · by_cases hc : c = 0
    · rw [reduce_zero hc] at h; cases h; exact .inr ⟨rfl, hc⟩
    · obtain ⟨t, ht, _⟩ := reduce_spec (s := ⟨a, b, c, r⟩) hc
      rw [ht] at h; cases h
example : Surd.new ⟨false, true⟩ 1 1 0 5 = .error .denomZero ∧
    Surd.new ⟨false, true⟩ 1 1 2 (-5) = .error .negRoot := by decide +kernel

/-- **C02** the result is in normal form. -/
theorem surd_new_normal (cfg : Cfg) (a b c r : ℤ) (s : Surd) (h : Surd.new cfg a b c r = .ok s) :
    s.Ok cfg := (new_ok h).2
example : Surd.new ⟨false, true⟩ (-6) 9 (-12) 8 = .ok ⟨1, -3, 2, 2⟩ := by decide +kernel

theorem surd_fromCoeffs_normal (cfg : Cfg) (x : Coeffs) (r : ℤ) (s : Surd)
    (h : Surd.fromCoeffs cfg x r = .ok s) : s.Ok cfg := (new_ok h).2
example : Surd.fromCoeffs ⟨true, true⟩ ⟨3, 5, -10⟩ (-4) = .ok ⟨-3, -5, 10, -4⟩ := by decide +kernel

theorem surd_ofInt_normal (cfg : Cfg) (t : ℤ) : (Surd.ofInt t).Ok cfg :=
  ⟨⟨by simp [ofInt], fun d _ _ h => isUnit_of_dvd_one h, by simp [ofInt], by simp [ofInt]⟩,
    by simp [ofInt]⟩

theorem surd_ofRat_normal (cfg : Cfg) (t : ℚ) : (Surd.ofRat t).Ok cfg := by
  refine ⟨⟨?_, ?_, by simp [ofRat], by simp [ofRat]⟩, by simp [ofRat]⟩
  · have := t.den_pos; simp only [ofRat]; exact_mod_cast this
  · intro d h1 _ h3
    simp only [ofRat] at h1 h3
    have := Int.dvd_coe_gcd h1 h3
    rw [Int.gcd, Int.natAbs_natCast, t.reduced] at this
    exact isUnit_of_dvd_one (by exact_mod_cast this)

/-- A normal-form fact worth knowing: rebuilding a surd from its own `parts()` can change the parts
(`new` is not idempotent), although it keeps the number by `surd_new_value`. -/
theorem surd_new_not_idempotent :
    Surd.new ⟨false, true⟩ 6 3 6 12 = .ok ⟨2, 1, 2, 12⟩ ∧
    Surd.new ⟨false, true⟩ 2 1 2 12 = .ok ⟨1, 1, 1, 3⟩ := by decide +kernel

/-- concrete case: a square factor of the root and a negative denominator are both normalised -/
example : Surd.new ⟨false, true⟩ 4 6 (-8) 12 = .ok ⟨-1, -3, 2, 3⟩ := by decide +kernel
/-- concrete case with a negative root -/
example : Surd.new ⟨true, true⟩ 2 4 6 (-12) = .ok ⟨1, 4, 3, -3⟩ := by decide +kernel
example : Surd.new ⟨false, true⟩ 1 1 0 5 = .error .denomZero := by decide +kernel
example : Surd.new ⟨false, true⟩ 1 1 2 (-5) = .error .negRoot := by decide +kernel
example : Surd.fromCoeffs ⟨false, true⟩ ⟨3, 5, 10⟩ 49 = .ok ⟨19, 0, 5, 0⟩ := by decide +kernel

end NumIrr
