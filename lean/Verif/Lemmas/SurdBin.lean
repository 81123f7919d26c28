/- Helper lemmas: case analysis of the four binary operations on normal surds. -/
import Verif.Lemmas.SurdArith

namespace NumIrr
namespace Surd

variable {cfg : Cfg} {x y z : Surd}

theorem fromCoeffs_spec {x : Coeffs} {r : ℤ} (hc : x.c ≠ 0) (hr : cfg.complex = false → 0 ≤ r) :
    ∃ t, fromCoeffs cfg x r = .ok t ∧ t.valC = quadC x.a x.b x.c r ∧ t.Ok cfg := by
  obtain ⟨t, h1, h2, h3, _⟩ := new_spec (cfg := cfg) (a := x.a) (b := x.b) hc hr
  exact ⟨t, h1, h2, h3⟩

theorem addRat_spec (hx : x.Ok cfg) (q : ℚ) :
    ∃ t, addRat cfg x q = .ok t ∧ t.valC = x.valC + q ∧ t.Ok cfg := by
  obtain ⟨h1, h2⟩ := addRat_quad hx.ne_zero q
  obtain ⟨t, e, h3, h4⟩ := fromCoeffs_spec (cfg := cfg) (r := x.r) h1 hx.real
  exact ⟨t, e, by rw [h3, h2], h4⟩

theorem subRat_spec (hx : x.Ok cfg) (q : ℚ) :
    ∃ t, subRat cfg x q = .ok t ∧ t.valC = x.valC - q ∧ t.Ok cfg := by
  obtain ⟨h1, h2⟩ := subRat_quad hx.ne_zero q
  obtain ⟨t, e, h3, h4⟩ := fromCoeffs_spec (cfg := cfg) (r := x.r) h1 hx.real
  exact ⟨t, e, by rw [h3, h2], h4⟩

theorem mulRat_spec (hx : x.Ok cfg) (q : ℚ) :
    ∃ t, mulRat cfg x q = .ok t ∧ t.valC = x.valC * q ∧ t.Ok cfg := by
  obtain ⟨h1, h2⟩ := mulRat_quad hx.ne_zero q
  obtain ⟨t, e, h3, h4⟩ := fromCoeffs_spec (cfg := cfg) (r := x.r) h1 hx.real
  exact ⟨t, e, by rw [h3, h2], h4⟩

theorem divRat_spec (hx : x.Ok cfg) {q : ℚ} (hq : q ≠ 0) :
    ∃ t, divRat cfg x q = .ok t ∧ t.valC = x.valC / q ∧ t.Ok cfg := by
  obtain ⟨h1, h2⟩ := divRat_quad hx.ne_zero hq
  obtain ⟨t, e, h3, h4⟩ := fromCoeffs_spec (cfg := cfg) (r := x.r) h1 hx.real
  exact ⟨t, e, by rw [h3, h2], h4⟩

theorem fromCoeffs_zero {x : Coeffs} {r : ℤ} (hc : x.c = 0) (hr : cfg.complex = false → 0 ≤ r) :
    fromCoeffs cfg x r = .error .denomZero := by
  unfold fromCoeffs
  rw [if_neg (fun h => not_lt.mpr (hr h.1) h.2), reduce_zero hc]

theorem divRat_zero (hx : x.Ok cfg) : divRat cfg x 0 = .error .denomZero := by
  unfold divRat
  exact fromCoeffs_zero (by simp [Coeffs.divRat]) hx.real

theorem neg_valC (x : Surd) : (neg x).valC = -x.valC := by
  unfold neg valC quadC; push_cast; ring

theorem neg_ok (hx : x.Ok cfg) : (neg x).Ok cfg := by
  refine ⟨⟨hx.c_pos, ?_, ?_, hx.irrational⟩, hx.real⟩
  · intro d h1 h2 h3
    exact hx.coprime d (by simpa [neg] using h1) (by simpa [neg] using h2) h3
  · simpa [neg] using hx.rational

theorem valC_of_r_zero (hx : x.Normal) (h : x.r = 0) :
    x.valC = ((Rat.divInt x.a x.c : ℚ) : ℂ) := by
  rw [divInt_cast, valC_of_rational (hx.isRational_iff.mpr h)]

theorem add_spec (hx : x.Ok cfg) (hy : y.Ok cfg) :
    ((x.r = 0 ∨ y.r = 0 ∨ x.Compatible y) →
      ∃ z, add cfg x y = .ok z ∧ z.valC = x.valC + y.valC ∧ z.Ok cfg) ∧
    (¬ (x.r = 0 ∨ y.r = 0 ∨ x.Compatible y) → add cfg x y = .error .incompatible) := by
  unfold add
  by_cases hy0 : y.r = 0
  · rw [if_pos (hy.isRational_iff.mpr hy0), ratioNew_ok hy.ne_zero, ok_bind,
      valC_of_r_zero hy.toNormal hy0]
    exact ⟨fun _ => addRat_spec hx _, fun h => absurd (.inr (.inl hy0)) h⟩
  rw [if_neg (fun h => hy0 (hy.isRational_iff.mp h))]
  by_cases hx0 : x.r = 0
  · rw [if_pos (hx.isRational_iff.mpr hx0), ratioNew_ok hx.ne_zero, ok_bind,
      valC_of_r_zero hx.toNormal hx0, add_comm]
    exact ⟨fun _ => addRat_spec hy _, fun h => absurd (.inl hx0) h⟩
  rw [if_neg (fun h => hx0 (hx.isRational_iff.mp h))]
  obtain ⟨m1, m2⟩ := reduceBinOpUnwrap_spec (cfg := cfg) hx.c_pos hy.c_pos hx0 hy0 hx.real hy.real
  constructor
  · intro h
    have hc : x.Compatible y := (h.resolve_left hx0).resolve_left hy0
    obtain ⟨p, e, hp⟩ := m1 hc
    rw [e, ok_bind]
    have hr : cfg.complex = false → 0 ≤ p.1.r := by
      intro hf
      rcases hp.rxy with h | h <;> rw [h]
      · exact hx.real hf
      · exact hy.real hf
    obtain ⟨h1, h2⟩ := coeffs_add_quad hp.c1.ne' hp.c2.ne' hp.r12
    obtain ⟨t, e, h3, h4⟩ := fromCoeffs_spec (cfg := cfg) h1 hr
    exact ⟨t, e, by rw [h3, h2, hp.v1, hp.v2], h4⟩
  · intro h
    rw [m2 (fun hc => h (.inr (.inr hc)))]; rfl

theorem sub_spec (hx : x.Ok cfg) (hy : y.Ok cfg) :
    ((x.r = 0 ∨ y.r = 0 ∨ x.Compatible y) →
      ∃ z, sub cfg x y = .ok z ∧ z.valC = x.valC - y.valC ∧ z.Ok cfg) ∧
    (¬ (x.r = 0 ∨ y.r = 0 ∨ x.Compatible y) → sub cfg x y = .error .incompatible) := by
  unfold sub
  by_cases hy0 : y.r = 0
  · rw [if_pos (hy.isRational_iff.mpr hy0), ratioNew_ok hy.ne_zero, ok_bind,
      valC_of_r_zero hy.toNormal hy0]
    exact ⟨fun _ => subRat_spec hx _, fun h => absurd (.inr (.inl hy0)) h⟩
  rw [if_neg (fun h => hy0 (hy.isRational_iff.mp h))]
  by_cases hx0 : x.r = 0
  · rw [if_pos (hx.isRational_iff.mpr hx0), ratioNew_ok hx.ne_zero, ok_bind,
      valC_of_r_zero hx.toNormal hx0]
    refine ⟨fun _ => ?_, fun h => absurd (.inl hx0) h⟩
    obtain ⟨t, e, h1, h2⟩ := subRat_spec hy (Rat.divInt x.a x.c)
    refine ⟨t.neg, by rw [e]; rfl, ?_, neg_ok h2⟩
    rw [neg_valC, h1]; ring
  rw [if_neg (fun h => hx0 (hx.isRational_iff.mp h))]
  obtain ⟨m1, m2⟩ := reduceBinOpUnwrap_spec (cfg := cfg) hx.c_pos hy.c_pos hx0 hy0 hx.real hy.real
  constructor
  · intro h
    have hc : x.Compatible y := (h.resolve_left hx0).resolve_left hy0
    obtain ⟨p, e, hp⟩ := m1 hc
    rw [e, ok_bind]
    have hr : cfg.complex = false → 0 ≤ p.1.r := by
      intro hf
      rcases hp.rxy with h | h <;> rw [h]
      · exact hx.real hf
      · exact hy.real hf
    obtain ⟨h1, h2⟩ := coeffs_sub_quad hp.c1.ne' hp.c2.ne' hp.r12
    obtain ⟨t, e, h3, h4⟩ := fromCoeffs_spec (cfg := cfg) h1 hr
    exact ⟨t, e, by rw [h3, h2, hp.v1, hp.v2], h4⟩
  · intro h
    rw [m2 (fun hc => h (.inr (.inr hc)))]; rfl

/-- the sign error of products of two pure complex surds -/
noncomputable def pureSign (x y : Surd) : ℂ :=
  if x.a = 0 ∧ y.a = 0 ∧ x.r < 0 ∧ y.r < 0 then -1 else 1

theorem isPure_iff (x : Surd) : x.isPure = true ↔ x.a = 0 ∧ x.b ≠ 0 := by
  simp [isPure]

theorem root_gcd_split {r s : ℤ} (hr : r ≠ 0) :
    0 < igcd r s ∧ rootC (r * s) = igcd r s * rootC (r.tdiv (igcd r s) * s.tdiv (igcd r s)) := by
  have hg := igcd_pos_left s hr
  refine ⟨hg, ?_⟩
  have h1 := tdiv_mul_of_dvd (igcd_dvd_left r s)
  have h2 := tdiv_mul_of_dvd (igcd_dvd_right r s)
  rw [← rootC_sq_mul hg.le]
  congr 1
  generalize igcd r s = g at *
  linear_combination -h1 * s - (r.tdiv g * g) * h2

theorem mul_spec (hx : x.Ok cfg) (hy : y.Ok cfg) :
    ((x.r = 0 ∨ y.r = 0 ∨ (x.a = 0 ∧ y.a = 0) ∨ x.Compatible y) →
      ∃ z, mul cfg x y = .ok z ∧ z.valC = pureSign x y * (x.valC * y.valC) ∧ z.Ok cfg) ∧
    (¬ (x.r = 0 ∨ y.r = 0 ∨ (x.a = 0 ∧ y.a = 0) ∨ x.Compatible y) →
      mul cfg x y = .error .incompatible) := by
  unfold mul
  by_cases hy0 : y.r = 0
  · have hs : pureSign x y = 1 := by unfold pureSign; rw [if_neg (by omega)]
    rw [if_pos (hy.isRational_iff.mpr hy0), ratioNew_ok hy.ne_zero, ok_bind,
      valC_of_r_zero hy.toNormal hy0, hs, one_mul]
    exact ⟨fun _ => mulRat_spec hx _, fun h => absurd (.inr (.inl hy0)) h⟩
  rw [if_neg (fun h => hy0 (hy.isRational_iff.mp h))]
  by_cases hx0 : x.r = 0
  · have hs : pureSign x y = 1 := by unfold pureSign; rw [if_neg (by omega)]
    rw [if_pos (hx.isRational_iff.mpr hx0), ratioNew_ok hx.ne_zero, ok_bind,
      valC_of_r_zero hx.toNormal hx0, mul_comm _ y.valC, hs, one_mul]
    exact ⟨fun _ => mulRat_spec hy _, fun h => absurd (.inl hx0) h⟩
  rw [if_neg (fun h => hx0 (hx.isRational_iff.mp h))]
  have hxb : x.b ≠ 0 := fun h => hx0 (hx.rational.mp h)
  have hyb : y.b ≠ 0 := fun h => hy0 (hy.rational.mp h)
  have hxc : (x.c : ℂ) ≠ 0 := by exact_mod_cast hx.ne_zero
  have hyc : (y.c : ℂ) ≠ 0 := by exact_mod_cast hy.ne_zero
  by_cases hp : x.a = 0 ∧ y.a = 0
  · have hpp : (x.isPure && y.isPure) = true := by
      rw [Bool.and_eq_true]
      exact ⟨(isPure_iff x).mpr ⟨hp.1, hxb⟩, (isPure_iff y).mpr ⟨hp.2, hyb⟩⟩
    rw [if_pos hpp]
    refine ⟨fun _ => ?_, fun h => absurd (.inr (.inr (.inl hp))) h⟩
    simp only
    obtain ⟨hg, hroot⟩ := root_gcd_split (s := y.r) hx0
    have h1 := tdiv_mul_of_dvd (igcd_dvd_left x.r y.r)
    have h2 := tdiv_mul_of_dvd (igcd_dvd_right x.r y.r)
    have hr : cfg.complex = false → 0 ≤ x.r.tdiv (igcd x.r y.r) * y.r.tdiv (igcd x.r y.r) := by
      intro hf
      exact mul_nonneg (Int.tdiv_nonneg (hx.real hf) hg.le) (Int.tdiv_nonneg (hy.real hf) hg.le)
    obtain ⟨t, e, h3, h4, _⟩ := new_spec (cfg := cfg) (a := 0) (b := x.b * y.b * igcd x.r y.r)
      (mul_ne_zero hx.ne_zero hy.ne_zero) hr
    refine ⟨t, e, ?_, h4⟩
    rw [h3]
    have hval : x.valC * y.valC = (x.b * y.b) * (rootC x.r * rootC y.r) / (x.c * y.c) := by
      unfold valC quadC; rw [hp.1, hp.2]; field_simp; push_cast; ring
    have hsr : pureSign x y * (rootC x.r * rootC y.r) = rootC (x.r * y.r) := by
      unfold pureSign
      by_cases hneg : x.r < 0 ∧ y.r < 0
      · rw [if_pos ⟨hp.1, hp.2, hneg⟩, rootC_mul_neg hneg.1 hneg.2]; ring
      · rw [if_neg (by tauto), rootC_mul (by omega)]; ring
    rw [hval, show pureSign x y * ((x.b * y.b) * (rootC x.r * rootC y.r) / (x.c * y.c)) =
      (x.b * y.b) * (pureSign x y * (rootC x.r * rootC y.r)) / (x.c * y.c) by ring, hsr, hroot]
    unfold quadC
    push_cast; ring
  have hpp : ¬ (x.isPure && y.isPure) = true := by
    rw [Bool.and_eq_true, isPure_iff, isPure_iff]; tauto
  have hs : pureSign x y = 1 := by unfold pureSign; rw [if_neg (by tauto)]
  rw [if_neg hpp, hs, one_mul]
  obtain ⟨m1, m2⟩ := reduceBinOpUnwrap_spec (cfg := cfg) hx.c_pos hy.c_pos hx0 hy0 hx.real hy.real
  constructor
  · intro h
    have hc : x.Compatible y := ((h.resolve_left hx0).resolve_left hy0).resolve_left hp
    obtain ⟨p, e, hp⟩ := m1 hc
    rw [e, ok_bind]
    have hr : cfg.complex = false → 0 ≤ p.1.r := by
      intro hf
      rcases hp.rxy with h | h <;> rw [h]
      · exact hx.real hf
      · exact hy.real hf
    obtain ⟨h1, h2⟩ := coeffs_mul_quad hp.c1.ne' hp.c2.ne' hp.r12
    obtain ⟨t, e, h3, h4⟩ := fromCoeffs_spec (cfg := cfg) h1 hr
    exact ⟨t, e, by rw [h3, h2, hp.v1, hp.v2], h4⟩
  · intro h
    rw [m2 (fun hc => h (.inr (.inr (.inr hc))))]; rfl

theorem recip_spec (hx : x.Ok cfg) (h0 : x.valC ≠ 0) :
    ∃ t, recip cfg x = .ok t ∧ t.valC = x.valC⁻¹ ∧ t.Ok cfg := by
  have hn : x.a * x.a - x.b * x.b * x.r ≠ 0 := by
    by_cases hr : x.r = 0
    · rw [hr]
      have hb := hx.rational.mpr hr
      intro e
      apply h0
      rw [valC_eq_zero_iff hx.toNormal]
      refine ⟨?_, hb⟩
      simpa using e
    · exact coords_ne_zero (hx.irrational hr) h0
  have hn2 : x.b * x.b * x.r - x.a * x.a ≠ 0 := fun e => hn (by linarith)
  obtain ⟨t, e, h3, h4, _⟩ := new_spec (cfg := cfg) (a := -(x.c * x.a)) (b := x.c * x.b) hn2 hx.real
  refine ⟨t, e, ?_, h4⟩
  rw [h3]
  have hxc : (x.c : ℂ) ≠ 0 := by exact_mod_cast hx.ne_zero
  have hn' : (x.b:ℂ) * x.b * x.r - x.a * x.a ≠ 0 := by exact_mod_cast hn2
  unfold valC at h0 ⊢
  unfold quadC at h0 ⊢
  have hnum : (x.a : ℂ) + x.b * rootC x.r ≠ 0 := by
    intro e; rw [e] at h0; simp at h0
  push_cast
  rw [inv_div, div_eq_div_iff hn' hnum]
  linear_combination (x.c * x.b * x.b : ℂ) * rootC_mul_self x.r

theorem recip_zero (hx : x.Ok cfg) (h0 : x.valC = 0) : recip cfg x = .error .denomZero := by
  obtain ⟨ha, hb⟩ := (valC_eq_zero_iff hx.toNormal).mp h0
  unfold recip new
  rw [if_neg (fun h => not_lt.mpr (hx.real h.1) h.2)]
  apply reduce_zero
  simp [ha, hb]

/-- when division returns -/
def DivReturns (x y : Surd) : Prop :=
  y.valC ≠ 0 ∧ (y.r = 0 ∨ (x.r = 0 ∧ x.valC ≠ 0) ∨
    (x.r ≠ 0 ∧ ((x.a = 0 ∧ y.a = 0) ∨ x.Compatible y)))

theorem div_spec (hx : x.Ok cfg) (hy : y.Ok cfg) :
    (DivReturns x y →
      ∃ z, div cfg x y = .ok z ∧ z.valC = pureSign x y * (x.valC / y.valC) ∧ z.Ok cfg) ∧
    (¬ DivReturns x y → ∃ p, div cfg x y = .error p) := by
  unfold div
  by_cases hy0 : y.r = 0
  · have hs : pureSign x y = 1 := by unfold pureSign; rw [if_neg (by omega)]
    rw [if_pos (hy.isRational_iff.mpr hy0), ratioNew_ok hy.ne_zero, ok_bind, hs, one_mul]
    have hyv := valC_of_r_zero hy.toNormal hy0
    by_cases hq : Rat.divInt y.a y.c = 0
    · rw [hq, Rat.cast_zero] at hyv
      refine ⟨fun h => absurd hyv h.1, fun _ => ⟨_, by rw [hq]; exact divRat_zero hx⟩⟩
    · refine ⟨fun _ => ?_, fun h => ?_⟩
      · rw [hyv]; exact divRat_spec hx hq
      · exfalso; apply h
        refine ⟨?_, .inl hy0⟩
        rw [hyv]; exact_mod_cast hq
  rw [if_neg (fun h => hy0 (hy.isRational_iff.mp h))]
  have hyb : y.b ≠ 0 := fun h => hy0 (hy.rational.mp h)
  have hyns := hy.irrational hy0
  have hyv : y.valC ≠ 0 := valC_ne_zero_of_b hy.ne_zero hyb hyns
  by_cases hx0 : x.r = 0
  · have hs : pureSign x y = 1 := by unfold pureSign; rw [if_neg (by omega)]
    rw [if_pos (hx.isRational_iff.mpr hx0), ratioNew_ok hx.ne_zero, ok_bind, hs, one_mul]
    have hxv := valC_of_r_zero hx.toNormal hx0
    by_cases hq : Rat.divInt x.a x.c = 0
    · rw [hq, Rat.cast_zero] at hxv
      refine ⟨fun h => ?_, fun _ => ⟨.denomZero, by rw [hq, divRat_zero hy]; rfl⟩⟩
      exfalso
      rcases h.2 with h | h | h
      · exact hy0 h
      · exact h.2 hxv
      · exact h.1 hx0
    · have hqc : ((Rat.divInt x.a x.c : ℚ) : ℂ) ≠ 0 := by exact_mod_cast hq
      refine ⟨fun _ => ?_, fun h => ?_⟩
      · obtain ⟨t, e, h1, h2⟩ := divRat_spec hy hq
        have ht : t.valC ≠ 0 := by rw [h1]; exact div_ne_zero hyv hqc
        obtain ⟨u, e', h3, h4⟩ := recip_spec h2 ht
        refine ⟨u, by rw [e, ok_bind, e'], ?_, h4⟩
        rw [h3, h1, hxv, inv_div]
      · exfalso; apply h
        refine ⟨hyv, .inr (.inl ⟨hx0, ?_⟩)⟩
        rw [hxv]; exact hqc
  rw [if_neg (fun h => hx0 (hx.isRational_iff.mp h))]
  have hxb : x.b ≠ 0 := fun h => hx0 (hx.rational.mp h)
  have hxc : (x.c : ℂ) ≠ 0 := by exact_mod_cast hx.ne_zero
  have hyc : (y.c : ℂ) ≠ 0 := by exact_mod_cast hy.ne_zero
  by_cases hp : x.a = 0 ∧ y.a = 0
  · have hpp : (x.isPure && y.isPure) = true := by
      rw [Bool.and_eq_true]
      exact ⟨(isPure_iff x).mpr ⟨hp.1, hxb⟩, (isPure_iff y).mpr ⟨hp.2, hyb⟩⟩
    rw [if_pos hpp]
    refine ⟨fun _ => ?_, fun h => absurd ⟨hyv, .inr (.inr ⟨hx0, .inl hp⟩)⟩ h⟩
    simp only
    obtain ⟨hg, hroot⟩ := root_gcd_split (s := y.r) hx0
    have h1 := tdiv_mul_of_dvd (igcd_dvd_left x.r y.r)
    have h2 := tdiv_mul_of_dvd (igcd_dvd_right x.r y.r)
    have hrd : y.r.tdiv (igcd x.r y.r) ≠ 0 := tdiv_ne_zero_of_dvd (igcd_dvd_right _ _) hy0
    have hr : cfg.complex = false → 0 ≤ x.r.tdiv (igcd x.r y.r) * y.r.tdiv (igcd x.r y.r) := by
      intro hf
      exact mul_nonneg (Int.tdiv_nonneg (hx.real hf) hg.le) (Int.tdiv_nonneg (hy.real hf) hg.le)
    obtain ⟨t, e, h3, h4, _⟩ := new_spec (cfg := cfg) (a := 0) (b := x.b * y.c)
      (mul_ne_zero (mul_ne_zero hx.ne_zero hyb) hrd) hr
    refine ⟨t, e, ?_, h4⟩
    rw [h3]
    have hR0 := rootC_ne_zero hy0
    have hR := rootC_mul_self y.r
    have hyb' : (y.b : ℂ) ≠ 0 := by exact_mod_cast hyb
    have hrd' : ((y.r.tdiv (igcd x.r y.r) : ℤ) : ℂ) ≠ 0 := by exact_mod_cast hrd
    have hy0' : (y.r : ℂ) ≠ 0 := by exact_mod_cast hy0
    have hg' : ((igcd x.r y.r : ℤ) : ℂ) ≠ 0 := by exact_mod_cast hg.ne'
    have h2' : ((y.r.tdiv (igcd x.r y.r) : ℤ) : ℂ) * (igcd x.r y.r : ℤ) = y.r := by exact_mod_cast h2
    have hval : x.valC / y.valC = (x.b * y.c) * (rootC x.r * rootC y.r) / (x.c * y.b * y.r) := by
      unfold valC quadC; rw [hp.1, hp.2, ← hR]; field_simp; push_cast; ring
    have hsr : pureSign x y * (rootC x.r * rootC y.r) = rootC (x.r * y.r) := by
      unfold pureSign
      by_cases hneg : x.r < 0 ∧ y.r < 0
      · rw [if_pos ⟨hp.1, hp.2, hneg⟩, rootC_mul_neg hneg.1 hneg.2]; ring
      · rw [if_neg (by tauto), rootC_mul (by omega)]; ring
    rw [hval, show pureSign x y * ((x.b * y.c) * (rootC x.r * rootC y.r) / (x.c * y.b * y.r)) =
      (x.b * y.c) * (pureSign x y * (rootC x.r * rootC y.r)) / (x.c * y.b * y.r) by ring, hsr, hroot,
      ← h2']
    unfold quadC
    generalize rootC _ = W
    push_cast
    field_simp
    ring
  have hpp : ¬ (x.isPure && y.isPure) = true := by
    rw [Bool.and_eq_true, isPure_iff, isPure_iff]; tauto
  have hs : pureSign x y = 1 := by unfold pureSign; rw [if_neg (by tauto)]
  rw [if_neg hpp, hs, one_mul]
  obtain ⟨m1, m2⟩ := reduceBinOpUnwrap_spec (cfg := cfg) hx.c_pos hy.c_pos hx0 hy0 hx.real hy.real
  constructor
  · intro h
    have hc : x.Compatible y := by
      rcases h.2 with h | h | h
      · exact absurd h hy0
      · exact absurd h.1 hx0
      · exact h.2.resolve_left hp
    obtain ⟨p, e, hp⟩ := m1 hc
    rw [e, ok_bind]
    have hr : cfg.complex = false → 0 ≤ p.1.r := by
      intro hf
      rcases hp.rxy with h | h <;> rw [h]
      · exact hx.real hf
      · exact hy.real hf
    have hns : ¬ IsSquare p.2.r := by
      rw [← hp.r12]
      rcases hp.rxy with h | h <;> rw [h]
      · exact hx.irrational hx0
      · exact hyns
    have hnz := coords_ne_zero hns (by rw [hp.v2]; exact hyv)
    obtain ⟨h1, h2⟩ := coeffs_div_quad hp.c1.ne' hp.c2.ne' hp.r12 hnz
    obtain ⟨t, e, h3, h4⟩ := fromCoeffs_spec (cfg := cfg) h1 hr
    exact ⟨t, e, by rw [h3, h2, hp.v1, hp.v2], h4⟩
  · intro h
    rw [m2 (fun hc => h ⟨hyv, .inr (.inr ⟨hx0, .inr hc⟩)⟩)]; exact ⟨_, rfl⟩

end Surd
end NumIrr
