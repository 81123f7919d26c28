/-
C15, C18: exactly when `to_rational` and `from_sqrt` of surds keep their claims.
-/
import Verif.Props.SurdSqrt

namespace NumIrr
open Surd

/-! ### C15 to_rational -/

/-- **C15** decided: for an irrational surd the result of `to_rational` is within `1/c` of the number if and only if
the square root coefficient is positive.  So every number with `b < 0` is a counterexample. -/
theorem surd_toRational_iff (cfg : Cfg) (s : Surd) (h : s.RealOk) (hr : s.r ≠ 0) :
    ∃ n : ℤ, Surd.toRational cfg s = .ok (.approximated (n, s.c)) ∧
      (|s.val - n / s.c| ≤ 1 / (s.c : ℝ) ↔ 0 < s.b) := by
  have hc := h.c_pos'
  have hb0 : s.b ≠ 0 := fun e => hr (h.rational.mp e)
  refine ⟨s.a + isqrt (s.b * s.b * s.r), ?_, ?_⟩
  · unfold Surd.toRational
    rw [panicIfComplex_ok h.real, ok_bind, if_neg hr, sqrtR_ok h.bbr_nonneg, ok_bind]
    rfl
  have h1 := isqrt_le_sqrt _ h.bbr_nonneg
  have h2 := sqrt_lt_isqrt (s.b * s.b * s.r)
  rw [sqrt_sq_mul] at h1 h2
  have e : s.val - ((s.a + isqrt (s.b * s.b * s.r) : ℤ) : ℝ) / s.c =
      (s.b * Real.sqrt s.r - isqrt (s.b * s.b * s.r)) / s.c := by
    rw [val_eq]; push_cast; field_simp; ring
  rw [e, abs_div, abs_of_pos hc, div_le_div_iff_of_pos_right hc]
  constructor
  · intro hle
    by_contra hb
    have hb' : (s.b : ℝ) ≤ -1 := by exact_mod_cast (by omega : s.b ≤ -1)
    have hr1 : (2 : ℝ) ≤ s.r := by
      have hns := h.irrational hr
      have : s.r ≠ 1 := fun e => hns ⟨1, by rw [e]; norm_num⟩
      have := h.real
      exact_mod_cast (by omega : 2 ≤ s.r)
    have h3 : (1 : ℝ) < Real.sqrt s.r := Real.lt_sqrt_of_sq_lt (by linarith)
    rw [abs_of_neg (by linarith)] at h1
    have h4 : (0 : ℝ) ≤ isqrt (s.b * s.b * s.r) := by
      rw [abs_of_neg (by linarith)] at h2
      have : (0 : ℝ) < isqrt (s.b * s.b * s.r) + 1 := by nlinarith
      have : (0 : ℤ) < isqrt (s.b * s.b * s.r) + 1 := by exact_mod_cast this
      exact_mod_cast (by omega : 0 ≤ isqrt (s.b * s.b * s.r))
    have := abs_le.mp hle
    nlinarith [this.1]
  · intro hb
    have hb' : (0 : ℝ) < s.b := by exact_mod_cast hb
    rw [abs_of_pos hb'] at h1 h2
    rw [abs_of_nonneg (by linarith)]
    linarith

example : (Surd.mk 7 (-3) 200 5).RealOk ∧ (5 : ℤ) ≠ 0 ∧
    Surd.toRational ⟨false, true⟩ ⟨7, -3, 200, 5⟩ = .ok (.approximated (13, 200)) := by decide +kernel

/-! ### C18 from_sqrt on surds -/

/-- the rational part, from the value -/
private theorem part_of_val {s : Surd} {p q : ℚ} {r : ℤ} (hr : ¬ IsSquare r) (hq : q ≠ 0)
    (e : s.valC = p + q * rootC r) : (Rat.divInt s.a s.c : ℚ) = p :=
  (two_root_eq hr hq (by rw [← e, ← valC_coords])).1

private theorem divInt_pos_iff {a c : ℤ} (hc : 0 < c) : (0 : ℚ) < Rat.divInt a c ↔ 0 < a := by
  have hcQ : (0 : ℚ) < c := by exact_mod_cast hc
  rw [Rat.divInt_eq_div, div_pos_iff_of_pos_right hcQ]
  exact_mod_cast Iff.rfl

/-- **C18** decided: the root returned for an irrational surd is the one with positive rational part. -/
theorem surd_fromSqrt_part (cfg : Cfg) (fits : ℤ → Bool) (t s : Surd) (h : t.Ok cfg) (hr : t.r ≠ 0)
    (hs : Surd.fromSqrtSurd cfg fits t = .ok (.ok s)) : 0 < s.a := by
  obtain ⟨o, h1, h2⟩ := fromSqrtSurd_spec cfg fits t h
  rw [hs] at h1; cases h1
  obtain ⟨h3, h4, h5, h6⟩ := h2.ok s rfl
  obtain ⟨p, q, e, hp, hq, hqb⟩ := h5 hr
  rw [← part_of_val (h.irrational hr) hq e] at hp
  exact (divInt_pos_iff h4.c_pos).1 hp

example : (Surd.mk 3 (-2) 1 2).RealOk ∧
    Surd.fromSqrtSurd ⟨false, true⟩ (fun _ => true) ⟨3, -2, 1, 2⟩ = .ok (.ok ⟨1, -1, 1, 2⟩) ∧
    Surd.fromSqrtSurd ⟨false, true⟩ (fun _ => true) ⟨6, -4, 1, 2⟩ = .ok (.ok ⟨2, -1, 1, 2⟩) := by
  decide +kernel

/-- **C18** decided: if the non-negative number `w` is a square root of the irrational real surd `t`, then what
`from_sqrt(t)` returns is `w` if the rational part of `w` is positive, and `-w` otherwise.  (The rational part
cannot be zero.)  So the claim fails exactly for roots such as `√2 - 1`. -/
theorem surd_fromSqrt_nonneg_iff (cfg : Cfg) (fits : ℤ → Bool) (t s w : Surd) (h : t.RealOk) (hr : t.r ≠ 0)
    (hs : Surd.fromSqrtSurd cfg fits t = .ok (.ok s)) (hw : w.RealOk) (hw0 : 0 ≤ w.val) (hwt : w.val ^ 2 = t.val) :
    s.RealOk ∧ w.a ≠ 0 ∧ (s.val = w.val ↔ 0 < w.a) ∧ (s.val = -w.val ↔ w.a < 0) ∧ (0 ≤ s.val ↔ 0 < w.a) := by
  obtain ⟨o, h1, h2⟩ := fromSqrtSurd_spec cfg fits t (h.toOk cfg)
  rw [hs] at h1; cases h1
  obtain ⟨h3, h4, h5, -⟩ := h2.ok s rfl
  obtain ⟨p, q, e, hp, hq, -⟩ := h5 hr
  have hns := h.irrational hr
  have hwC : w.valC = ((w.val : ℝ) : ℂ) := hw.valC
  have hw1 : w.val ≠ 0 := by
    intro e0
    rw [e0] at hwt
    have : t.val = 0 := by rw [← hwt]; ring
    have hb : t.b ≠ 0 := fun e => hr (h.rational.mp e)
    have h6 := Surd.valC_ne_zero_of_b h.c_pos.ne' hb hns
    rw [h.valC, this] at h6
    simp at h6
  have hwpos : 0 < w.val := lt_of_le_of_ne hw0 hw1.symm
  have hsq : s.valC * s.valC = w.valC * w.valC := by
    rw [h3, hwC, h.valC, ← hwt]; push_cast; ring
  rcases mul_self_eq_mul_self_iff.1 hsq with e1 | e1
  · have e2 : s.valC = ((w.val : ℝ) : ℂ) := by rw [e1, hwC]
    obtain ⟨k1, k2⟩ := Surd.real_transfer h4.toNormal e2
    have hwa : 0 < w.a := by
      rw [← divInt_pos_iff hw.c_pos, part_of_val hns hq (by rw [← e1, e])]; exact hp
    refine ⟨k1, hwa.ne', ⟨fun _ => hwa, fun _ => k2⟩, ⟨fun h' => ?_, fun h' => ?_⟩, ⟨fun _ => hwa, fun _ => ?_⟩⟩
    · exfalso; linarith
    · omega
    · rw [k2]; exact hw0
  · have e2 : s.valC = ((-w.val : ℝ) : ℂ) := by rw [e1, hwC]; push_cast; rfl
    obtain ⟨k1, k2⟩ := Surd.real_transfer h4.toNormal e2
    have hwa : ¬ 0 ≤ w.a := by
      have e3 : w.valC = ((-p : ℚ) : ℂ) + ((-q : ℚ) : ℂ) * rootC t.r := by
        rw [show w.valC = -s.valC by rw [e1]; ring, e]; push_cast; ring
      have h7 := part_of_val hns (neg_ne_zero.2 hq) e3
      intro h8
      have hcQ : (0 : ℚ) < w.c := by exact_mod_cast hw.c_pos
      have h9 : (0 : ℚ) ≤ Rat.divInt w.a w.c := by
        rw [Rat.divInt_eq_div]
        have : (0 : ℚ) ≤ w.a := by exact_mod_cast h8
        positivity
      rw [h7] at h9
      linarith
    refine ⟨k1, by omega, ⟨fun h' => ?_, fun h' => ?_⟩, ⟨fun _ => by omega, fun _ => k2⟩, ⟨fun h' => ?_, fun h' => ?_⟩⟩
    · exfalso; linarith
    · omega
    · exfalso; linarith
    · omega

example : (Surd.mk 3 (-2) 1 2).RealOk ∧ (Surd.mk (-1) 1 1 2).RealOk ∧
    Surd.mul ⟨false, true⟩ ⟨-1, 1, 1, 2⟩ ⟨-1, 1, 1, 2⟩ = .ok ⟨3, -2, 1, 2⟩ ∧
    Surd.isPositive ⟨false, true⟩ ⟨-1, 1, 1, 2⟩ = .ok true := by
  decide +kernel

end NumIrr
