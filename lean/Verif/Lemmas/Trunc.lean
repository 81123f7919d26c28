/- Helper lemmas: truncation. -/
import Verif.Lemmas.Rounding

namespace NumIrr

theorem truncZ_of_nonneg {x : ℝ} (h : 0 ≤ x) : truncZ x = ⌊x⌋ := by
  unfold truncZ; rw [if_pos h]

theorem truncZ_of_nonpos {x : ℝ} (h : x ≤ 0) : truncZ x = -⌊-x⌋ := by
  unfold truncZ
  split
  · next h' =>
    have : x = 0 := le_antisymm h h'
    simp [this]
  · rw [Int.floor_neg, neg_neg]

theorem truncZ_neg (x : ℝ) : truncZ (-x) = -truncZ x := by
  rcases le_total 0 x with h | h
  · rw [truncZ_of_nonpos (by linarith), truncZ_of_nonneg h, neg_neg]
  · rw [truncZ_of_nonneg (by linarith), truncZ_of_nonpos h, neg_neg]

theorem truncZ_div_nonneg {x : ℝ} (hx : 0 ≤ x) {c : ℤ} (hc : 0 < c) :
    truncZ (x / c) = ⌊x⌋.tdiv c := by
  have hc' : (0:ℝ) < c := by exact_mod_cast hc
  rw [truncZ_of_nonneg (div_nonneg hx hc'.le), floor_div_int _ hc,
    Int.tdiv_eq_ediv_of_nonneg (Int.floor_nonneg.mpr hx)]

theorem truncZ_div_int (a : ℤ) {c : ℤ} (hc : 0 < c) : truncZ ((a:ℝ) / c) = a.tdiv c := by
  rcases le_total 0 a with h | h
  · have h' : (0:ℝ) ≤ a := by exact_mod_cast h
    rw [truncZ_div_nonneg h' hc, Int.floor_intCast]
  · have h' : (0:ℝ) ≤ -a := by
      have : (a:ℝ) ≤ 0 := by exact_mod_cast h
      linarith
    have e : (a:ℝ) / c = -(-a / c) := by ring
    rw [e, truncZ_neg, truncZ_div_nonneg h' hc]
    have : ⌊(-(a:ℝ))⌋ = -a := by
      rw [← Int.cast_neg, Int.floor_intCast]
    rw [this, Int.neg_tdiv, neg_neg]

theorem truncZ_sqrt (b r : ℤ) (hr : 0 ≤ r) {c : ℤ} (hc : 0 < c) :
    truncZ ((b:ℝ) * Real.sqrt r / c) = (b.sign * isqrt (b * b * r)).tdiv c := by
  have hn : 0 ≤ b * b * r := mul_nonneg (mul_self_nonneg _) hr
  have hs := sqrt_sq_mul (b := b) r
  rcases lt_trichotomy b 0 with h | h | h
  · have h' : (b:ℝ) < 0 := by exact_mod_cast h
    rw [abs_of_neg h'] at hs
    have e : (b:ℝ) * Real.sqrt r / c = -(Real.sqrt ((b * b * r : ℤ) : ℝ) / c) := by rw [hs]; ring
    rw [e, truncZ_neg, truncZ_div_nonneg (Real.sqrt_nonneg _) hc, floor_sqrt _ hn,
      Int.sign_eq_neg_one_of_neg h, neg_one_mul, Int.neg_tdiv]
  · subst h; simp [truncZ]
  · have h' : (0:ℝ) < b := by exact_mod_cast h
    rw [abs_of_pos h'] at hs
    rw [← hs, truncZ_div_nonneg (Real.sqrt_nonneg _) hc, floor_sqrt _ hn,
      Int.sign_eq_one_of_pos h, one_mul]

theorem ediv_pred {n c : ℤ} (hc : 0 < c) : (n - 1) / c = n / c ↔ ¬ c ∣ n := by
  have h1 := Int.emod_add_mul_ediv n c
  have h2 := Int.emod_nonneg n hc.ne'
  have h3 := Int.emod_lt_of_pos n hc
  rw [Int.dvd_iff_emod_eq_zero]
  constructor
  · intro h h0
    rw [Int.ediv_eq_iff_of_pos hc] at h
    rw [h0] at h1
    have := h.1
    nlinarith
  · intro h
    rw [Int.ediv_eq_iff_of_pos hc]
    constructor <;> nlinarith [show 1 ≤ n % c by omega]

namespace Surd
variable {cfg : Cfg} {s : Surd}

/-- the integer the code truncates: `a ± ⌊√(b²r)⌋` -/
def truncNum (s : Surd) : ℤ := s.a + s.b.sign * isqrt (s.b * s.b * s.r)

theorem trunc_real (h : s.RealOk) : trunc cfg s = .ok (ofInt (s.truncNum.tdiv s.c)) := by
  unfold trunc
  rw [if_neg (not_lt.mpr h.real), sqrtR_ok h.bbr_nonneg, ok_bind]
  simp only
  rw [divR_ok h.c_pos.ne', ok_bind]
  rfl

/-- the numerator and the integer it is replaced by -/
theorem truncNum_close (h : s.RealOk) :
    |((s.a:ℝ) + s.b * Real.sqrt s.r) - s.truncNum| < 1 ∧
    (0 ≤ s.b → (s.truncNum : ℝ) ≤ (s.a:ℝ) + s.b * Real.sqrt s.r) ∧
    (s.b ≤ 0 → (s.a:ℝ) + s.b * Real.sqrt s.r ≤ s.truncNum) := by
  have hn := h.bbr_nonneg
  have hs := sqrt_sq_mul (b := s.b) s.r
  have h1 := isqrt_le_sqrt _ hn
  have h2 := sqrt_lt_isqrt (s.b * s.b * s.r)
  unfold truncNum
  rcases lt_trichotomy s.b 0 with hb | hb | hb
  · have hb' : (s.b:ℝ) < 0 := by exact_mod_cast hb
    rw [abs_of_neg hb'] at hs
    rw [Int.sign_eq_neg_one_of_neg hb]
    push_cast at *
    rw [abs_lt]
    refine ⟨⟨by linarith, by linarith⟩, fun h => by linarith, fun h => by linarith⟩
  · rw [hb]; simp
  · have hb' : (0:ℝ) < s.b := by exact_mod_cast hb
    rw [abs_of_pos hb'] at hs
    rw [Int.sign_eq_one_of_pos hb]
    push_cast at *
    rw [abs_lt]
    refine ⟨⟨by linarith, by linarith⟩, fun h => by linarith, fun h => by linarith⟩

theorem val_nonneg_iff (h : s.RealOk) : 0 ≤ s.val ↔ 0 ≤ (s.a:ℝ) + s.b * Real.sqrt s.r := by
  rw [val_eq]
  constructor
  · intro h'
    by_contra hn
    push Not at hn
    have := div_neg_of_neg_of_pos hn h.c_pos'
    linarith
  · intro h'; exact div_nonneg h' h.c_pos'.le

theorem val_nonpos_iff (h : s.RealOk) : s.val ≤ 0 ↔ (s.a:ℝ) + s.b * Real.sqrt s.r ≤ 0 := by
  rw [val_eq]
  constructor
  · intro h'
    by_contra hn
    push Not at hn
    have := div_pos hn h.c_pos'
    linarith
  · intro h'; exact div_nonpos_of_nonpos_of_nonneg h' h.c_pos'.le

/-- floor / ceiling of the numerator in terms of `truncNum` -/
theorem floor_num_eq (h : s.RealOk) (hb : 0 ≤ s.b) :
    ⌊(s.a : ℝ) + s.b * Real.sqrt s.r⌋ = s.truncNum := by
  obtain ⟨h1, h2, _⟩ := truncNum_close h
  rw [Int.floor_eq_iff]
  refine ⟨h2 hb, ?_⟩
  rw [abs_lt] at h1; linarith

theorem ceil_num_eq (h : s.RealOk) (hb : s.b ≤ 0) :
    ⌈(s.a : ℝ) + s.b * Real.sqrt s.r⌉ = s.truncNum := by
  obtain ⟨h1, _, h2⟩ := truncNum_close h
  rw [Int.ceil_eq_iff]
  refine ⟨?_, h2 hb⟩
  rw [abs_lt] at h1; linarith

theorem trunc_agree (h : s.RealOk) (hs : (0 ≤ s.b ∧ 0 ≤ s.val) ∨ (s.b ≤ 0 ∧ s.val ≤ 0)) :
    s.truncNum.tdiv s.c = truncZ s.val := by
  rcases hs with ⟨hb, hv⟩ | ⟨hb, hv⟩
  · have hv' := (val_nonneg_iff h).mp hv
    rw [val_eq, truncZ_div_nonneg hv' h.c_pos, floor_num_eq h hb]
  · have hv' := (val_nonpos_iff h).mp hv
    have e : s.val = -(-((s.a:ℝ) + s.b * Real.sqrt s.r) / s.c) := by rw [val_eq]; ring
    rw [e, truncZ_neg, truncZ_div_nonneg (by linarith) h.c_pos, Int.floor_neg, ceil_num_eq h hb,
      Int.neg_tdiv, neg_neg]

theorem not_int_num (h : s.RealOk) (hb : s.b ≠ 0) (k : ℤ) :
    (s.a : ℝ) + s.b * Real.sqrt s.r ≠ k := by
  intro e
  have hr : s.r ≠ 0 := fun e => hb (h.rational.mpr e)
  have hc : ((s.a - k : ℚ) : ℂ) + (s.b : ℚ) * rootC s.r = 0 := by
    rw [rootC_of_nonneg h.real]
    have : ((s.a : ℝ) + s.b * Real.sqrt s.r : ℂ) = ((k : ℝ) : ℂ) := by exact_mod_cast e
    push_cast at *
    linear_combination this
  have := (root_lin_indep (h.irrational hr) hc).2
  exact hb (by exact_mod_cast this)

theorem trunc_disagree (h : s.RealOk) (hs : (s.b < 0 ∧ 0 < s.val) ∨ (0 < s.b ∧ s.val < 0)) :
    s.truncNum.tdiv s.c = truncZ s.val ↔ ¬ s.c ∣ s.truncNum := by
  have hc := h.c_pos
  rcases hs with ⟨hb, hv⟩ | ⟨hb, hv⟩
  · have hv' := (val_nonneg_iff h).mp hv.le
    have hf : ⌊(s.a : ℝ) + s.b * Real.sqrt s.r⌋ = s.truncNum - 1 := by
      have h1 := ceil_num_eq h hb.le
      rw [Int.ceil_eq_iff] at h1
      rw [Int.floor_eq_iff]
      push_cast
      refine ⟨by linarith, ?_⟩
      have := not_int_num h hb.ne s.truncNum
      have := lt_of_le_of_ne h1.2 this
      linarith
    have h0 : 0 ≤ s.truncNum - 1 := by rw [← hf]; exact Int.floor_nonneg.mpr hv'
    rw [val_eq, truncZ_div_nonneg hv' hc, hf, Int.tdiv_eq_ediv_of_nonneg (by omega),
      Int.tdiv_eq_ediv_of_nonneg h0, ← ediv_pred hc]
    exact eq_comm
  · have hv' := (val_nonpos_iff h).mp hv.le
    have hf : ⌈(s.a : ℝ) + s.b * Real.sqrt s.r⌉ = s.truncNum + 1 := by
      have h1 := floor_num_eq h hb.le
      rw [Int.floor_eq_iff] at h1
      rw [Int.ceil_eq_iff]
      push_cast
      refine ⟨?_, by linarith⟩
      have := not_int_num h hb.ne' s.truncNum
      have := lt_of_le_of_ne h1.1 this.symm
      linarith
    have h0 : 0 ≤ -(s.truncNum + 1) := by
      rw [← hf]
      have := Int.ceil_le (a := (s.a : ℝ) + s.b * Real.sqrt s.r) (z := 0)
      have := this.mpr (by exact_mod_cast hv')
      omega
    have e : s.val = -(-((s.a:ℝ) + s.b * Real.sqrt s.r) / s.c) := by rw [val_eq]; ring
    rw [e, truncZ_neg, truncZ_div_nonneg (by linarith) hc, Int.floor_neg, hf]
    have e1 : s.truncNum.tdiv s.c = -((-s.truncNum) / s.c) := by
      rw [← Int.tdiv_eq_ediv_of_nonneg (by omega), Int.neg_tdiv, neg_neg]
    have e2 : (-(s.truncNum + 1)).tdiv s.c = (-s.truncNum - 1) / s.c := by
      rw [Int.tdiv_eq_ediv_of_nonneg (by omega)]; ring_nf
    rw [e1, e2, neg_inj, eq_comm, ediv_pred hc, Int.dvd_neg]

theorem trunc_bound (h : s.RealOk) : |s.val - (s.truncNum.tdiv s.c : ℤ)| < 1 := by
  obtain ⟨h1, _, _⟩ := truncNum_close h
  have hc := h.c_pos'
  have e : s.val - (s.truncNum.tdiv s.c : ℤ) =
      (((s.a:ℝ) + s.b * Real.sqrt s.r) - s.truncNum + (s.truncNum.tmod s.c : ℤ)) / s.c := by
    have := Int.tmod_add_mul_tdiv s.truncNum s.c
    have h2 : ((s.truncNum.tmod s.c : ℤ) : ℝ) + s.c * (s.truncNum.tdiv s.c : ℤ) = s.truncNum := by
      exact_mod_cast this
    rw [val_eq]
    field_simp
    linear_combination -h2
  rw [e, abs_div, abs_of_pos hc, div_lt_one hc]
  have hm : |((s.truncNum.tmod s.c : ℤ) : ℝ)| ≤ s.c - 1 := by
    have h3 : |s.truncNum.tmod s.c| ≤ s.c - 1 := by
      have := Int.tmod_lt_of_pos s.truncNum h.c_pos
      have := Int.lt_tmod_of_pos s.truncNum h.c_pos
      rw [abs_le]; constructor <;> omega
    have : ((|s.truncNum.tmod s.c| : ℤ) : ℝ) ≤ ((s.c - 1 : ℤ) : ℝ) := by exact_mod_cast h3
    push_cast at this; exact this
  calc _ ≤ |((s.a:ℝ) + s.b * Real.sqrt s.r) - s.truncNum| + |((s.truncNum.tmod s.c : ℤ) : ℝ)| := abs_add_le _ _
    _ < s.c := by linarith

end Surd
end NumIrr
