/- Helper lemmas for `from_rationals`, `from_equation` and `from_sqrt`. -/
import Verif.Lemmas.SurdBin
import Verif.Lemmas.SurdEq
import Verif.Lemmas.Rounding
import Verif.Model.SurdSqrt

namespace NumIrr
namespace Surd
variable {cfg : Cfg}

theorem rootC_num_den (t : ℚ) : rootC (t.num * t.den) = (t.den : ℂ) * rootQ t := by
  have hd : (0:ℝ) < t.den := by exact_mod_cast t.den_pos
  have hn : (t.num : ℝ) = t * t.den := by
    have : (t.num : ℚ) = t * t.den := (Rat.mul_den_eq_num t).symm
    exact_mod_cast this
  have hpos : 0 ≤ t.num * (t.den : ℤ) ↔ 0 ≤ t := by
    have hd' : (0:ℤ) < t.den := by exact_mod_cast t.den_pos
    rw [mul_nonneg_iff_of_pos_right hd', Rat.num_nonneg]
  unfold rootC rootQ
  by_cases h : 0 ≤ t
  · rw [if_pos (hpos.mpr h), if_pos h]
    push_cast
    rw [hn, mul_assoc, Real.sqrt_mul (by exact_mod_cast h), Real.sqrt_mul_self hd.le]
    push_cast; ring
  · rw [if_neg (fun h' => h (hpos.mp h')), if_neg h]
    push_cast
    have h' : (0:ℝ) ≤ -t := by
      push Not at h
      have : (t:ℝ) < 0 := by exact_mod_cast h
      linarith
    rw [hn, show -((t:ℝ) * t.den * t.den) = -t * (t.den * t.den) by ring, Real.sqrt_mul h',
      Real.sqrt_mul_self hd.le]
    push_cast; ring

theorem rootQ_sq (t : ℚ) : rootQ t * rootQ t = t := by
  have h1 := rootC_num_den t
  have h2 := rootC_mul_self (t.num * t.den)
  rw [h1] at h2
  have hd : (t.den : ℂ) ≠ 0 := by exact_mod_cast t.den_nz
  have hn : (t.num : ℂ) = t * t.den := by
    have : (t.num : ℚ) = t * t.den := (Rat.mul_den_eq_num t).symm
    exact_mod_cast this
  push_cast at h2
  rw [hn] at h2
  have : ((t.den:ℂ) * t.den) * (rootQ t * rootQ t) = ((t.den:ℂ) * t.den) * t := by
    linear_combination h2
  exact mul_left_cancel₀ (mul_ne_zero hd hd) this

theorem fromRationals_eq (cfg : Cfg) (a b r : ℚ) :
    fromRationals cfg a b r =
      new cfg (a.num * (b.den * r.den)) (b.num * a.den) (a.den * (b.den * r.den)) (r.num * r.den) := by
  have hd' : (0:ℤ) < r.den := by exact_mod_cast r.den_pos
  have : r.num * (r.den : ℤ) < 0 ↔ r < 0 := by
    rw [← not_le, mul_nonneg_iff_of_pos_right hd', Rat.num_nonneg, not_le]
  unfold fromRationals new
  simp only [this]

theorem fromRationals_spec (a b : ℚ) {r : ℚ} (hr : cfg.complex = false → 0 ≤ r) :
    ∃ s, fromRationals cfg a b r = .ok s ∧ s.valC = a + b * rootQ r ∧ s.Ok cfg := by
  rw [fromRationals_eq]
  have ha := rat_den_ne a
  have hb := rat_den_ne b
  have hrd := rat_den_ne r
  have hd' : (0:ℤ) < r.den := by exact_mod_cast r.den_pos
  have hpos : 0 ≤ r.num * (r.den : ℤ) ↔ 0 ≤ r := by
    rw [mul_nonneg_iff_of_pos_right hd', Rat.num_nonneg]
  have hz : (a.den : ℤ) * (b.den * r.den) ≠ 0 := by
    have := a.den_nz; have := b.den_nz; have := r.den_nz
    positivity
  obtain ⟨t, h1, h2, h3, _⟩ := new_spec (cfg := cfg) (a := a.num * (b.den * r.den))
    (b := b.num * a.den) (r := r.num * r.den) hz (fun h => hpos.mpr (hr h))
  refine ⟨t, h1, ?_, h3⟩
  rw [h2]
  unfold quadC
  rw [rootC_num_den, rat_cast_eq a, rat_cast_eq b]
  push_cast at ha hb hrd ⊢
  field_simp

/-! ### square roots of integers and rationals -/

theorem fromSqrtRat_neg {fits : ℤ → Bool} {t : ℚ} (h : cfg.complex = false ∧ t < 0) :
    fromSqrtRat cfg fits t = .ok (.error ⟨t, .complex⟩) := by
  unfold fromSqrtRat; rw [if_pos h]

theorem fromSqrtRat_ok {fits : ℤ → Bool} {t : ℚ} (h : ¬ (cfg.complex = false ∧ t < 0))
    (hf : t.den = 1 ∨ fits (t.num * t.den) = true) :
    ∃ s, fromSqrtRat cfg fits t = .ok (.ok s) ∧ s.valC = rootQ t ∧ s.Ok cfg := by
  have hr : cfg.complex = false → 0 ≤ t := fun hc => by
    by_contra hn; exact h ⟨hc, not_le.mp hn⟩
  have hd' : (0:ℤ) < t.den := by exact_mod_cast t.den_pos
  have hpos : 0 ≤ t.num * (t.den : ℤ) ↔ 0 ≤ t := by
    rw [mul_nonneg_iff_of_pos_right hd', Rat.num_nonneg]
  unfold fromSqrtRat
  rw [if_neg h]
  have key := rootC_num_den t
  have hd : (t.den : ℂ) ≠ 0 := by exact_mod_cast t.den_nz
  by_cases h1 : t.den = 1
  · rw [if_pos h1]
    obtain ⟨s, e, h2, h3, _⟩ := new_spec (cfg := cfg) (a := 0) (b := 1) (c := 1) (r := t.num)
      one_ne_zero (fun hc => Rat.num_nonneg.mpr (hr hc))
    rw [e, ok_bind]
    refine ⟨s, rfl, ?_, h3⟩
    rw [h1] at key
    simp only [Nat.cast_one, mul_one, one_mul] at key
    rw [h2]; simp [quadC, key]
  · rw [if_neg h1, if_pos (hf.resolve_left h1)]
    obtain ⟨s, e, h2, h3, _⟩ := new_spec (cfg := cfg) (a := 0) (b := 1) (c := t.den)
      (r := t.num * t.den) hd'.ne' (fun hc => hpos.mpr (hr hc))
    rw [e, ok_bind]
    refine ⟨s, rfl, ?_, h3⟩
    rw [h2]; unfold quadC; rw [key]
    push_cast
    field_simp; ring

theorem fromSqrtRat_overflow {fits : ℤ → Bool} {t : ℚ} (h : ¬ (cfg.complex = false ∧ t < 0))
    (h1 : t.den ≠ 1) (hf : ¬ fits (t.num * t.den) = true) :
    fromSqrtRat cfg fits t = .ok (.error ⟨t, .overflow⟩) := by
  unfold fromSqrtRat; rw [if_neg h, if_neg h1, if_neg hf]

/-! ### the search for `(a + b√r)/c` with a given square -/

/-- what `get_abc` computes: `none` exactly if `y·g/2` is not a rational square, otherwise
integers with `a/b = g`, `c² = 2ab/y` and `a > 0`. -/
theorem getAbc_spec {g y : ℚ} (hg : g ≠ 0) (hy : y ≠ 0) :
    (getAbc g y = .ok none ∧ ¬ IsSquare (y * g / 2)) ∨
    ∃ a b c : ℤ, getAbc g y = .ok (some (a, b, c)) ∧ 0 < a ∧ b ≠ 0 ∧ 0 < c ∧
      (a : ℚ) = g * b ∧ (c : ℚ) * c * y = 2 * a * b ∧ (0 < b ↔ 0 < y) := by
  have hgn : g.num ≠ 0 := Rat.num_ne_zero.mpr hg
  have hyn : y.num ≠ 0 := Rat.num_ne_zero.mpr hy
  have hgd : (0:ℤ) < g.den := by exact_mod_cast g.den_pos
  have hyd : (0:ℤ) < y.den := by exact_mod_cast y.den_pos
  have hgq : (g.num : ℚ) = g * g.den := (Rat.mul_den_eq_num g).symm
  have hyq : (y.num : ℚ) = y * y.den := (Rat.mul_den_eq_num y).symm
  unfold getAbc
  obtain ⟨m, hm⟩ : ∃ m, m = 2 * g.num * (g.den : ℤ) := ⟨_, rfl⟩
  rw [← hm]
  simp only
  have hm0 : m ≠ 0 := by rw [hm]; exact mul_ne_zero (mul_ne_zero two_ne_zero hgn) hgd.ne'
  have hd0 : 0 < igcd m y.num := igcd_pos_right m hyn
  obtain ⟨d, hdd⟩ : ∃ d, d = igcd m y.num := ⟨_, rfl⟩
  have hdl : d ∣ m := hdd ▸ igcd_dvd_left m y.num
  have hdr : d ∣ y.num := hdd ▸ igcd_dvd_right m y.num
  rw [← hdd] at hd0 ⊢
  rw [divR_ok hd0.ne', ok_bind]
  obtain ⟨sc, hsc⟩ : ∃ sc, sc = y.num.tdiv d := ⟨_, rfl⟩
  have hs : sc * d = y.num := hsc ▸ tdiv_mul_of_dvd hdr
  rw [← hsc]
  have hs0 : sc ≠ 0 := by rintro rfl; simp at hs; exact hyn hs.symm
  rw [divR_ok hyn, ok_bind]
  obtain ⟨m', hm'⟩ := hdl
  have hc2 : (m * sc * sc * (y.den:ℤ)).tdiv y.num = m' * sc * y.den := by
    have : m * sc * sc * (y.den:ℤ) = (m' * sc * y.den) * y.num := by rw [← hs, hm']; ring
    rw [this, Int.mul_tdiv_cancel _ hyn]
  rw [hc2]
  obtain ⟨c2, hc2e⟩ : ∃ c2, c2 = m' * sc * (y.den : ℤ) := ⟨_, rfl⟩
  rw [← hc2e]
  have hsy : 0 < sc ↔ 0 < y := by
    rw [← Rat.num_pos, ← hs]
    exact (mul_pos_iff_of_pos_right hd0).symm
  -- c2 * y = 2 a b
  have hkey : (c2 : ℚ) * y = 2 * (g.num * sc) * (g.den * sc) := by
    have hdq : (d:ℚ) ≠ 0 := by exact_mod_cast hd0.ne'
    have e1 : (m':ℚ) * d = 2 * g.num * g.den := by
      have : d * m' = 2 * g.num * (g.den:ℤ) := by rw [← hm', hm]
      rw [mul_comm]; exact_mod_cast this
    have e2 : (sc:ℚ) * d = y * y.den := by rw [← hyq]; exact_mod_cast hs
    rw [hc2e]; push_cast
    apply mul_right_cancel₀ hdq
    linear_combination (sc:ℚ) * y * y.den * e1 - 2 * g.num * g.den * sc * e2
  have hc20 : c2 ≠ 0 := by
    rw [hc2e]
    have : m' ≠ 0 := by rintro rfl; simp at hm'; exact hm0 hm'
    exact mul_ne_zero (mul_ne_zero this hs0) hyd.ne'
  have hsq : IsSquare c2 ↔ IsSquare (y * g / 2) := by
    have e : (c2 : ℚ) = (2 * g.den * sc / y) * (2 * g.den * sc / y) * (y * g / 2) := by
      rw [hgq] at hkey
      field_simp
      linear_combination hkey
    have hne : (2 * g.den * sc / y : ℚ) ≠ 0 := by
      have h1 : (g.den : ℚ) ≠ 0 := by exact_mod_cast g.den_nz
      have h2 : (sc : ℚ) ≠ 0 := by exact_mod_cast hs0
      exact div_ne_zero (mul_ne_zero (mul_ne_zero two_ne_zero h1) h2) hy
    constructor
    · rintro ⟨k, hk⟩
      refine ⟨k / (2 * g.den * sc / y), ?_⟩
      have hk' : (c2:ℚ) = k * k := by exact_mod_cast hk
      rw [div_mul_div_comm, eq_div_iff (mul_ne_zero hne hne), ← hk', e]; ring
    · rintro ⟨k, hk⟩
      apply isSquare_of_rat (q := (2 * g.den * sc / y) * k)
      rw [e, hk]; ring
  by_cases hneg : c2 < 0
  · rw [if_pos hneg]
    exact .inl ⟨rfl, fun h => not_isSquare_of_neg hneg (hsq.mpr h)⟩
  · rw [if_neg hneg]
    push Not at hneg
    rw [sqrtR_ok hneg, ok_bind]
    by_cases hq : IsSquare c2
    · right
      have e := (isqrt_mul_self_eq_iff hneg).mpr hq
      refine ⟨g.num * sc, g.den * sc, isqrt c2, ?_, ?_, mul_ne_zero hgd.ne' hs0, ?_, ?_, ?_, ?_⟩
      · rw [if_neg (not_not.mpr e)]; rfl
      · have hcp : 0 < c2 := lt_of_le_of_ne hneg (Ne.symm hc20)
        have hcq : (0:ℚ) < c2 := by exact_mod_cast hcp
        have hgdq : (0:ℚ) < g.den := by exact_mod_cast g.den_pos
        have : (0:ℚ) < g.num * sc := by
          rcases lt_or_gt_of_ne hy with hy' | hy'
          · have hscn : sc < 0 := lt_of_le_of_ne (not_lt.mp (fun h => absurd (hsy.mp h) (not_lt.mpr hy'.le))) hs0
            have hscq : (sc:ℚ) < 0 := by exact_mod_cast hscn
            have h1 : (c2:ℚ) * y < 0 := mul_neg_of_pos_of_neg hcq hy'
            rw [hkey] at h1
            have h2 : (g.den:ℚ) * sc < 0 := mul_neg_of_pos_of_neg hgdq hscq
            by_contra hn
            push Not at hn
            nlinarith
          · have hscq : (0:ℚ) < sc := by exact_mod_cast hsy.mpr hy'
            have h1 : 0 < (c2:ℚ) * y := mul_pos hcq hy'
            rw [hkey] at h1
            have h2 : 0 < (g.den:ℚ) * sc := mul_pos hgdq hscq
            by_contra hn
            push Not at hn
            nlinarith
        exact_mod_cast this
      · rcases lt_or_eq_of_le (isqrt_nonneg c2) with h | h
        · exact h
        · rw [← h] at e; simp at e; exact absurd e.symm hc20
      · push_cast; rw [hgq]; ring
      · have e' : (isqrt c2 : ℚ) * isqrt c2 = c2 := by exact_mod_cast e
        rw [e', hkey]; push_cast; ring
      · rw [mul_pos_iff_of_pos_left hgd]; exact hsy
    · left
      refine ⟨?_, fun h => hq (hsq.mpr h)⟩
      rw [if_pos (fun e => hq ((isqrt_mul_self_eq_iff hneg).mp e))]; rfl

/-- squares of surds that are irrational surds -/
theorem sq_decomp {r s : ℤ} (hr : ¬ IsSquare r) {X Y p q : ℚ} (hY : Y ≠ 0)
    (h : ((p : ℂ) + q * rootC s) * (p + q * rootC s) = X + Y * rootC r) :
    p * p + q * q * s = X ∧ 4 * (p * p) * (q * q * s) = Y * Y * r := by
  have e : ((p * p + q * q * s : ℚ) : ℂ) + ((2 * p * q : ℚ) : ℂ) * rootC s = X + Y * rootC r := by
    push_cast
    rw [← h]; linear_combination -(q:ℂ)^2 * rootC_mul_self s
  obtain ⟨h1, h2⟩ := two_root_eq hr hY e
  refine ⟨h1, ?_⟩
  have h3 : (((2 * p * q : ℚ) : ℂ) * rootC s) * (((2 * p * q : ℚ) : ℂ) * rootC s) =
      (Y * rootC r) * (Y * rootC r) := by rw [h2]
  have h4 : (4 * (p * p) * (q * q * s) : ℂ) = Y * Y * r := by
    push_cast at h3
    linear_combination h3 + (Y:ℂ)^2 * rootC_mul_self r - 4 * (p:ℂ)^2 * q^2 * rootC_mul_self s
  exact_mod_cast h4

theorem reconstruct_spec {xy y : ℚ} {r : ℤ} (hr : cfg.complex = false → 0 ≤ r)
    (k : SqrtErrKind) :
    ∃ e, reconstruct cfg xy y r k = .ok ⟨e, k⟩ ∧ e.valC = y * (xy + rootC r) ∧ e.Ok cfg := by
  obtain ⟨s, h1, h2, h3⟩ := fromRationals_spec (cfg := cfg) (xy * y) y (r := (r:ℚ))
    (fun h => by exact_mod_cast hr h)
  refine ⟨s, ?_, ?_, h3⟩
  · unfold reconstruct; rw [h1]; rfl
  · rw [h2]
    have : rootQ (r:ℚ) = rootC r := by
      have := rootC_num_den (r:ℚ)
      simpa using this.symm
    rw [this]; push_cast; ring

theorem new_found {r a b c : ℤ} {xy y g : ℚ} (hrs : ¬ IsSquare r)
    (hr : cfg.complex = false → 0 ≤ r) (hg : g * g - 2 * g * xy + r = 0)
    (ha : 0 < a) (hb : b ≠ 0) (hc : 0 < c) (hab : (a : ℚ) = g * b) (hcc : (c : ℚ) * c * y = 2 * a * b)
    (hsg : 0 < b ↔ 0 < y) :
    ∃ s, new cfg a b c r = .ok s ∧ s.valC * s.valC = y * (xy + rootC r) ∧ s.Ok cfg ∧ 0 ≤ s.a ∧
      ∃ p q : ℚ, s.valC = p + q * rootC r ∧ 0 < p ∧ q ≠ 0 ∧ (0 < q ↔ 0 < y) := by
  obtain ⟨s, h1, h2, h3, _⟩ := new_spec (cfg := cfg) (a := a) (b := b) (r := r) hc.ne' hr
  have hcC : (c : ℂ) ≠ 0 := by exact_mod_cast hc.ne'
  have hcQ : (0:ℚ) < c := by exact_mod_cast hc
  have haQ : (0:ℚ) < a := by exact_mod_cast ha
  have hbQ : (b:ℚ) ≠ 0 := by exact_mod_cast hb
  have hval : s.valC = ((a / c : ℚ) : ℂ) + ((b / c : ℚ) : ℂ) * rootC r := by
    rw [h2]; unfold quadC; push_cast; ring
  refine ⟨s, h1, ?_, h3, ?_, a / c, b / c, hval, div_pos haQ hcQ, div_ne_zero hbQ hcQ.ne', ?_⟩
  · rw [h2]; unfold quadC
    have e1 : (a:ℂ) = g * b := by exact_mod_cast hab
    have e2 : (c:ℂ) * c * y = 2 * a * b := by exact_mod_cast hcc
    have e3 : (g:ℂ) * g - 2 * g * xy + r = 0 := by exact_mod_cast hg
    rw [div_mul_div_comm, div_eq_iff (mul_ne_zero hcC hcC)]
    rw [e1] at e2 ⊢
    have e4 : rootC r * rootC r = r := rootC_mul_self r
    linear_combination (b:ℂ)^2 * e3 + (b:ℂ)^2 * e4 - (xy + rootC r) * e2
  · have hbne : (Rat.divInt s.b s.c) ≠ 0 := by
      intro e0
      rw [Rat.divInt_eq_zero h3.ne_zero] at e0
      have h4 := h3.rational.mp e0
      rw [valC_of_r_zero h3.toNormal h4] at hval
      have := root_coeff_eq hrs (x := Rat.divInt s.a s.c) (y := 0) (x' := a / c) (y' := b / c)
        (by rw [← hval]; simp)
      have := this.2
      exact div_ne_zero hbQ hcQ.ne' this.symm
    have hsr : s.r ≠ 0 := fun e => hbne (by rw [h3.rational.mpr e]; simp)
    rw [valC_coords s] at hval
    have := (two_root_eq (h3.irrational hsr) hbne hval.symm).1
    have hpos : 0 ≤ Rat.divInt s.a s.c := by rw [← this]; exact (div_pos haQ hcQ).le
    rwa [Rat.divInt_nonneg_iff_of_pos_right h3.c_pos] at hpos
  · rw [← hsg, div_pos_iff_of_pos_right hcQ]; exact_mod_cast Iff.rfl

theorem fromSqrtFinish_spec {r : ℤ} {xy y δ : ℚ} (hrs : ¬ IsSquare r)
    (hr : cfg.complex = false → 0 ≤ r) (hy : y ≠ 0) (hd : δ * δ = xy * xy - r) :
    (∃ s, fromSqrtFinish cfg xy y δ r = .ok (.ok s) ∧ s.valC * s.valC = y * (xy + rootC r) ∧
      s.Ok cfg ∧ ∃ p q : ℚ, s.valC = p + q * rootC r ∧ 0 < p ∧ q ≠ 0 ∧ (0 < q ↔ 0 < y)) ∨
    (∃ e, fromSqrtFinish cfg xy y δ r = .ok (.error ⟨e, .unrepresentable⟩) ∧
      e.valC = y * (xy + rootC r) ∧ e.Ok cfg ∧
      ¬ IsSquare (y * (xy - δ) / 2) ∧ ¬ IsSquare (y * (xy + δ) / 2)) := by
  have hr0 : (r:ℚ) ≠ 0 := by exact_mod_cast not_isSquare_ne_zero hrs
  have h1 : xy - δ ≠ 0 := fun e => hr0 (by linear_combination (xy + δ) * e + hd)
  have h2 : xy + δ ≠ 0 := fun e => hr0 (by linear_combination (xy - δ) * e + hd)
  unfold fromSqrtFinish
  rcases getAbc_spec h1 hy with ⟨e1, n1⟩ | ⟨a, b, c, e1, ha, hb, hc, hab, hcc, hsg⟩
  · rw [e1, ok_bind]
    simp only
    rcases getAbc_spec h2 hy with ⟨e2, n2⟩ | ⟨a, b, c, e2, ha, hb, hc, hab, hcc, hsg⟩
    · right
      rw [e2, ok_bind]
      simp only
      obtain ⟨e, h3, h4, h5⟩ := reconstruct_spec (xy := xy) (y := y) hr .unrepresentable
      refine ⟨e, ?_, h4, h5, n1, n2⟩
      rw [h3]; rfl
    · left
      rw [e2, ok_bind]
      simp only
      obtain ⟨s, h3, h4, h5, h6, h7⟩ := new_found hrs hr (by linear_combination hd) ha hb hc hab hcc hsg
      refine ⟨s, ?_, h4, h5, h7⟩
      rw [h3, ok_bind, if_neg (by omega)]; rfl
  · left
    rw [e1, ok_bind]
    simp only
    obtain ⟨s, h3, h4, h5, h6, h7⟩ := new_found hrs hr (by linear_combination hd) ha hb hc hab hcc hsg
    refine ⟨s, ?_, h4, h5, h7⟩
    rw [h3, ok_bind, if_neg (by omega)]; rfl

/-- what `from_sqrt` on an irrational surd does -/
structure SqrtOut (cfg : Cfg) (fits : ℤ → Bool) (t : Surd)
    (o : Except (SqrtErr Surd) Surd) : Prop where
  ok : ∀ s, o = .ok s → s.valC * s.valC = t.valC ∧ s.Ok cfg ∧
    (t.r ≠ 0 → ∃ p q : ℚ, s.valC = p + q * rootC t.r ∧ 0 < p ∧ q ≠ 0 ∧ (0 < q ↔ 0 < t.b)) ∧
    (t.r = 0 → s.valC = rootQ (Rat.divInt t.a t.c))
  err : ∀ e, o = .error e → e.data.valC = t.valC ∧ e.data.Ok cfg
  cpx : ∀ e, o = .error e → e.kind = .complex → cfg.complex = false ∧ t.val < 0
  ovf : ∀ e, o = .error e → e.kind = .overflow → ∃ n : ℤ, fits n = false
  unr : ∀ e, o = .error e → e.kind = .unrepresentable →
    ∀ (p q : ℚ) (s : ℤ), ((p : ℂ) + q * rootC s) * (p + q * rootC s) ≠ t.valC

theorem fromSqrtSurdIrr_spec {fits : ℤ → Bool} {t : Surd} (h : t.Ok cfg) (hr0 : t.r ≠ 0) :
    ∃ o, fromSqrtSurdIrr cfg fits t = .ok o ∧ SqrtOut cfg fits t o := by
  have hrs := h.irrational hr0
  have hb : t.b ≠ 0 := fun e => hr0 (h.rational.mp e)
  have hcQ : (0:ℚ) < t.c := by exact_mod_cast h.c_pos
  have hbQ : (t.b : ℚ) ≠ 0 := by exact_mod_cast hb
  obtain ⟨X, hX⟩ : ∃ X, X = Rat.divInt t.a t.c := ⟨_, rfl⟩
  obtain ⟨y, hye⟩ : ∃ y, y = Rat.divInt t.b t.c := ⟨_, rfl⟩
  have hyq : y = t.b / t.c := by rw [hye, Rat.divInt_eq_div]
  have hy : y ≠ 0 := by rw [hyq]; exact div_ne_zero hbQ hcQ.ne'
  have hypos : 0 < y ↔ 0 < t.b := by
    rw [hyq, div_pos_iff_of_pos_right hcQ]; exact_mod_cast Iff.rfl
  have htv : t.valC = y * (((X / y : ℚ)) + rootC t.r) := by
    have hyC : (y:ℂ) ≠ 0 := by exact_mod_cast hy
    rw [valC_coords t, ← hX, ← hye]; push_cast; field_simp
  -- a square root of the target forces `delta2` to be a rational square
  have main : ∀ (p q : ℚ) (s : ℤ), ((p : ℂ) + q * rootC s) * (p + q * rootC s) = t.valC →
      ∃ u : ℚ, u * u = X / y * (X / y) - t.r ∧ y * (X / y + u) / 2 = p * p := by
    intro p q s e
    have e' : ((p : ℂ) + q * rootC s) * (p + q * rootC s) = X + y * rootC t.r := by
      rw [e, valC_coords t, ← hX, ← hye]
    obtain ⟨e1, e2⟩ := sq_decomp hrs hy e'
    refine ⟨(p * p - q * q * s) / y, ?_, ?_⟩
    · field_simp
      linear_combination -e2 + (X + (p*p + q*q*s)) * e1
    · rw [← e1]; field_simp; ring
  unfold fromSqrtSurdIrr
  rw [ratioNew_ok h.ne_zero, ok_bind, ratioNew_ok h.ne_zero, ok_bind, ← hX, ← hye]
  rw [show ratioDiv X y = .ok (X / y) by unfold ratioDiv; rw [if_neg hy], ok_bind]
  obtain ⟨xy, hxy⟩ : ∃ xy, xy = X / y := ⟨_, rfl⟩
  rw [← hxy] at htv main ⊢
  simp only
  by_cases hneg : xy * xy - t.r < 0
  · rw [if_pos hneg]
    obtain ⟨e, h1, h2, h3⟩ := reconstruct_spec (xy := xy) (y := y) h.real .unrepresentable
    rw [h1, ok_bind]
    refine ⟨_, rfl, ⟨by simp, ?_, ?_, ?_, ?_⟩⟩
    · rintro e' ⟨⟩; exact ⟨by rw [h2, htv], h3⟩
    · rintro e' ⟨⟩ hk; cases hk
    · rintro e' ⟨⟩ hk; cases hk
    · rintro e' ⟨⟩ _ p q s heq
      obtain ⟨u, hu, _⟩ := main p q s heq
      nlinarith [mul_self_nonneg u]
  · rw [if_neg hneg]
    push Not at hneg
    have hnc : ¬ (cfg.complex = false ∧ xy * xy - t.r < 0) := fun hh => absurd hh.2 (not_lt.mpr hneg)
    by_cases hf : (xy * xy - t.r).den = 1 ∨ fits ((xy * xy - t.r).num * (xy * xy - t.r).den) = true
    · obtain ⟨v, hv1, hv2, hv3⟩ := fromSqrtRat_ok hnc hf
      rw [hv1, ok_bind]
      simp only
      by_cases hrat : v.isRational = true
      · rw [if_pos hrat]
        have hvr := hv3.isRational_iff.mp hrat
        have hto : toRational cfg v = .ok (.exact (v.a, v.c)) := by
          unfold toRational
          rw [panicIfComplex_ok hvr.ge, ok_bind, if_pos hvr]; rfl
        rw [hto, ok_bind]
        simp only [Approx.value]
        obtain ⟨δ, hδ⟩ : ∃ δ, δ = Rat.divInt v.a v.c := ⟨_, rfl⟩
        rw [← hδ]
        have hδ2 : δ * δ = xy * xy - t.r := by
          have e1 := valC_of_r_zero hv3.toNormal hvr
          rw [← hδ, hv2] at e1
          have e2 := rootQ_sq (xy * xy - t.r)
          rw [e1] at e2
          exact_mod_cast e2
        rcases fromSqrtFinish_spec hrs h.real hy hδ2 with ⟨s, h1, h2, h3, h4⟩ | ⟨e, h1, h2, h3, n1, n2⟩
        · refine ⟨_, h1, ⟨?_, by simp, by simp, by simp, by simp⟩⟩
          rintro s' ⟨⟩
          refine ⟨by rw [h2, htv], h3, fun _ => ?_, fun h' => absurd h' hr0⟩
          rwa [← hypos]
        · refine ⟨_, h1, ⟨by simp, ?_, ?_, ?_, ?_⟩⟩
          · rintro e' ⟨⟩; exact ⟨by rw [h2, htv], h3⟩
          · rintro e' ⟨⟩ hk; cases hk
          · rintro e' ⟨⟩ hk; cases hk
          · rintro e' ⟨⟩ _ p q s heq
            obtain ⟨u, hu, hu2⟩ := main p q s heq
            have : (u - δ) * (u + δ) = 0 := by linear_combination hu - hδ2
            rcases mul_eq_zero.mp this with h0 | h0
            · have : u = δ := by linarith
              exact n2 ⟨p, by rw [← this, hu2]⟩
            · have : u = -δ := by linarith
              exact n1 ⟨p, by rw [← hu2, this]; ring⟩
      · rw [if_neg hrat]
        obtain ⟨e, h1, h2, h3⟩ := reconstruct_spec (xy := xy) (y := y) h.real .unrepresentable
        rw [h1, ok_bind]
        refine ⟨_, rfl, ⟨by simp, ?_, ?_, ?_, ?_⟩⟩
        · rintro e' ⟨⟩; exact ⟨by rw [h2, htv], h3⟩
        · rintro e' ⟨⟩ hk; cases hk
        · rintro e' ⟨⟩ hk; cases hk
        · rintro e' ⟨⟩ _ p q s heq
          obtain ⟨u, hu, _⟩ := main p q s heq
          obtain ⟨hvb, hvr, hvs⟩ := hv3.toNormal.isRational_false hrat
          have e2 := rootQ_sq (xy * xy - t.r)
          rw [← hv2, ← hu] at e2
          have e3 : (v.valC - u) * (v.valC + u) = 0 := by push_cast at e2; linear_combination e2
          rw [valC_coords v] at e3
          have hbne : Rat.divInt v.b v.c ≠ 0 := by
            rw [Ne, Rat.divInt_eq_zero hv3.ne_zero]; exact hvb
          rcases mul_eq_zero.mp e3 with h0 | h0
          · have := root_lin_indep hvs (x := Rat.divInt v.a v.c - u) (y := Rat.divInt v.b v.c)
              (by rw [Rat.cast_sub]; linear_combination h0)
            exact hbne this.2
          · have := root_lin_indep hvs (x := Rat.divInt v.a v.c + u) (y := Rat.divInt v.b v.c)
              (by rw [Rat.cast_add]; linear_combination h0)
            exact hbne this.2
    · push Not at hf
      rw [fromSqrtRat_overflow hnc hf.1 hf.2, ok_bind]
      simp only
      obtain ⟨e, h1, h2, h3⟩ := reconstruct_spec (xy := xy) (y := y) h.real .overflow
      rw [h1, ok_bind]
      refine ⟨_, rfl, ⟨by simp, ?_, ?_, ?_, ?_⟩⟩
      · rintro e' ⟨⟩; exact ⟨by rw [h2, htv], h3⟩
      · rintro e' ⟨⟩ hk; cases hk
      · rintro e' ⟨⟩ hk; exact ⟨_, by simpa using hf.2⟩
      · rintro e' ⟨⟩ hk; cases hk

end Surd
end NumIrr
