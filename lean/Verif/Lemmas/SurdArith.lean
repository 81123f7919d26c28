/- Helper lemmas for surd arithmetic: products of roots, real versus complex values. -/
import Verif.Lemmas.SurdOps

namespace NumIrr

theorem rootC_mul {r s : ℤ} (h : 0 ≤ r ∨ 0 ≤ s) : rootC (r * s) = rootC r * rootC s := by
  wlog hr : 0 ≤ r generalizing r s with H
  · have hs : 0 ≤ s := h.resolve_left hr
    rw [mul_comm r s, mul_comm (rootC r), H (.inl hs) hs]
  have hr' : (0:ℝ) ≤ r := by exact_mod_cast hr
  rcases eq_or_lt_of_le hr with h0 | h0
  · subst h0; simp
  by_cases hs : 0 ≤ s
  · have : 0 ≤ r * s := mul_nonneg hr hs
    rw [rootC_of_nonneg hr, rootC_of_nonneg hs, rootC_of_nonneg this]
    push_cast
    rw [Real.sqrt_mul hr']; push_cast; rfl
  · have hn : ¬ 0 ≤ r * s := by
      push Not at hs ⊢; exact mul_neg_of_pos_of_neg h0 hs
    rw [rootC_of_nonneg hr]
    unfold rootC
    rw [if_neg hn, if_neg hs]
    push_cast
    rw [show (-((r:ℝ) * s)) = r * (-s) by ring, Real.sqrt_mul hr']
    push_cast; ring

theorem rootC_mul_neg {r s : ℤ} (hr : r < 0) (hs : s < 0) : rootC (r * s) = -(rootC r * rootC s) := by
  have hn : 0 ≤ r * s := (mul_pos_of_neg_of_neg hr hs).le
  have h1 : (0:ℝ) ≤ -r := by have : (r:ℝ) < 0 := by exact_mod_cast hr
                             linarith
  unfold rootC
  rw [if_pos hn, if_neg (not_le.mpr hr), if_neg (not_le.mpr hs)]
  push_cast
  rw [show ((r:ℝ) * s) = (-r) * (-s) by ring, Real.sqrt_mul h1]
  push_cast
  linear_combination ((Real.sqrt (-r) : ℂ) * (Real.sqrt (-s) : ℂ)) * Complex.I_mul_I

namespace Surd

/-- the value as two rational coordinates -/
theorem valC_coords (s : Surd) :
    s.valC = ((Rat.divInt s.a s.c : ℚ) : ℂ) + ((Rat.divInt s.b s.c : ℚ) : ℂ) * rootC s.r := by
  rw [divInt_cast, divInt_cast]
  unfold valC quadC
  ring

theorem valC_ne_zero_of_b {s : Surd} (hc : s.c ≠ 0) (hb : s.b ≠ 0) (hr : ¬ IsSquare s.r) :
    s.valC ≠ 0 := by
  intro e
  rw [valC_coords] at e
  have := (root_lin_indep hr e).2
  rw [Rat.divInt_eq_zero hc] at this
  exact hb this

theorem coords_ne_zero {s : Surd} (hr : ¬ IsSquare s.r) (hv : s.valC ≠ 0) :
    s.a * s.a - s.b * s.b * s.r ≠ 0 := by
  intro e
  apply hv
  have hb : s.b = 0 := by
    by_contra hb
    apply hr
    apply isSquare_of_rat (q := (s.a : ℚ) / s.b)
    have : (s.b : ℚ) ≠ 0 := by exact_mod_cast hb
    field_simp
    have e' : (s.a:ℚ) * s.a - s.b * s.b * s.r = 0 := by exact_mod_cast e
    linear_combination e'
  have ha : s.a = 0 := by
    rw [hb] at e; simp at e; exact e
  unfold valC quadC
  simp [ha, hb]

theorem valC_eq_zero_iff {s : Surd} (h : s.Normal) : s.valC = 0 ↔ s.a = 0 ∧ s.b = 0 := by
  constructor
  · intro e
    by_cases hb : s.b = 0
    · refine ⟨?_, hb⟩
      unfold valC quadC at e
      have hc : (s.c : ℂ) ≠ 0 := by exact_mod_cast h.c_pos.ne'
      rw [hb, div_eq_zero_iff] at e
      have := e.resolve_right hc
      simpa using this
    · exact absurd e (valC_ne_zero_of_b h.c_pos.ne' hb
        (h.irrational (fun e => hb (h.rational.mpr e))))
  · rintro ⟨ha, hb⟩
    unfold valC quadC; simp [ha, hb]

/-- a normal surd with a real value has a non-negative root -/
theorem real_of_valC {s : Surd} (h : s.Normal) {t : ℝ} (e : s.valC = (t : ℂ)) : 0 ≤ s.r := by
  by_contra hn
  have hr : s.r < 0 := not_le.mp hn
  have hb : s.b ≠ 0 := fun hb => hr.ne (h.rational.mp hb)
  have him : s.valC.im = 0 := by rw [e]; simp
  unfold valC quadC rootC at him
  rw [if_neg hn] at him
  have hc : (s.c : ℝ) ≠ 0 := by exact_mod_cast h.c_pos.ne'
  have hcast : ((s.c : ℤ) : ℂ) = ((s.c : ℝ) : ℂ) := by push_cast; rfl
  rw [hcast, Complex.div_ofReal_im] at him
  have hp : 0 < Real.sqrt (-s.r) := by
    apply Real.sqrt_pos.mpr
    have : (s.r:ℝ) < 0 := by exact_mod_cast hr
    linarith
  have hb' : (s.b : ℝ) ≠ 0 := by exact_mod_cast hb
  rw [div_eq_zero_iff] at him
  have := him.resolve_right hc
  simp [Complex.add_im, Complex.mul_im] at this
  rcases this with h | h
  · exact hb h
  · exact hp.ne' h

/-- transfer of a complex statement to the reals -/
theorem real_transfer {s : Surd} (h : s.Normal) {t : ℝ} (e : s.valC = (t : ℂ)) :
    s.RealOk ∧ s.val = t := by
  have hr := real_of_valC h e
  refine ⟨⟨h, hr⟩, ?_⟩
  rw [valC_eq_val hr] at e
  exact_mod_cast e

theorem RealOk.toOk {s : Surd} (h : s.RealOk) (cfg : Cfg) : s.Ok cfg :=
  ⟨h.toNormal, fun _ => h.real⟩

theorem RealOk.valC {s : Surd} (h : s.RealOk) : s.valC = ((s.val : ℝ) : ℂ) := valC_eq_val h.real

/-! ### coefficient arithmetic with a common root -/

section
variable {x y : Surd}

theorem coeffs_add_quad (hx : x.c ≠ 0) (hy : y.c ≠ 0) (hr : x.r = y.r) :
    (x.coeffs.add y.coeffs).c ≠ 0 ∧
    quadC (x.coeffs.add y.coeffs).a (x.coeffs.add y.coeffs).b (x.coeffs.add y.coeffs).c x.r
      = x.valC + y.valC := by
  have hx' : (x.c : ℂ) ≠ 0 := by exact_mod_cast hx
  have hy' : (y.c : ℂ) ≠ 0 := by exact_mod_cast hy
  unfold Coeffs.add coeffs
  simp only
  split
  · next h =>
    refine ⟨hy, ?_⟩
    unfold valC quadC
    rw [← hr, ← h]; push_cast; field_simp; ring
  · refine ⟨mul_ne_zero hy hx, ?_⟩
    unfold valC quadC
    rw [← hr]; push_cast; field_simp; ring

theorem coeffs_sub_quad (hx : x.c ≠ 0) (hy : y.c ≠ 0) (hr : x.r = y.r) :
    (x.coeffs.sub y.coeffs).c ≠ 0 ∧
    quadC (x.coeffs.sub y.coeffs).a (x.coeffs.sub y.coeffs).b (x.coeffs.sub y.coeffs).c x.r
      = x.valC - y.valC := by
  have hx' : (x.c : ℂ) ≠ 0 := by exact_mod_cast hx
  have hy' : (y.c : ℂ) ≠ 0 := by exact_mod_cast hy
  unfold Coeffs.sub coeffs
  simp only
  split
  · next h =>
    refine ⟨hy, ?_⟩
    unfold valC quadC
    rw [← hr, ← h]; push_cast; field_simp; ring
  · refine ⟨mul_ne_zero hy hx, ?_⟩
    unfold valC quadC
    rw [← hr]; push_cast; field_simp; ring

theorem coeffs_mul_quad (hx : x.c ≠ 0) (hy : y.c ≠ 0) (hr : x.r = y.r) :
    (x.coeffs.mul y.coeffs x.r).c ≠ 0 ∧
    quadC (x.coeffs.mul y.coeffs x.r).a (x.coeffs.mul y.coeffs x.r).b
      (x.coeffs.mul y.coeffs x.r).c x.r = x.valC * y.valC := by
  have hx' : (x.c : ℂ) ≠ 0 := by exact_mod_cast hx
  have hy' : (y.c : ℂ) ≠ 0 := by exact_mod_cast hy
  unfold Coeffs.mul coeffs
  refine ⟨mul_ne_zero hx hy, ?_⟩
  unfold valC quadC
  rw [← hr]; push_cast; field_simp
  linear_combination (-(x.b:ℂ) * y.b) * rootC_mul_self x.r

theorem coeffs_div_quad (hx : x.c ≠ 0) (hy : y.c ≠ 0) (hr : x.r = y.r)
    (hn : y.a * y.a - y.b * y.b * y.r ≠ 0) :
    (x.coeffs.div y.coeffs x.r).c ≠ 0 ∧
    quadC (x.coeffs.div y.coeffs x.r).a (x.coeffs.div y.coeffs x.r).b
      (x.coeffs.div y.coeffs x.r).c x.r = x.valC / y.valC := by
  have hx' : (x.c : ℂ) ≠ 0 := by exact_mod_cast hx
  have hy' : (y.c : ℂ) ≠ 0 := by exact_mod_cast hy
  rw [← hr] at hn
  have hn' : (y.a:ℂ) * y.a - y.b * y.b * x.r ≠ 0 := by exact_mod_cast hn
  have hf : ((y.a:ℂ) + y.b * rootC x.r) * (y.a - y.b * rootC x.r) = y.a * y.a - y.b * y.b * x.r := by
    linear_combination (-(y.b:ℂ)^2) * rootC_mul_self x.r
  have hyv : (y.a:ℂ) + y.b * rootC x.r ≠ 0 := by
    intro e; rw [e, zero_mul] at hf; exact hn' hf.symm
  unfold Coeffs.div coeffs
  refine ⟨mul_ne_zero hx hn, ?_⟩
  unfold valC quadC
  rw [← hr]
  push_cast
  rw [div_div_div_eq, div_eq_div_iff (mul_ne_zero hx' hn') (mul_ne_zero hx' hyv)]
  have hR := rootC_mul_self x.r
  generalize rootC x.r = R at *
  linear_combination (x.c * y.c * (-x.a * y.b ^ 2 + x.b * y.b * y.a) : ℂ) * hR
end

end Surd
end NumIrr
