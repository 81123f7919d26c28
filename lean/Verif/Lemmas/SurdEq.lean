/- Helper lemmas: comparing numbers with two different roots. -/
import Verif.Lemmas.SurdBin

namespace NumIrr

/-- two representations over two (possibly different) non-square roots have the same rational part
and the same irrational part -/
theorem two_root_eq {r r' : ℤ} (hr' : ¬ IsSquare r') {p q p' q' : ℚ} (hq' : q' ≠ 0)
    (h : (p : ℂ) + q * rootC r = p' + q' * rootC r') :
    p = p' ∧ (q : ℂ) * rootC r = q' * rootC r' := by
  by_cases hd : p = p'
  · subst hd; exact ⟨rfl, by linear_combination h⟩
  · exfalso
    have h2 : ((q * q * r - (p' - p) * (p' - p) - q' * q' * r' : ℚ) : ℂ)
        + ((-(2 * (p' - p) * q') : ℚ) : ℂ) * rootC r' = 0 := by
      have e : (q : ℂ) * rootC r = (p' - p) + q' * rootC r' := by linear_combination h
      have e2 : ((q : ℂ) * rootC r) * (q * rootC r)
          = ((p' - p) + q' * rootC r') * ((p' - p) + q' * rootC r') := by rw [e]
      push_cast
      linear_combination e2 - (q:ℂ)^2 * rootC_mul_self r + (q':ℂ)^2 * rootC_mul_self r'
    have := (root_lin_indep hr' h2).2
    simp only [neg_eq_zero, mul_eq_zero] at this
    rcases this with (h | h) | h
    · norm_num at h
    · exact hd (by linarith)
    · exact hq' h

namespace Surd
variable {cfg : Cfg} {x y z : Surd}

theorem rat_coords_eq_iff {a c a' c' : ℤ} (hc : c ≠ 0) (hc' : c' ≠ 0) :
    Rat.divInt a c = Rat.divInt a' c' ↔ a * c' = a' * c := Rat.divInt_eq_divInt_iff hc hc'

/-- `==` on different non-zero roots -/
theorem eq_diff_iff (hx : x.Normal) (hy : y.Normal) (hr : x.r ≠ y.r) (hx0 : x.r ≠ 0)
    (hy0 : y.r ≠ 0) :
    eq x y = true ↔ (Rat.divInt x.a x.c = Rat.divInt y.a y.c ∧
      ((Rat.divInt x.b x.c : ℚ) * rootC x.r) ^ 2 = ((Rat.divInt y.b y.c : ℚ) * rootC y.r) ^ 2) := by
  have hxc := hx.c_pos.ne'
  have hyc := hy.c_pos.ne'
  have hxc' : (x.c : ℂ) ≠ 0 := by exact_mod_cast hxc
  have hyc' : (y.c : ℂ) ≠ 0 := by exact_mod_cast hyc
  unfold eq
  rw [if_neg hr, if_neg (by tauto), rat_coords_eq_iff hxc hyc]
  have key : ((Rat.divInt x.b x.c : ℚ) * rootC x.r) ^ 2 = ((Rat.divInt y.b y.c : ℚ) * rootC y.r) ^ 2
      ↔ x.b * x.b * x.r * y.c * y.c = y.b * y.b * y.r * x.c * x.c := by
    rw [mul_pow, mul_pow, rootC_sq, rootC_sq, divInt_cast, divInt_cast, div_pow, div_pow,
      div_mul_eq_mul_div, div_mul_eq_mul_div, div_eq_div_iff (pow_ne_zero 2 hxc') (pow_ne_zero 2 hyc')]
    constructor
    · intro h
      have : ((x.b * x.b * x.r * y.c * y.c : ℤ) : ℂ) = ((y.b * y.b * y.r * x.c * x.c : ℤ) : ℂ) := by
        push_cast; linear_combination h
      exact_mod_cast this
    · intro h
      have : ((x.b * x.b * x.r * y.c * y.c : ℤ) : ℂ) = ((y.b * y.b * y.r * x.c * x.c : ℤ) : ℂ) := by
        exact_mod_cast h
      push_cast at this; linear_combination this
  rw [key]
  split
  · next h => simp; intro h2; exact absurd h2 h
  · next h => push Not at h; simp [h]

theorem conj_coords (y : Surd) : (conj y).valC =
    ((Rat.divInt y.a y.c : ℚ) : ℂ) - ((Rat.divInt y.b y.c : ℚ) : ℂ) * rootC y.r := by
  rw [divInt_cast, divInt_cast]
  unfold valC quadC conj Coeffs.conj coeffs
  push_cast; ring

theorem normal_ext (hx : x.Normal) (hy : y.Normal) (h1 : x.a * y.c = y.a * x.c)
    (h2 : x.b * y.c = y.b * x.c) : x.a = y.a ∧ x.b = y.b ∧ x.c = y.c := by
  -- each denominator divides the other
  have dvd : ∀ {x y : Surd}, x.Normal → y.Normal → x.a * y.c = y.a * x.c → x.b * y.c = y.b * x.c →
      x.c ∣ y.c := by
    intro x y hx hy h1 h2
    have hg := igcd_pos_right y.c hx.c_pos.ne'
    have e1 := tdiv_mul_of_dvd (igcd_dvd_left y.c x.c)
    have e2 := tdiv_mul_of_dvd (igcd_dvd_right y.c x.c)
    have hcop : IsCoprime (x.c.tdiv (igcd y.c x.c)) (y.c.tdiv (igcd y.c x.c)) := by
      have hb := Int.gcd_eq_gcd_ab y.c x.c
      have hgz : ((Int.gcd y.c x.c : ℕ) : ℤ) = igcd y.c x.c := rfl
      rw [hgz] at hb
      generalize igcd y.c x.c = g at *
      refine ⟨Int.gcdB y.c x.c, Int.gcdA y.c x.c, ?_⟩
      apply mul_right_cancel₀ hg.ne'
      conv_rhs => rw [one_mul, hb]
      conv_rhs => rw [← e1, ← e2]
      rw [e1, e2]
      linear_combination (Int.gcdB y.c x.c) * e2 + (Int.gcdA y.c x.c) * e1
    generalize hgg : igcd y.c x.c = g at *
    have d1 : x.c.tdiv g ∣ x.a := by
      have : x.a * y.c.tdiv g = y.a * x.c.tdiv g := by
        apply mul_right_cancel₀ hg.ne'
        linear_combination h1 + x.a * e1 - y.a * e2
      exact hcop.dvd_of_dvd_mul_right ⟨y.a, by linarith⟩
    have d2 : x.c.tdiv g ∣ x.b := by
      have : x.b * y.c.tdiv g = y.b * x.c.tdiv g := by
        apply mul_right_cancel₀ hg.ne'
        linear_combination h2 + x.b * e1 - y.b * e2
      exact hcop.dvd_of_dvd_mul_right ⟨y.b, by linarith⟩
    have d3 : x.c.tdiv g ∣ x.c := ⟨g, e2.symm⟩
    have hu := hx.coprime _ d1 d2 d3
    have : x.c ∣ g := by
      conv_lhs => rw [← e2]
      rcases Int.isUnit_iff.mp hu with h | h <;> rw [h] <;> simp
    exact this.trans (hgg ▸ igcd_dvd_left _ _)
  have hc : x.c = y.c :=
    Int.dvd_antisymm hx.c_pos.le hy.c_pos.le (dvd hx hy h1 h2) (dvd hy hx h1.symm h2.symm)
  rw [hc] at h1 h2
  have := hy.c_pos.ne'
  exact ⟨mul_right_cancel₀ this h1, mul_right_cancel₀ this h2, hc⟩

/-- equal roots: the fields decide the number -/
theorem fields_of_valC_eq (hx : x.Normal) (hy : y.Normal) (hr : x.r = y.r)
    (h : x.valC = y.valC) : x.a = y.a ∧ x.b = y.b ∧ x.c = y.c := by
  have hxc := hx.c_pos.ne'
  have hyc := hy.c_pos.ne'
  apply normal_ext hx hy
  · by_cases h0 : x.r = 0
    · have e1 := valC_of_r_zero hx h0
      have e2 := valC_of_r_zero hy (hr ▸ h0)
      rw [e1, e2] at h
      exact (rat_coords_eq_iff hxc hyc).mp (by exact_mod_cast h)
    · rw [valC_coords, valC_coords, hr] at h
      exact (rat_coords_eq_iff hxc hyc).mp (root_coeff_eq (hr ▸ hx.irrational h0) h).1
  · by_cases h0 : x.r = 0
    · have e1 := hx.rational.mpr h0
      have e2 := hy.rational.mpr (hr ▸ h0)
      rw [e1, e2]; simp
    · rw [valC_coords, valC_coords, hr] at h
      exact (rat_coords_eq_iff hxc hyc).mp (root_coeff_eq (hr ▸ hx.irrational h0) h).2

theorem valC_ne_of_rational (hx : x.Normal) (hy : y.Normal) (hx0 : x.r = 0) (hy0 : y.r ≠ 0) :
    x.valC ≠ y.valC := by
  intro h
  rw [valC_of_r_zero hx hx0, valC_coords y] at h
  have hb : Rat.divInt y.b y.c ≠ 0 := by
    rw [Ne, Rat.divInt_eq_zero hy.c_pos.ne']
    exact fun e => hy0 (hy.rational.mp e)
  have := two_root_eq (r := 0) (p := Rat.divInt x.a x.c) (q := 0) (hy.irrational hy0) hb (by simpa using h)
  have h2 := this.2
  simp only [rootC_zero, mul_zero] at h2
  rcases mul_eq_zero.mp h2.symm with h | h
  · exact hb (by exact_mod_cast h)
  · exact rootC_ne_zero hy0 h

end Surd
end NumIrr
