/-
C130: which functions of a surd depend on the number only, and which on how it is stored.
-/
import Verif.Props.Rounding
import Verif.Props.SurdShort
import Verif.Props.RoundTrip
import Verif.Props.CFEq
import Verif.Props.SurdEq

namespace NumIrr
namespace Surd

private theorem squarefree_unique {u v p q : ℤ} (hu : u ≠ 0) (hp : Squarefree p) (hq : Squarefree q)
    (h : u * u * p = v * v * q) : p = q := by
  obtain ⟨g, hg⟩ : ∃ g : ℤ, g = Int.gcd u v := ⟨_, rfl⟩
  have hg0 : g ≠ 0 := by
    rw [hg]; simp [Int.gcd_eq_zero_iff, hu]
  obtain ⟨u', hu'⟩ : g ∣ u := hg ▸ Int.gcd_dvd_left ..
  obtain ⟨v', hv'⟩ : g ∣ v := hg ▸ Int.gcd_dvd_right ..
  have hco : IsCoprime u' v' := by
    rw [Int.isCoprime_iff_gcd_eq_one]
    have h1 : Int.gcd (g * u') (g * v') = g.natAbs * Int.gcd u' v' := Int.gcd_mul_left ..
    rw [← hu', ← hv'] at h1
    have h2 : (Int.gcd u v : ℕ) = g.natAbs := by rw [hg]; simp
    rw [h2] at h1
    have := Int.natAbs_pos.2 hg0
    nlinarith
  have h' : u' * u' * p = v' * v' * q := by
    have : g * g * (u' * u' * p) = g * g * (v' * v' * q) := by rw [hu', hv'] at h; linear_combination h
    exact mul_left_cancel₀ (mul_ne_zero hg0 hg0) this
  have h1 : IsUnit u' := hq u' ((hco.mul_right hco).mul_left (hco.mul_right hco) |>.dvd_of_dvd_mul_left ⟨p, h'.symm⟩)
  have h2 : IsUnit v' := hp v' (((hco.symm.mul_right hco.symm).mul_left (hco.symm.mul_right hco.symm)).dvd_of_dvd_mul_left ⟨q, h'⟩)
  rcases Int.isUnit_iff.1 h1 with h1 | h1 <;> rcases Int.isUnit_iff.1 h2 with h2 | h2 <;> (rw [h1, h2] at h'; linarith)

/-- what two stored forms of one irrational number have in common -/
private theorem related {x y : Surd} (hx : x.Normal) (hy : y.Normal) (hx0 : x.r ≠ 0) (hy0 : y.r ≠ 0)
    (h : x.valC = y.valC) : x.a * y.c = y.a * x.c ∧
      x.b * y.c * (x.b * y.c) * x.r = y.b * x.c * (y.b * x.c) * y.r := by
  have hby : y.b ≠ 0 := fun e => hy0 (hy.rational.1 e)
  rw [valC_coords x, valC_coords y] at h
  have hq : Rat.divInt y.b y.c ≠ 0 := by rw [Ne, Rat.divInt_eq_zero hy.c_pos.ne']; exact hby
  obtain ⟨h1, h2⟩ := two_root_eq (hy.irrational hy0) hq h
  refine ⟨(rat_coords_eq_iff hx.c_pos.ne' hy.c_pos.ne').1 h1, ?_⟩
  have hcx : (x.c : ℂ) ≠ 0 := by exact_mod_cast hx.c_pos.ne'
  have hcy : (y.c : ℂ) ≠ 0 := by exact_mod_cast hy.c_pos.ne'
  rw [divInt_cast, divInt_cast] at h2
  have h4 : (x.b : ℂ) * y.c * rootC x.r = y.b * x.c * rootC y.r := by
    field_simp at h2; linear_combination h2
  have h5 : ((x.b : ℂ) * y.c * rootC x.r) * ((x.b : ℂ) * y.c * rootC x.r) = (y.b * x.c * rootC y.r) * (y.b * x.c * rootC y.r) := by
    rw [h4]
  have e1 := rootC_mul_self x.r
  have e2 := rootC_mul_self y.r
  have : ((x.b : ℂ) * y.c) * (x.b * y.c) * x.r = (y.b * x.c) * (y.b * x.c) * y.r := by
    linear_combination h5 - (x.b * y.c * (x.b * y.c) : ℂ) * e1 + (y.b * x.c * (y.b * x.c) : ℂ) * e2
  exact_mod_cast this

/-- **C130** Over square-free roots a number is stored in one way only; so there every function of a surd is a function of
the number.  The same holds of two surds with the same root. -/
theorem stored_unique (x y : Surd) (hx : x.Normal) (hy : y.Normal)
    (hr : x.r = y.r ∨ ((x.r = 0 ∨ Squarefree x.r) ∧ (y.r = 0 ∨ Squarefree y.r))) (h : x.valC = y.valC) : x = y := by
  suffices hr : x.r = y.r by
    obtain ⟨h1, h2, h3⟩ := fields_of_valC_eq hx hy hr h
    cases x; cases y; simp_all
  rcases hr with hr | ⟨rx, ry⟩
  · exact hr
  by_cases hx0 : x.r = 0
  · by_contra hne
    exact valC_ne_of_rational hx hy hx0 (fun e => hne (hx0.trans e.symm)) h
  by_cases hy0 : y.r = 0
  · exact absurd h.symm (valC_ne_of_rational hy hx hy0 hx0)
  have hbx : x.b ≠ 0 := fun e => hx0 (hx.rational.1 e)
  exact squarefree_unique (mul_ne_zero hbx hy.c_pos.ne') (rx.resolve_left hx0) (ry.resolve_left hy0)
    (related hx hy hx0 hy0 h).2
example : (Surd.mk 1 1 2 5).RealOk ∧ Squarefree (5 : ℤ) := by
  refine ⟨by decide +kernel, ?_⟩
  rw [← Int.squarefree_natAbs]
  exact Nat.prime_five.squarefree

/-- **C130** partial: on two stored forms of one real number the sign tests, `floor`, the tests for rational numbers and
integers, and whether it is zero or one agree.
Missing from the full claim: the functions of `stored_refuted`. -/
theorem stored_same_partial (cfg : Cfg) (x y : Surd) (hx : x.RealOk) (hy : y.RealOk) (h : x.val = y.val) :
    x.isPositive cfg = y.isPositive cfg ∧ x.isNegative cfg = y.isNegative cfg ∧ x.floor cfg = y.floor cfg ∧
    x.isRational = y.isRational ∧ x.isInteger = y.isInteger ∧ x.isZero = y.isZero ∧ x.isOne = y.isOne ∧
    (x.r = 0 → x = y) := by
  have hv : x.valC = y.valC := by rw [hx.valC, hy.valC, h]
  have hrat : x.r = 0 ↔ y.r = 0 := by
    constructor
    · intro e; by_contra hne; exact valC_ne_of_rational hx.toNormal hy.toNormal e hne hv
    · intro e; by_contra hne; exact valC_ne_of_rational hy.toNormal hx.toNormal e hne hv.symm
  have heq : x.r = 0 → x = y := fun e =>
    stored_unique x y hx.toNormal hy.toNormal (.inl (e.trans (hrat.1 e).symm)) hv
  obtain ⟨p, p1, p2⟩ := surd_isPositive cfg x hx
  obtain ⟨p', p1', p2'⟩ := surd_isPositive cfg y hy
  obtain ⟨n, n1, n2⟩ := surd_isNegative cfg x hx
  obtain ⟨n', n1', n2'⟩ := surd_isNegative cfg y hy
  by_cases h0 : x.r = 0
  · have e := heq h0
    subst e
    exact ⟨rfl, rfl, rfl, rfl, rfl, rfl, rfl, heq⟩
  · have h0' : y.r ≠ 0 := fun e => h0 (hrat.2 e)
    have hb : x.b ≠ 0 := fun e => h0 (hx.rational.1 e)
    have hb' : y.b ≠ 0 := fun e => h0' (hy.rational.1 e)
    refine ⟨?_, ?_, (floor_laws cfg x y hx hy 0).1 h, ?_, ?_, ?_, ?_, heq⟩
    · rw [p1, p1']; congr 1; rw [Bool.eq_iff_iff, p2, p2', h]
    · rw [n1, n1']; congr 1; rw [Bool.eq_iff_iff, n2, n2', h]
    · simp [isRational, hb, hb', h0, h0']
    · simp [isInteger, isRational, hb, hb', h0, h0']
    · simp [isZero, hb, hb']
    · simp [isOne, hb, hb']
example : (Surd.mk 10 (-1) 4 60).RealOk ∧ (Surd.mk 5 (-1) 2 15).RealOk := by decide +kernel

/-- **C130** partial: two stored forms of a number with a conjugate of opposite sign are converted to the same continued
fraction. -/
theorem stored_contfrac_partial (cfg : Cfg) (x y : Surd) (hx : x.RealOk) (hy : y.RealOk) (h : x.val = y.val)
    (hn : x.a * x.a < x.r * x.b * x.b) :
    ∃ N c, ∀ fuel, N ≤ fuel → x.toContfrac cfg fuel = some (.ok (some c)) ∧ y.toContfrac cfg fuel = some (.ok (some c)) := by
  have hv : x.valC = y.valC := by rw [hx.valC, hy.valC, h]
  have hx0 : x.r ≠ 0 := fun e => by
    rw [e] at hn
    have := mul_self_nonneg x.a
    omega
  have hy0 : y.r ≠ 0 := fun e => valC_ne_of_rational hy.toNormal hx.toNormal e hx0 hv.symm
  obtain ⟨r1, r2⟩ := related hx.toNormal hy.toNormal hx0 hy0 hv
  have hm : y.a * y.a < y.r * y.b * y.b := by
    have hc := hx.c_pos
    have hc' := hy.c_pos
    have e1 : x.a * x.a * (y.c * y.c) = y.a * y.a * (x.c * x.c) := by
      linear_combination (x.a * y.c + y.a * x.c) * r1
    have e2 : x.r * x.b * x.b * (y.c * y.c) = y.r * y.b * y.b * (x.c * x.c) := by linear_combination r2
    have hcc : 0 < y.c * y.c := mul_pos hc' hc'
    have : y.a * y.a * (x.c * x.c) < y.r * y.b * y.b * (x.c * x.c) := by
      rw [← e1, ← e2]; exact mul_lt_mul_of_pos_right hn hcc
    exact lt_of_mul_lt_mul_right this (mul_self_nonneg _)
  obtain ⟨N, c, h1, h2, h3, -, h4⟩ := surd_toContfrac_returns_partial cfg x hx hn
  obtain ⟨M, e, k1, k2, k3, -, k4⟩ := surd_toContfrac_returns_partial cfg y hy hm
  have s1 := surd_toContfrac_shortest_neg_conj cfg x hx hn N c (h1 N le_rfl)
  have s2 := surd_toContfrac_shortest_neg_conj cfg y hy hm M e (k1 M le_rfl)
  have he : c = e := by
    have := (CF.cf_eq_partial c e h2 h3 k2 k3 s1 s2).2 ⟨x.val, h4, h ▸ k4⟩
    simp [CF.eq] at this
    obtain ⟨⟨i1, i2⟩, i3⟩ := this
    cases c; cases e; simp_all
  exact ⟨max N M, c, fun fuel hf => ⟨h1 fuel (le_trans (le_max_left _ _) hf),
    he ▸ k1 fuel (le_trans (le_max_right _ _) hf)⟩⟩
example : (Surd.mk 2 1 2 12).RealOk ∧ (Surd.mk 1 1 1 3).RealOk ∧
    toContfrac ⟨false, true⟩ 10 ⟨2, 1, 2, 12⟩ = some (.ok (some ⟨[2], [1, 2], false⟩)) ∧
    toContfrac ⟨false, true⟩ 10 ⟨1, 1, 1, 3⟩ = some (.ok (some ⟨[2], [1, 2], false⟩)) := by decide +kernel

/-- **C130** refuted: `new(12, -2, 18, 18)` and `new(2, -1, 3, 2)` are equal, but only the first is converted to a continued
fraction of its value; `new(6, 3, 6, 12)` and `new(1, 1, 1, 3)` are equal, but only the second counts as a quadratic
integer, and their rational approximations differ; and two equal surds have different `trunc`. -/
theorem stored_refuted :
    (∃ x y : Surd, ∃ c e : CF, new ⟨false, true⟩ 12 (-2) 18 18 = .ok x ∧ new ⟨false, true⟩ 2 (-1) 3 2 = .ok y ∧
      eq x y = true ∧ x.val = y.val ∧ toContfrac ⟨false, true⟩ 10 x = some (.ok (some c)) ∧
      toContfrac ⟨false, true⟩ 10 y = some (.ok (some e)) ∧ c.HasVal x.val ∧ ¬ e.HasVal y.val) ∧
    (∃ x y : Surd, ∃ u v : QInt, new ⟨false, true⟩ 6 3 6 12 = .ok x ∧ new ⟨false, true⟩ 1 1 1 3 = .ok y ∧ eq x y = true ∧
      x.toQuadint ⟨false, true⟩ = .ok (.approximated u) ∧ y.toQuadint ⟨false, true⟩ = .ok (.exact v) ∧ u ≠ v ∧
      x.toRational ⟨false, true⟩ = .ok (.approximated (5, 2)) ∧ y.toRational ⟨false, true⟩ = .ok (.approximated (2, 1))) ∧
    ∃ x y : Surd, new ⟨false, true⟩ 30 (-3) 12 60 = .ok x ∧ new ⟨false, true⟩ 5 (-1) 2 15 = .ok y ∧ eq x y = true ∧
      x.trunc ⟨false, true⟩ = .ok zero ∧ y.trunc ⟨false, true⟩ = .ok one := by
  refine ⟨⟨⟨6, -1, 9, 18⟩, ⟨2, -1, 3, 2⟩, ⟨[0, 5], [8, 4], false⟩, ⟨[1, 7], [4, 8], false⟩, ?_⟩,
    ⟨⟨2, 1, 2, 12⟩, ⟨1, 1, 1, 3⟩, ⟨1, 0, 0⟩, ⟨1, 1, 3⟩, by decide +kernel⟩,
    ⟨⟨10, -1, 4, 60⟩, ⟨5, -1, 2, 15⟩, by decide +kernel⟩⟩
  have e1 : toContfrac ⟨false, true⟩ 10 ⟨6, -1, 9, 18⟩ = some (.ok (some ⟨[0, 5], [8, 4], false⟩)) := by decide +kernel
  have e2 : toContfrac ⟨false, true⟩ 10 ⟨2, -1, 3, 2⟩ = some (.ok (some ⟨[1, 7], [4, 8], false⟩)) := by decide +kernel
  have w : RealOk ⟨6, -1, 9, 18⟩ := by decide +kernel
  refine ⟨by decide +kernel, by decide +kernel, by decide +kernel, ?_, e1, e2, ?_, ?_⟩
  · have : √(18 : ℝ) = 3 * √2 := by
      rw [show (18 : ℝ) = 3 ^ 2 * 2 by norm_num, Real.sqrt_mul (by norm_num), Real.sqrt_sq (by norm_num)]
    simp only [val, quadR]; push_cast; rw [this]; ring
  · refine surd_toContfrac_value_partial _ _ w (by decide) (fun hh => hh.1 (by decide)) (fun hh => ?_) 10 _ e1
    have := hh.2.1
    revert this; decide
  · obtain ⟨⟨-, c, g1, -, g2⟩, -⟩ := surd_toContfrac_refuted ⟨false, true⟩
    rw [e2] at g1; cases g1
    exact g2

end Surd
end NumIrr
