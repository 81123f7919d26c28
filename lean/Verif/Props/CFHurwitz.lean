/-
C133: how close consecutive convergents are (Vahlen, Borel, Hurwitz).
-/
import Verif.Props.CFBest
import Verif.Props.CFSurd
import Mathlib.NumberTheory.Real.GoldenRatio

namespace NumIrr
namespace CF

private theorem item_some {c : CF} (h : c.Wf) {n : ℕ} {r : ℚ} (hr : itemAt (ConvIter.next .big) n c.convergents = .ok (some r)) :
    c.HasCoeff n ∧ r = signed c.neg ((c.num n : ℚ) / c.den n) ∧ (r.den : ℤ) = c.den n ∧ 1 ≤ c.den n := by
  rw [(cf_convergents c h n).1] at hr
  by_cases hc : c.HasCoeff n
  · rw [if_pos hc] at hr
    obtain ⟨q, k1, k2, k3, -⟩ := Fx.conv_fields h hc
    rw [k1] at hr
    have hr := Option.some.inj (Except.ok.inj hr)
    exact ⟨hc, by rw [← hr, k2], by rw [← hr, signed_den, k3], trunc_den_pos h hc⟩
  · rw [if_neg hc] at hr
    cases Except.ok.inj hr

/-- the errors of two neighbours add up to `1/(q·q')` -/
private theorem err_sum {c : CF} (h : c.Wf) {x : ℝ} (hx : c.HasVal x) {n : ℕ} {r s : ℚ}
    (hr : itemAt (ConvIter.next .big) n c.convergents = .ok (some r))
    (hs : itemAt (ConvIter.next .big) (n + 1) c.convergents = .ok (some s)) :
    |x - r| + |x - s| = 1 / ((r.den : ℝ) * s.den) := by
  obtain ⟨h1, h2, h3, h4⟩ := item_some h hr
  obtain ⟨k1, k2, k3, k4⟩ := item_some h hs
  have e3 : ((r.den : ℕ) : ℝ) = c.den n := by exact_mod_cast h3
  have e3' : ((s.den : ℕ) : ℝ) = c.den (n + 1) := by exact_mod_cast k3
  have d1 : (0 : ℝ) < c.den n := by exact_mod_cast (by omega : 0 < c.den n)
  have d2 : (0 : ℝ) < c.den (n + 1) := by exact_mod_cast (by omega : 0 < c.den (n + 1))
  have s1 := (conv_side h hx h1).1
  have s2 := (conv_side h hx k1).1
  have a1 : |x - r| = |signed c.neg x - c.num n / c.den n| := by
    rw [h2, signed_cast, ← signed_abs c.neg, ← signed_sub]
    push_cast
    cases c.neg <;> simp [signed]
  have a2 : |x - s| = |signed c.neg x - c.num (n + 1) / c.den (n + 1)| := by
    rw [k2, signed_cast, ← signed_abs c.neg, ← signed_sub]
    push_cast
    cases c.neg <;> simp [signed]
  rw [a1, a2, e3, e3']
  have b1 : (-1) ^ n * (signed c.neg x - c.num n / c.den n) = |signed c.neg x - c.num n / c.den n| := by
    have : 0 ≤ (-1) ^ n * (signed c.neg x - c.num n / c.den n) := by
      have := div_nonneg s1 d1.le
      rwa [show (-1) ^ n * (c.den n * signed c.neg x - c.num n) / c.den n =
        (-1) ^ n * (signed c.neg x - c.num n / c.den n) by field_simp] at this
    rw [← abs_of_nonneg this, abs_mul, abs_pow, abs_neg, abs_one, one_pow, one_mul]
  have b2 : (-1) ^ (n + 1) * (signed c.neg x - c.num (n + 1) / c.den (n + 1)) =
      |signed c.neg x - c.num (n + 1) / c.den (n + 1)| := by
    have : 0 ≤ (-1) ^ (n + 1) * (signed c.neg x - c.num (n + 1) / c.den (n + 1)) := by
      have := div_nonneg s2 d2.le
      rwa [show (-1) ^ (n + 1) * (c.den (n + 1) * signed c.neg x - c.num (n + 1)) / c.den (n + 1) =
        (-1) ^ (n + 1) * (signed c.neg x - c.num (n + 1) / c.den (n + 1)) by field_simp] at this
    rw [← abs_of_nonneg this, abs_mul, abs_pow, abs_neg, abs_one, one_pow, one_mul]
  have hd : |((c.num (n + 1) * c.den n - c.num n * c.den (n + 1) : ℤ) : ℝ)| = 1 := by
    rcases num_den_det c n with e | e <;> rw [e] <;> simp
  have tot : |signed c.neg x - c.num n / c.den n| + |signed c.neg x - c.num (n + 1) / c.den (n + 1)| =
      (-1) ^ n * ((c.num (n + 1) * c.den n - c.num n * c.den (n + 1) : ℤ) : ℝ) / (c.den n * c.den (n + 1)) := by
    rw [← b1, ← b2, pow_succ]; push_cast; field_simp; ring
  have nn : 0 ≤ (-1) ^ n * ((c.num (n + 1) * c.den n - c.num n * c.den (n + 1) : ℤ) : ℝ) := by
    have h0 : 0 ≤ (-1) ^ n * ((c.num (n + 1) * c.den n - c.num n * c.den (n + 1) : ℤ) : ℝ) / (c.den n * c.den (n + 1)) := by
      rw [← tot]; positivity
    by_contra hlt
    exact absurd h0 (not_le.2 (div_neg_of_neg_of_pos (not_le.1 hlt) (mul_pos d1 d2)))
  rw [tot, ← abs_of_nonneg nn, abs_mul, hd, abs_pow, abs_neg, abs_one, one_pow, one_mul]

/-- **C133** (Vahlen) Of two consecutive items of `convergents()` one differs from the number by at most `1/(2q²)`. -/
theorem cf_vahlen (c : CF) (h : c.Wf) (x : ℝ) (hx : c.HasVal x) (n : ℕ) (r s : ℚ)
    (hr : itemAt (ConvIter.next .big) n c.convergents = .ok (some r))
    (hs : itemAt (ConvIter.next .big) (n + 1) c.convergents = .ok (some s)) :
    |x - r| ≤ 1 / (2 * (r.den : ℝ) ^ 2) ∨ |x - s| ≤ 1 / (2 * (s.den : ℝ) ^ 2) := by
  have e := err_sum h hx hr hs
  have d1 : (0 : ℝ) < r.den := by exact_mod_cast r.den_pos
  have d2 : (0 : ℝ) < s.den := by exact_mod_cast s.den_pos
  by_contra hn
  push Not at hn
  have : 1 / (2 * (r.den : ℝ) ^ 2) + 1 / (2 * (s.den : ℝ) ^ 2) - 1 / ((r.den : ℝ) * s.den) =
      (1 / (r.den : ℝ) - 1 / s.den) ^ 2 / 2 := by field_simp; ring
  have h0 := sq_nonneg (1 / (r.den : ℝ) - 1 / s.den)
  linarith [hn.1, hn.2]
example : itemAt (ConvIter.next .big) 0 (convergents ⟨[1], [1, 2], false⟩) = .ok (some 1) ∧
    itemAt (ConvIter.next .big) 1 (convergents ⟨[1], [1, 2], false⟩) = .ok (some 2) := by decide +kernel

private theorem coeff_pos {c : CF} (h : c.Wf) {n : ℕ} (h1 : 1 ≤ n) (hn : c.HasCoeff n) : 1 ≤ coeffAt c.a c.p n := by
  have := trunc_tail_pos (n := n + 1) h (fun i hi => hasCoeff_mono hn i (by omega))
    ((coeffAt c.a c.p n : Nat) : Int) (by
      obtain ⟨m, rfl⟩ : ∃ m, n = m + 1 := ⟨n - 1, by omega⟩
      rw [trunc_succ]
      have : c.trunc (m + 1) ≠ [] := by rw [trunc_succ]; simp
      rw [List.tail_append_of_ne_nil this]
      simp)
  exact_mod_cast this

private theorem den_grow {c : CF} (h : c.Wf) {n : ℕ} (hn : c.HasCoeff (n + 2)) : c.den n + c.den (n + 1) ≤ c.den (n + 2) := by
  have e2 := den_eq c (n + 2)
  rw [block_succ, block_succ] at e2
  have e : c.den (n + 2) = ((coeffAt c.a c.p (n + 2) : ℕ) : ℤ) * c.den (n + 1) + c.den n := e2
  have h1 : 1 ≤ coeffAt c.a c.p (n + 2) := coeff_pos h (by omega) hn
  have h2 : (1 : ℤ) ≤ c.den (n + 1) := trunc_den_pos h (hasCoeff_mono hn (n + 1) (by omega))
  rw [e]
  have : (1 : ℤ) ≤ ((coeffAt c.a c.p (n + 2) : ℕ) : ℤ) := by exact_mod_cast h1
  nlinarith

private theorem ratio_lt {q q' : ℝ} (h1 : 0 < q) (h2 : 0 < q') (h3 : √5 * q' ≠ 2 * q + q' ∧ √5 * q ≠ 2 * q' - q)
    (h : 1 / (√5 * q ^ 2) + 1 / (√5 * q' ^ 2) ≤ 1 / (q * q')) : 2 * q' < (1 + √5) * q := by
  have h5 : √5 * √5 = (5 : ℝ) := Real.mul_self_sqrt (by norm_num)
  have p5 : 0 < √(5 : ℝ) := by positivity
  have hk : q ^ 2 + q' ^ 2 ≤ √5 * (q * q') := by
    have e : 1 / (√5 * q ^ 2) + 1 / (√5 * q' ^ 2) = (q ^ 2 + q' ^ 2) / (√5 * q ^ 2 * q' ^ 2) := by field_simp; ring
    rw [e, div_le_div_iff₀ (by positivity) (by positivity)] at h
    have : (q ^ 2 + q' ^ 2) * (q * q') ≤ (√5 * (q * q')) * (q * q') := by nlinarith
    exact le_of_mul_le_mul_right this (by positivity)
  by_contra hlt
  push Not at hlt
  have h2' : (√5 - 1) * q < 2 * q' := by nlinarith
  have : (2 * q' - (1 + √5) * q) * (2 * q' + (1 - √5) * q) ≤ 0 := by nlinarith
  have k1 : 0 < 2 * q' + (1 - √5) * q := by nlinarith
  have k2 : 2 * q' - (1 + √5) * q ≤ 0 := by
    by_contra hc; push Not at hc; exact absurd (mul_pos hc k1) (not_lt.2 this)
  have : 2 * q' = (1 + √5) * q := by linarith
  exact h3.2 (by linarith)

/-- **C133** (Borel) Of three consecutive items of `convergents()` one differs from the number by less than
`1/(√5·q²)`. -/
theorem cf_borel (c : CF) (h : c.Wf) (x : ℝ) (hx : c.HasVal x) (n : ℕ) (r s t : ℚ)
    (hr : itemAt (ConvIter.next .big) n c.convergents = .ok (some r))
    (hs : itemAt (ConvIter.next .big) (n + 1) c.convergents = .ok (some s))
    (ht : itemAt (ConvIter.next .big) (n + 2) c.convergents = .ok (some t)) :
    |x - r| < 1 / (√5 * (r.den : ℝ) ^ 2) ∨ |x - s| < 1 / (√5 * (s.den : ℝ) ^ 2) ∨ |x - t| < 1 / (√5 * (t.den : ℝ) ^ 2) := by
  have e1 := err_sum h hx hr hs
  have e2 := err_sum h hx hs ht
  obtain ⟨-, -, h3, -⟩ := item_some h hr
  obtain ⟨-, -, k3, -⟩ := item_some h hs
  obtain ⟨l1, -, l3, -⟩ := item_some h ht
  have g := den_grow h l1
  rw [← h3, ← k3, ← l3] at g
  have gR : (r.den : ℝ) + s.den ≤ t.den := by exact_mod_cast g
  have d1 : (0 : ℝ) < r.den := by exact_mod_cast r.den_pos
  have d2 : (0 : ℝ) < s.den := by exact_mod_cast s.den_pos
  have d3 : (0 : ℝ) < t.den := by exact_mod_cast t.den_pos
  have irr : Irrational √(5 : ℝ) := by
    have := Nat.Prime.irrational_sqrt (p := 5) (by norm_num)
    exact_mod_cast this
  have ne : ∀ (q : ℕ) (m : ℤ), (0 : ℝ) < q → √5 * q ≠ (m : ℝ) := fun q m hq he => by
    refine irr ⟨(m : ℚ) / q, ?_⟩
    push_cast
    rw [← he]; field_simp
  have nes : ∀ q q' : ℕ, (0 : ℝ) < q → (0 : ℝ) < q' → √5 * (q' : ℝ) ≠ 2 * q + q' ∧ √5 * (q : ℝ) ≠ 2 * q' - q :=
    fun q q' h1 h2 => ⟨by have := ne q' (2 * q + q') h2; exact_mod_cast this, by
      have := ne q (2 * q' - q) h1; exact_mod_cast this⟩
  by_contra hn
  push Not at hn
  have r1 := ratio_lt d1 d2 (nes _ _ d1 d2) (by linarith [hn.1, hn.2.1])
  have r2 := ratio_lt d2 d3 (nes _ _ d2 d3) (by linarith [hn.2.2, hn.2.1])
  have h5 : √5 * √5 = (5 : ℝ) := Real.mul_self_sqrt (by norm_num)
  have p5 : 1 < √(5 : ℝ) := by rw [Real.lt_sqrt (by norm_num)]; norm_num
  nlinarith
example : itemAt (ConvIter.next .big) 1 (convergents ⟨[1], [1, 2], true⟩) = .ok (some (-2)) ∧
    itemAt (ConvIter.next .big) 2 (convergents ⟨[1], [1, 2], true⟩) = .ok (some (-5 / 3)) ∧
    itemAt (ConvIter.next .big) 3 (convergents ⟨[1], [1, 2], true⟩) = .ok (some (-7 / 4)) := by decide +kernel

/-- **C133** Three are needed: the first two convergents of `[0; 1, 1, 5] = 6/11` both differ by more. -/
theorem cf_borel_two : Wf ⟨[0, 1, 1, 5], [], false⟩ ∧ HasVal ⟨[0, 1, 1, 5], [], false⟩ (6 / 11) ∧
    itemAt (ConvIter.next .big) 0 (convergents ⟨[0, 1, 1, 5], [], false⟩) = .ok (some 0) ∧
    itemAt (ConvIter.next .big) 1 (convergents ⟨[0, 1, 1, 5], [], false⟩) = .ok (some 1) ∧
    1 / (√5 * ((0 : ℚ).den : ℝ) ^ 2) < |(6 / 11 : ℝ) - (0 : ℚ)| ∧ 1 / (√5 * ((1 : ℚ).den : ℝ) ^ 2) < |(6 / 11 : ℝ) - (1 : ℚ)| := by
  have p5 : (2.2 : ℝ) < √5 := by rw [Real.lt_sqrt (by norm_num)]; norm_num
  have k : 1 / √(5 : ℝ) < 1 / 2.2 := one_div_lt_one_div_of_lt (by norm_num) p5
  refine ⟨⟨by decide, by decide, by decide⟩, (hasVal_finite rfl).2 ⟨6 / 11, by decide +kernel, by push_cast; rfl⟩,
    by decide +kernel, by decide +kernel, ?_, ?_⟩
  · rw [abs_of_nonneg (by norm_num)]; norm_num at *; linarith
  · rw [abs_of_nonpos (by norm_num)]; norm_num at *; linarith

/-- **C133** (Hurwitz) `√5` cannot be replaced by anything greater: the golden ratio is the value of `[1; (1)]`, and
all fractions with a sufficiently large denominator differ from it by at least `1/(A·q²)`. -/
theorem cf_hurwitz_sharp : HasVal ⟨[1], [1], false⟩ Real.goldenRatio ∧
    ∀ A : ℝ, √5 < A → ∃ Q : ℤ, ∀ p q : ℤ, Q ≤ q → 1 / (A * (q : ℝ) ^ 2) ≤ |Real.goldenRatio - (p / q : ℚ)| := by
  constructor
  · have := (cf_toSurd_value ⟨false, true⟩ ⟨[1], [1], false⟩ ⟨by decide, by decide, by decide⟩ ⟨1, 1, 2, 5⟩ (by decide +kernel)).2
    simpa [Surd.val, quadR, Real.goldenRatio] using this
  intro A hA
  have p5 : 0 < √(5 : ℝ) := by positivity
  have hA0 : 0 < A := p5.trans hA
  have hd : 0 < A * (A - √5) := mul_pos hA0 (by linarith)
  refine ⟨max 1 ⌈1 / (A * (A - √5))⌉, fun p q hq => ?_⟩
  have hq1 : (1 : ℝ) ≤ q := by exact_mod_cast (le_max_left _ _).trans hq
  have hq2 : 1 / (A * (A - √5)) ≤ q := (Int.le_ceil _).trans (by exact_mod_cast (le_max_right _ _).trans hq)
  have hq0 : (0 : ℝ) < q := by linarith
  by_contra hlt
  push Not at hlt
  push_cast at hlt
  set δ := |Real.goldenRatio - (p : ℝ) / q| with hδ
  have hN : (1 : ℝ) ≤ |(p : ℝ) ^ 2 - p * q - q ^ 2| := by
    have : p ^ 2 - p * q - q ^ 2 ≠ 0 := fun h0 => by
      have h0' : (p : ℝ) ^ 2 - p * q - q ^ 2 = 0 := by exact_mod_cast h0
      have : ((p : ℝ) - Real.goldenRatio * q) * (p - Real.goldenConj * q) = 0 := by
        have e1 := Real.goldenRatio_add_goldenConj
        have e2 := Real.goldenRatio_mul_goldenConj
        linear_combination h0' - p * q * e1 + q ^ 2 * e2
      rcases mul_eq_zero.1 this with h | h
      · exact Real.goldenRatio_irrational ⟨(p : ℚ) / q, by push_cast; rw [div_eq_iff hq0.ne']; linarith⟩
      · exact Real.goldenConj_irrational ⟨(p : ℚ) / q, by push_cast; rw [div_eq_iff hq0.ne']; linarith⟩
    exact_mod_cast Int.one_le_abs this
  have hf : |(p : ℝ) ^ 2 - p * q - q ^ 2| = (q : ℝ) ^ 2 * (δ * |Real.goldenConj - (p : ℝ) / q|) := by
    rw [hδ, ← abs_mul, ← abs_of_pos (pow_pos hq0 2), ← abs_mul, abs_of_pos (pow_pos hq0 2)]
    congr 1
    have e1 := Real.goldenRatio_add_goldenConj
    have e2 := Real.goldenRatio_mul_goldenConj
    have e3 : (q : ℝ) ^ 2 * ((Real.goldenRatio - (p : ℝ) / q) * (Real.goldenConj - (p : ℝ) / q)) =
        (q * Real.goldenRatio - p) * (q * Real.goldenConj - p) := by
      rw [pow_two, mul_mul_mul_comm, mul_sub, mul_sub, mul_div_cancel₀ _ hq0.ne']
    rw [e3]
    linear_combination p * q * e1 - q ^ 2 * e2
  have hc : |Real.goldenConj - (p : ℝ) / q| ≤ √5 + δ := by
    have e := Real.goldenRatio_sub_goldenConj
    have : Real.goldenConj - (p : ℝ) / q = (Real.goldenRatio - (p : ℝ) / q) - √5 := by linarith
    rw [this]
    have := abs_sub (Real.goldenRatio - (p : ℝ) / q) √5
    rw [abs_of_pos p5] at this
    linarith
  have hδ0 : 0 ≤ δ := abs_nonneg _
  have k1 : 1 ≤ (q : ℝ) ^ 2 * (δ * (√5 + δ)) := by
    rw [hf] at hN
    exact hN.trans (mul_le_mul_of_nonneg_left (mul_le_mul_of_nonneg_left hc hδ0) (by positivity))
  have k2 : A * (q : ℝ) ^ 2 * δ < 1 := by
    rw [lt_div_iff₀ (by positivity)] at hlt
    linarith
  have k3 : 1 ≤ q * (A * (A - √5)) := by rwa [div_le_iff₀ hd] at hq2
  have k4 : (q : ℝ) * (A * (A - √5)) ≤ q ^ 2 * (A * (A - √5)) := by
    apply mul_le_mul_of_nonneg_right _ hd.le; nlinarith
  have k5 : A ≤ (A * (q : ℝ) ^ 2 * δ) * (√5 + δ) := by
    have := mul_le_mul_of_nonneg_left k1 hA0.le
    linarith
  have k6 : (A * (q : ℝ) ^ 2 * δ) * (√5 + δ) ≤ 1 * (√5 + δ) := mul_le_mul_of_nonneg_right k2.le (by linarith)
  have k7 : A - √5 ≤ δ := by linarith
  have k8 : (q : ℝ) ^ 2 * (A * (A - √5)) ≤ A * (q : ℝ) ^ 2 * δ := by
    have := mul_le_mul_of_nonneg_left k7 (show 0 ≤ A * (q : ℝ) ^ 2 by positivity)
    linarith
  linarith

end CF
end NumIrr
