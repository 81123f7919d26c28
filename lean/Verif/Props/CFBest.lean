/-
C102: convergents are best approximations, and what `approximated` therefore returns.
C103: good approximations are convergents.
-/
import Verif.Props.SurdApprox
import Verif.Lemmas.CFBest

namespace NumIrr
namespace CF

private theorem err_eq {c : CF} (h : c.Wf) {n : Nat} (hn : c.HasCoeff n) {r : Rat} (hr : c.conv n = some r) (x : ℝ) :
    |(r.den : ℝ) * x - r.num| = |c.den n * signed c.neg x - c.num n| ∧ (r.den : Int) = c.den n := by
  obtain ⟨q, h1, -, h3, h4⟩ := Fx.conv_fields h hn
  rw [hr] at h1
  have := Option.some.inj h1
  subst this
  rw [signed_den]
  refine ⟨?_, h3⟩
  have e3 : ((q.den : Nat) : ℝ) = c.den n := by exact_mod_cast h3
  rw [e3, ← h4]
  cases c.neg
  · rfl
  · simp only [signed, if_true, Rat.num_neg_eq_neg_num]
    rw [← abs_neg]
    congr 1
    push_cast
    ring

private theorem abs_signed (b : Bool) (x : ℝ) (p q : Int) :
    |(q : ℝ) * signed b x - ((signed b p : Int) : ℝ)| = |(q : ℝ) * x - p| := by
  cases b
  · rfl
  · simp only [signed, if_true]
    rw [← abs_neg]
    congr 1
    push_cast
    ring

/-- **C102** no fraction `p/q` with a denominator below that of the next convergent has a smaller `|q·x - p|`. -/
theorem cf_conv_best (c : CF) (h : c.Wf) (x : ℝ) (hx : c.HasVal x) (n : Nat) (hn : c.HasCoeff (n + 1)) (r s : Rat)
    (hr : c.conv n = some r) (hs : c.conv (n + 1) = some s) (p q : Int) (hq : 1 ≤ q) (hq' : q < s.den) :
    |(r.den : ℝ) * x - r.num| ≤ |q * x - p| := by
  obtain ⟨e1, -⟩ := err_eq h (hasCoeff_mono hn n (by omega)) hr x
  obtain ⟨-, e2⟩ := err_eq h hn hs x
  rw [e1, ← abs_signed c.neg x p q]
  exact conv_best h hx hn hq (by omega)

/-- **C102** in particular every convergent from the second one on is closer to the number than all fractions whose
denominator is not greater, and so is the first one unless the second one is an integer too. -/
theorem cf_conv_closest (c : CF) (h : c.Wf) (x : ℝ) (hx : c.HasVal x) (n : Nat) (hn : c.HasCoeff n) (r : Rat)
    (hr : c.conv n = some r) (h1 : n = 0 → ∀ s, c.conv 1 = some s → c.HasCoeff 1 → s.den ≠ 1) (p q : Int) (hq : 1 ≤ q)
    (hq' : q ≤ r.den) : |x - r| ≤ |x - (p / q : ℚ)| := by
  have hrd : (0 : ℝ) < r.den := by exact_mod_cast r.den_pos
  have hqR : (0 : ℝ) < q := by exact_mod_cast (by omega : 0 < q)
  have hrr : (r : ℝ) * r.den = r.num := by exact_mod_cast Rat.mul_den_eq_num r
  have key : |(r.den : ℝ) * x - r.num| ≤ |q * x - p| := by
    by_cases hn1 : c.HasCoeff (n + 1)
    · obtain ⟨s, h2, -⟩ := Fx.conv_fields h hn1
      refine cf_conv_best c h x hx n hn1 r _ hr h2 p q hq ?_
      obtain ⟨m1, m2⟩ := cf_conv_den_mono c h n hn1 r _ hr h2
      rcases Nat.eq_zero_or_pos n with h0 | h0
      · subst h0
        have h3 := h1 rfl _ h2 hn1
        have := err_eq h hn hr x
        have hd0 : c.den 0 = 1 := by
          have := den_eq c 0
          simp only [trunc, truncTo, List.range_zero, List.map_nil, blockOf, act] at this
          rw [this]; ring
        omega
      · have := m2 h0; omega
    · obtain ⟨e1, e2⟩ := err_eq h hn hr x
      rw [e1, (conv_side h hx hn).2 hn1, sub_self, abs_zero]
      exact abs_nonneg _
  have e1 : |x - r| = |(r.den : ℝ) * x - r.num| / r.den := by
    rw [← abs_of_pos hrd, ← abs_div, abs_of_pos hrd, ← hrr]
    congr 1
    field_simp
  have e2 : |x - (p / q : ℚ)| = |q * x - p| / q := by
    rw [← abs_of_pos hqR, ← abs_div, abs_of_pos hqR]
    congr 1
    push_cast
    field_simp
  rw [e1, e2]
  have hq'' : (q : ℝ) ≤ r.den := by exact_mod_cast hq'
  exact div_le_div₀ (abs_nonneg _) key hqR hq''

example : conv ⟨[3, 7, 15, 1], [2], false⟩ 1 = some (22 / 7) ∧ Wf ⟨[3, 7, 15, 1], [2], false⟩ ∧
    conv ⟨[3, 7, 15, 1], [2], false⟩ 2 = some (333 / 106) := ⟨by decide +kernel, by simp [Wf], by decide +kernel⟩

/-- The exception: `0` is the first convergent of `[0; 1, 5] = 5/6`, but `1` is closer. -/
example : conv ⟨[0, 1, 5], [], false⟩ 0 = some 0 ∧ valQ ⟨[0, 1, 5], [], false⟩ = some (5 / 6) := by decide +kernel

/-- **C102** `approximated` returns a convergent with a denominator of at most the limit after which all convergents have
a denominator of at least the limit. -/
theorem cf_approximated_which (c : CF) (h : c.Wf) (limit : Int) (hl : 1 ≤ limit) :
    ∃ F, ∀ fuel, F ≤ fuel → ∃ r n, c.approximated .big fuel limit = some (.ok r) ∧ c.HasCoeff n ∧ c.conv n = some r.value ∧
      (r.value.den : Int) ≤ limit ∧ (∀ m s, n < m → c.HasCoeff m → c.conv m = some s → limit ≤ s.den) ∧
      ((∃ v, r = .exact v) ↔ ¬ c.HasCoeff (n + 1)) := by
  have h0 : c.HasCoeff 0 := .inr (List.length_pos_iff.2 h.1)
  have hd0 : c.den 0 = 1 := by
    have := den_eq c 0
    simp only [trunc, truncTo, List.range_zero, List.map_nil, blockOf, act] at this
    rw [this]; ring
  obtain ⟨M, hM1, hM2, hM3⟩ := den_between h hl
  have hM : ¬ c.HasCoeff (M + 1) ∨ limit ≤ c.den (M + 1) := by
    by_cases hc : c.HasCoeff (M + 1)
    · exact .inr (hM3 hc).le
    · exact .inl hc
  obtain ⟨q, e1, e2⟩ := convState_next_big h (n := 0) (hasCoeff_mono h0)
  have h3 : (q.den : Int) = c.den 0 := (cfVal_den e2 (trunc_den_pos h h0)).1
  refine ⟨M + 1, fun fuel hf => ?_⟩
  obtain ⟨r, k1, n, s, k2, k3, k4, k5, k6, k7⟩ :=
    approxLoop_big h limit 0 fuel h0 e2 (by rw [h3, hd0]; exact hl) M (by omega) hM (by omega)
  refine ⟨r, n, ?_, k2, ?_, by rw [k4, signed_den]; exact k5, ?_, ?_⟩
  · unfold approximated
    rw [← convState_zero, e1]
    simp only [signed_den]
    rw [if_neg (by rw [h3, hd0]; omega)]
    exact k1
  · have : cfVal (truncTo (toInts c.a) (toInts c.p) (n + 1)) = some s := k3
    unfold conv
    rw [this, k4]
    rfl
  · intro m t hm hc ht
    obtain ⟨q', g1, -, g3, -⟩ := Fx.conv_fields h hc
    rw [ht] at g1
    rw [Option.some.inj g1, signed_den, g3]
    cases r with
    | exact v => exact absurd (hasCoeff_mono hc (n + 1) hm) (k6 ⟨v, rfl⟩)
    | approximated v => exact le_trans (k7 ⟨v, rfl⟩).2 (Fx.num_den_le h hc (n + 1) hm).2
  · refine ⟨k6, fun hc => ?_⟩
    cases r with
    | exact v => exact ⟨v, rfl⟩
    | approximated v => exact absurd (k7 ⟨v, rfl⟩).1 hc

/-- **C102** hence it returns a fraction `r/s` with `|s·x - r| ≤ |q·x - p|` for all fractions with a denominator
`q` below the limit. -/
theorem cf_approximated_best (c : CF) (h : c.Wf) (x : ℝ) (hx : c.HasVal x) (limit : Int) (hl : 1 ≤ limit) :
    ∃ F, ∀ fuel, F ≤ fuel → ∃ r, c.approximated .big fuel limit = some (.ok r) ∧ (r.value.den : Int) ≤ limit ∧
      ∀ p q : Int, 1 ≤ q → q < limit → |(r.value.den : ℝ) * x - r.value.num| ≤ |q * x - p| := by
  obtain ⟨F, hF⟩ := cf_approximated_which c h limit hl
  refine ⟨F, fun fuel hf => ?_⟩
  obtain ⟨r, n, h1, h2, h3, h4, h5, -⟩ := hF fuel hf
  refine ⟨r, h1, h4, fun p q hq hq' => ?_⟩
  by_cases hc : c.HasCoeff (n + 1)
  · obtain ⟨s, g, -⟩ := Fx.conv_fields h hc
    exact cf_conv_best c h x hx n hc _ _ h3 g p q hq (lt_of_lt_of_le hq' (h5 (n + 1) _ (by omega) hc g))
  · rw [(err_eq h h2 h3 x).1, (conv_side h hx h2).2 hc, sub_self, abs_zero]
    exact abs_nonneg _

/-- `√2` up to `169` gives `99/70`; the convergent `239/169` is not taken, though its denominator is not above the limit. -/
example : Wf ⟨[1], [2], false⟩ ∧ approximated .big 10 ⟨[1], [2], false⟩ 169 = some (.ok (.approximated (99 / 70))) ∧
    conv ⟨[1], [2], false⟩ 6 = some (239 / 169) := ⟨by simp [Wf], by decide +kernel, by decide +kernel⟩

/-- **C103** every fraction that differs from the number by less than `1/(2q²)` is yielded by `convergents()`. -/
theorem cf_good_is_convergent (c : CF) (h : c.Wf) (x : ℝ) (hx : c.HasVal x) (p q : Int) (hq : 1 ≤ q)
    (hg : |x - (p / q : ℚ)| < 1 / (2 * (q : ℝ) ^ 2)) :
    ∃ n, itemAt (ConvIter.next .big) n c.convergents = .ok (some (p / q : ℚ)) := by
  obtain ⟨n, h1, h2, h3⟩ := den_between h hq
  refine ⟨n, ?_⟩
  rw [(cf_convergents c h n).1, if_pos h1]
  obtain ⟨r, g1, g2, g3, g4⟩ := Fx.conv_fields h h1
  rw [g1]
  congr 2
  have hQ : (1 : Int) ≤ c.den n := trunc_den_pos h h1
  have hqR : (0 : ℝ) < q := by exact_mod_cast (by omega : 0 < q)
  have hQR : (0 : ℝ) < c.den n := by exact_mod_cast (by omega : 0 < c.den n)
  have hD : |c.den n * signed c.neg x - c.num n| ≤ |q * signed c.neg x - signed c.neg p| := by
    by_cases hc : c.HasCoeff (n + 1)
    · have := conv_best h hx hc (p := signed c.neg p) hq (h3 hc)
      exact_mod_cast this
    · rw [(conv_side h hx h1).2 hc, sub_self, abs_zero]
      exact abs_nonneg _
  have hE : |(q : ℝ) * signed c.neg x - ((signed c.neg p : Int) : ℝ)| < 1 / (2 * q) := by
    rw [abs_signed]
    have : (q : ℝ) * x - p = q * (x - (p / q : ℚ)) := by push_cast; field_simp
    rw [this, abs_mul, abs_of_pos hqR]
    calc (q : ℝ) * |x - (p / q : ℚ)| < q * (1 / (2 * (q : ℝ) ^ 2)) := mul_lt_mul_of_pos_left hg hqR
      _ = 1 / (2 * q) := by field_simp
  have hcross : c.num n * q = signed c.neg p * c.den n := by
    by_contra hne
    have h5 : (1 : Int) ≤ |c.num n * q - signed c.neg p * c.den n| := Int.one_le_abs (sub_ne_zero.2 hne)
    have h6 : (1 : ℝ) ≤ |(c.num n : ℝ) * q - ((signed c.neg p : Int) : ℝ) * c.den n| := by exact_mod_cast h5
    have e : (c.num n : ℝ) * q - ((signed c.neg p : Int) : ℝ) * c.den n =
        c.den n * (q * signed c.neg x - ((signed c.neg p : Int) : ℝ)) - q * (c.den n * signed c.neg x - c.num n) := by ring
    rw [e] at h6
    have h7 := abs_sub (c.den n * (q * signed c.neg x - ((signed c.neg p : Int) : ℝ)))
      (q * (c.den n * signed c.neg x - c.num n))
    rw [abs_mul, abs_mul, abs_of_pos hQR, abs_of_pos hqR] at h7
    have hD' : |c.den n * signed c.neg x - c.num n| < 1 / (2 * q) := by
      refine lt_of_le_of_lt hD ?_
      exact_mod_cast hE
    have h8 : (c.den n : ℝ) ≤ q := by exact_mod_cast h2
    have h9 : (c.den n : ℝ) * |(q : ℝ) * signed c.neg x - ((signed c.neg p : Int) : ℝ)| < c.den n * (1 / (2 * q)) :=
      mul_lt_mul_of_pos_left hE hQR
    have h10 : (q : ℝ) * |c.den n * signed c.neg x - c.num n| < q * (1 / (2 * q)) := mul_lt_mul_of_pos_left hD' hqR
    have h11 : (c.den n : ℝ) * (1 / (2 * q)) ≤ q * (1 / (2 * q)) := mul_le_mul_of_nonneg_right h8 (by positivity)
    have h12 : (q : ℝ) * (1 / (2 * q)) = 1 / 2 := by field_simp
    linarith
  have hq0 : (q : ℚ) ≠ 0 := by exact_mod_cast (by omega : q ≠ 0)
  have hQ0 : (c.den n : ℚ) ≠ 0 := by exact_mod_cast (by omega : c.den n ≠ 0)
  have hcQ : (c.num n : ℚ) * q = ((signed c.neg p : Int) : ℚ) * c.den n := by exact_mod_cast hcross
  have hv : (c.num n : ℚ) / c.den n = ((signed c.neg p : Int) : ℚ) / q := by
    rw [div_eq_div_iff hQ0 hq0]; exact hcQ
  rw [g2, hv]
  cases c.neg
  · rfl
  · simp only [signed, if_true]; push_cast; ring

example : itemAt (ConvIter.next .big) 3 (convergents ⟨[1], [2], true⟩) = .ok (some (-17 / 12)) ∧
    |-(√2 : ℝ) - ((-17 : Int) / (12 : Int) : ℚ)| < 1 / (2 * ((12 : Int) : ℝ) ^ 2) := by
  refine ⟨by decide +kernel, ?_⟩
  have h1 : √(2 : ℝ) < 1.4143 := by rw [Real.sqrt_lt' (by norm_num)]; norm_num
  have h2 : (1.4142 : ℝ) < √2 := by rw [Real.lt_sqrt (by norm_num)]; norm_num
  push_cast
  rw [abs_lt]
  constructor <;> norm_num at * <;> linarith

/-- The bound cannot be replaced by the bound `1/q²` of the convergents themselves: `4/3` is this close to `√2` but not a
convergent. -/
theorem cf_good_sharp : ¬ (∃ n, itemAt (ConvIter.next .big) n (convergents ⟨[1], [2], false⟩) = .ok (some (4 / 3))) ∧
    |(√2 : ℝ) - (4 / 3 : ℚ)| < 1 / (3 : ℝ) ^ 2 := by
  have hwf : Wf ⟨[1], [2], false⟩ := by simp [Wf]
  constructor
  · rintro ⟨n, hn⟩
    have hc : ∀ m, HasCoeff ⟨[1], [2], false⟩ m := fun m => .inl (by simp)
    rw [(cf_convergents _ hwf n).1, if_pos (hc n)] at hn
    have hn := Except.ok.inj hn
    match n, hn with
    | 0, hn => exact absurd hn (by decide +kernel)
    | 1, hn => exact absurd hn (by decide +kernel)
    | n + 2, hn =>
      obtain ⟨q2, a1, -, a3, -⟩ := Fx.conv_fields hwf (hc 2)
      obtain ⟨q, b1, -, b3, -⟩ := Fx.conv_fields hwf (hc (n + 2))
      have := (Fx.num_den_le hwf (hc (n + 2)) 2 (by omega)).2
      rw [hn] at b1
      have e1 := Option.some.inj b1
      have e2 : conv ⟨[1], [2], false⟩ 2 = some (7 / 5) := by decide +kernel
      rw [e2] at a1
      have e3 := Option.some.inj a1
      have f1 := congrArg Rat.den e1
      have f2 := congrArg Rat.den e3
      rw [signed_den] at f1 f2
      have f3 : (4 / 3 : ℚ).den = 3 := by decide +kernel
      have f4 : (7 / 5 : ℚ).den = 5 := by decide +kernel
      omega
  · have h1 : √(2 : ℝ) < 1.4143 := by rw [Real.sqrt_lt' (by norm_num)]; norm_num
    have h2 : (1.4142 : ℝ) < √2 := by rw [Real.lt_sqrt (by norm_num)]; norm_num
    push_cast
    rw [abs_lt]
    constructor <;> norm_num at * <;> linarith

end CF

namespace Surd

/-- **C102** for surds: whenever `approximated` answers for a real irrational number, it returns the best fraction with a
denominator below the limit for `cfValue`, which is the number itself if the conjugate has the opposite sign. -/
theorem surd_approximated_best (cfg : Cfg) (s : Surd) (h : s.RealOk) (hr : s.r ≠ 0) (limit : ℤ) (hl : 1 ≤ limit)
    (hh : ¬ Hangs s.cfDisc s.cfStart) :
    ∃ F, ∀ fuel, F ≤ fuel → ∃ r, s.approximated cfg fuel limit = some (.ok (.approximated r)) ∧ (r.den : ℤ) ≤ limit ∧
      ∀ p q : ℤ, 1 ≤ q → q < limit → |(r.den : ℝ) * s.cfValue - r.num| ≤ |q * s.cfValue - p| := by
  obtain ⟨h1, -, -⟩ := surd_toContfrac_returns_iff cfg s h hr
  obtain ⟨N, c, h3⟩ := h1.1 hh
  obtain ⟨h4, h5, h6⟩ := surd_toContfrac_value cfg s h hr N c (h3 N le_rfl)
  obtain ⟨F, hF⟩ := CF.cf_approximated_best c h4 s.cfValue h6 limit hl
  obtain ⟨F', hF'⟩ := CF.cf_approximated_partial c h4 s.cfValue h6 limit hl
  refine ⟨max N (max F F'), fun fuel hf => ?_⟩
  obtain ⟨r, h7, h8, h9⟩ := hF fuel (by omega)
  obtain ⟨r', -, h10, -, -, h11, -⟩ := hF' fuel (by omega)
  rw [h7] at h10
  have e1 : r = r' := Except.ok.inj (Option.some.inj h10)
  subst e1
  have hirr : ¬ c.isRational = true := by simp [CF.isRational, h5]
  have e : s.approximated cfg fuel limit = some (.ok r) := by
    unfold approximated toContfracUnwrap
    rw [h3 fuel (by omega)]
    exact h7
  cases r with
  | exact v => exact absurd ((CF.cf_isRational c h4 s.cfValue h6).2 ⟨v, h11.1 ⟨v, rfl⟩⟩) hirr
  | approximated q => exact ⟨q, e, h8, h9⟩

/-- **C102** in particular for all numbers whose conjugate has the opposite sign. -/
theorem surd_approximated_best_val (cfg : Cfg) (s : Surd) (h : s.RealOk) (hn : s.a * s.a < s.r * s.b * s.b) (limit : ℤ)
    (hl : 1 ≤ limit) :
    ∃ F, ∀ fuel, F ≤ fuel → ∃ r, s.approximated cfg fuel limit = some (.ok (.approximated r)) ∧ (r.den : ℤ) ≤ limit ∧
      ∀ p q : ℤ, 1 ≤ q → q < limit → |(r.den : ℝ) * s.val - r.num| ≤ |q * s.val - p| := by
  obtain ⟨N, c, h1, h2, h3, -, h4⟩ := surd_toContfrac_returns_partial cfg s h hn
  have hr : s.r ≠ 0 := by
    intro h0
    rw [h0, zero_mul, zero_mul] at hn
    nlinarith [mul_self_nonneg s.a]
  have hh : ¬ Hangs s.cfDisc s.cfStart := (surd_toContfrac_returns_iff cfg s h hr).1.2 ⟨N, c, h1⟩
  obtain ⟨-, -, h6⟩ := surd_toContfrac_value cfg s h hr N c (h1 N le_rfl)
  rw [CF.HasVal.unique h4 h6]
  exact surd_approximated_best cfg s h hr limit hl hh

example : RealOk ⟨1, 1, 2, 5⟩ ∧ approximated ⟨false, true⟩ 20 ⟨1, 1, 2, 5⟩ 100 = some (.ok (.approximated (144 / 89))) := by
  decide +kernel

end Surd
end NumIrr
