/-
C105: the convergents of `√N` and Pell's equation.
-/
import Verif.Props.SqrtPeriod
import Verif.Props.CFBest

namespace NumIrr
open Lagrange Start

namespace CF

theorem start_nat {v : ℝ} {N : ℕ} (hv : v = √(N : ℝ)) (hirr : Irrational v) :
    Start (N : ℤ) (isqrt N) 1 ∧ v = th (N : ℤ) 0 1 := by
  have hN : 2 ≤ N := by
    by_contra h
    apply hirr
    have : N = 0 ∨ N = 1 := by omega
    rcases this with rfl | rfl
    · exact ⟨0, by simp [hv]⟩
    · exact ⟨1, by simp [hv]⟩
  have h0 : (0 : ℝ) < N := by exact_mod_cast (by omega : 0 < N)
  have := sqrt_start (v := v) (b := (N : ℤ)) (c := 1) (by omega) one_pos (by omega) (by rw [hv]; exact Real.sqrt_pos.2 h0)
    (by rw [hv, Real.sq_sqrt h0.le]; push_cast; ring) hirr
  rwa [mul_one] at this

/-- **C105** the `n`-th convergent of `√N` solves `p² - N q² = ±1` exactly if `n + 1` is a multiple of the length of the
period, with the sign `(-1)ⁿ⁺¹`; and every solution is such a convergent. -/
theorem cf_pell (c : CF) (h : c.Wf) (hp : c.p ≠ []) (h1 : c.ShortestHead) (h2 : c.ShortestPeriod) (N : ℕ)
    (hv : c.HasVal (√(N : ℝ))) :
    (∀ n, ∃ r, itemAt (ConvIter.next .big) n c.convergents = .ok (some r) ∧ 0 < r ∧
      (|r.num ^ 2 - N * (r.den : ℤ) ^ 2| = 1 ↔ c.p.length ∣ n + 1) ∧
      (c.p.length ∣ n + 1 → r.num ^ 2 - N * (r.den : ℤ) ^ 2 = (-1) ^ (n + 1))) ∧
    (∀ p q : ℤ, 1 ≤ p → 1 ≤ q → |p ^ 2 - N * q ^ 2| = 1 →
      ∃ n, c.p.length ∣ n + 1 ∧ itemAt (ConvIter.next .big) n c.convergents = .ok (some (p / q : ℚ))) := by
  obtain ⟨h0, hirr, hneg, -, -⟩ := coeff_of_val h hp hv
  have hsn : 0 ≤ √(N : ℝ) := Real.sqrt_nonneg _
  have hng : c.neg = false := by rw [hneg]; simp
  rw [abs_of_nonneg hsn] at hirr
  obtain ⟨hs, e⟩ := start_nat rfl hirr
  have ht : ∀ n, tails |√(N : ℝ)| (n + 0) = tails (th (N : ℤ) 0 1) n := fun n => by
    rw [abs_of_nonneg hsn, ← e]; rfl
  obtain ⟨hc0, hcn⟩ := sqrt_coeff h hp hv hs ht
  obtain ⟨-, a0, -, -, -, -, -, -, hper⟩ := sqrt_shape h hp hv hs 0 ht h1
  have hdvd := sqrt_dvd h hp hv hs ht h2 hper
  have hHC : ∀ n, c.HasCoeff n := fun n => .inl hp
  have key : ∀ n, ∃ r, itemAt (ConvIter.next .big) n c.convergents = .ok (some r) ∧ r.num = c.num n ∧ (r.den : ℤ) = c.den n := by
    intro n
    obtain ⟨r, g1, -, g3, g4⟩ := Fx.conv_fields h (hHC n)
    rw [hng] at g1
    exact ⟨r, by rw [(cf_convergents c h n).1, if_pos (hHC n), g1]; rfl, g4, g3⟩
  have hnorm := fun n => num_den_st (c := c) hs hc0 (fun m => by rw [← hcn m]) n
  have habs : ∀ n, |c.num n ^ 2 - N * c.den n ^ 2| = 1 ↔ c.p.length ∣ n + 1 := by
    intro n
    rw [← hdvd, ← last_iff hs, hnorm n, abs_mul, abs_pow, abs_neg, abs_one, one_pow, one_mul,
      abs_of_pos ((hs.red n).qpos hs.root)]
  refine ⟨fun n => ?_, fun p q hp1 hq1 hpq => ?_⟩
  · obtain ⟨r, g1, g2, g3⟩ := key n
    refine ⟨r, g1, ?_, by rw [g2, g3]; exact habs n, fun hd => ?_⟩
    · rw [← Rat.num_pos, g2]
      have ha : (1 : ℤ) ≤ c.num 0 := by
        have := num_eq c 0
        simp only [trunc, truncTo, List.range_zero, List.map_nil, blockOf, act] at this
        rw [this, hc0]
        have := hs.a0_pos
        omega
      have := (Fx.num_den_le h (hHC n) 0 (by omega)).1
      omega
    · rw [g2, g3, hnorm n, (last_iff hs n).2 ((hdvd _).2 hd), mul_one]
  · have hN2 : 2 ≤ N := by
      have h3 := hs.root.lo
      have h4 := hs.root.pos
      have h5 : (2 : ℤ) ≤ N := by nlinarith
      omega
    have hqR : (1 : ℝ) ≤ q := by exact_mod_cast hq1
    have hpR : (1 : ℝ) ≤ p := by exact_mod_cast hp1
    have hNR : (2 : ℝ) ≤ N := by exact_mod_cast hN2
    have hss : √(N : ℝ) * √(N : ℝ) = N := Real.mul_self_sqrt (by linarith)
    have hs1 : 1.4 < √(N : ℝ) := by rw [Real.lt_sqrt (by norm_num)]; norm_num; linarith
    have hpqR : |(p : ℝ) ^ 2 - N * q ^ 2| = 1 := by exact_mod_cast hpq
    have hpgt : (q : ℝ) ≤ p := by
      by_contra hlt
      push Not at hlt
      have h3 : (p : ℤ) + 1 ≤ q := by exact_mod_cast hlt
      have h4 := abs_le.1 hpq.le
      have h5 : (2 : ℤ) ≤ N := by exact_mod_cast hN2
      nlinarith
    have hsum : 2 * (q : ℝ) < p + q * √(N : ℝ) := by nlinarith
    have hgood : |√(N : ℝ) - (p / q : ℚ)| < 1 / (2 * (q : ℝ) ^ 2) := by
      have e1 : √(N : ℝ) - ((p / q : ℚ) : ℝ) = -(((p : ℝ) ^ 2 - N * q ^ 2) / (q * (p + q * √(N : ℝ)))) := by
        push_cast
        have : (0 : ℝ) < p + q * √(N : ℝ) := by positivity
        field_simp
        linear_combination (q : ℝ) ^ 2 * hss
      rw [e1, abs_neg, abs_div, hpqR, abs_of_pos (by positivity)]
      apply one_div_lt_one_div_of_lt (by positivity)
      nlinarith
    obtain ⟨n, hn⟩ := cf_good_is_convergent c h _ hv p q hq1 hgood
    refine ⟨n, ?_, hn⟩
    obtain ⟨r, g1, g2, g3⟩ := key n
    rw [hn] at g1
    have hr : (p / q : ℚ) = r := Option.some.inj (Except.ok.inj g1)
    have hcop : IsCoprime p q := by
      rcases (abs_eq zero_le_one).1 hpq with hh | hh
      · exact ⟨p, -(N * q), by linear_combination hh⟩
      · exact ⟨-p, N * q, by linear_combination -hh⟩
    have hnn : r.num = p := by
      rw [← hr]
      exact Rat.num_div_eq_of_coprime (by omega) (Int.isCoprime_iff_gcd_eq_one.1 hcop)
    have hdd : (r.den : ℤ) = q := by
      rw [← hr]
      exact Rat.den_div_eq_of_coprime (by omega) (Int.isCoprime_iff_gcd_eq_one.1 hcop)
    rw [← habs, ← g2, ← g3, hnn, hdd, hpq]

example : itemAt (ConvIter.next .big) 4 (convergents ⟨[3], [1, 1, 1, 1, 6], false⟩) = .ok (some (18 / 5)) ∧
    (18 : ℤ) ^ 2 - 13 * 5 ^ 2 = (-1) ^ 5 ∧
    itemAt (ConvIter.next .big) 9 (convergents ⟨[3], [1, 1, 1, 1, 6], false⟩) = .ok (some (649 / 180)) ∧
    (649 : ℤ) ^ 2 - 13 * 180 ^ 2 = (-1) ^ 10 := by decide +kernel

end CF

namespace Surd

/-- **C105** so `√N.to_contfrac().convergents()` contains all solutions of Pell's equations, at every multiple of the length
of the period; the equation with `-1` has a solution exactly if this length is odd. -/
theorem surd_pell (cfg : Cfg) (s : Surd) (h : s.RealOk) (ha : s.a = 0) (hr : s.r ≠ 0) (N : ℕ) (hv : s.val = √(N : ℝ)) :
    ∃ F c, (∀ fuel, F ≤ fuel → s.toContfrac cfg fuel = some (.ok (some c))) ∧ c.p ≠ [] ∧
      (∀ n, ∃ r, itemAt (CF.ConvIter.next .big) n c.convergents = .ok (some r) ∧ 0 < r ∧
        (|r.num ^ 2 - N * (r.den : ℤ) ^ 2| = 1 ↔ c.p.length ∣ n + 1) ∧
        (c.p.length ∣ n + 1 → r.num ^ 2 - N * (r.den : ℤ) ^ 2 = (-1) ^ (n + 1))) ∧
      (∀ p q : ℤ, 1 ≤ p → 1 ≤ q → |p ^ 2 - N * q ^ 2| = 1 →
        ∃ n, c.p.length ∣ n + 1 ∧ itemAt (CF.ConvIter.next .big) n c.convergents = .ok (some (p / q : ℚ))) ∧
      (Odd c.p.length ↔ ∃ p q : ℤ, p ^ 2 - N * q ^ 2 = -1) := by
  have hb : s.b ≠ 0 := fun e => hr (h.rational.1 e)
  have hr0 : 0 < s.r := lt_of_le_of_ne h.real (Ne.symm hr)
  have hn : s.a * s.a < s.r * s.b * s.b := by
    rw [ha, mul_zero, mul_assoc]
    exact mul_pos hr0 (mul_self_pos.2 hb)
  obtain ⟨F, c, h1, h2, h3, -, h4⟩ := surd_toContfrac_returns_partial cfg s h hn
  obtain ⟨h5, h6⟩ := surd_toContfrac_shortest_neg_conj cfg s h hn F c (h1 F le_rfl)
  rw [hv] at h4
  obtain ⟨k1, k2⟩ := CF.cf_pell c h2 h3 h5 h6 N h4
  refine ⟨F, c, h1, h3, k1, k2, ?_⟩
  have hl : 1 ≤ c.p.length := List.length_pos_iff.2 h3
  constructor
  · intro ho
    obtain ⟨r, -, -, -, g⟩ := k1 (c.p.length - 1)
    rw [show c.p.length - 1 + 1 = c.p.length by omega] at g
    exact ⟨r.num, r.den, by rw [g dvd_rfl, ho.neg_one_pow]⟩
  · rintro ⟨p, q, e⟩
    have hq : q ≠ 0 := by
      rintro rfl
      nlinarith [sq_nonneg p]
    by_cases hp0 : p = 0
    · -- `N q² = 1` makes `√N` rational
      subst hp0
      exfalso
      have h7 : (N : ℤ) * q ^ 2 = 1 := by linarith
      have h8 : IsUnit (N : ℤ) := IsUnit.of_mul_eq_one _ h7
      have h9 : N = 1 := by
        have := Int.isUnit_iff.1 h8
        omega
      obtain ⟨-, hirr, -, -, -⟩ := CF.coeff_of_val h2 h3 h4
      apply hirr
      exact ⟨1, by simp [h9]⟩
    · have h7 : |p| ^ 2 - N * |q| ^ 2 = -1 := by rw [sq_abs, sq_abs]; exact e
      obtain ⟨n, g1, g2⟩ := k2 |p| |q| (Int.one_le_abs hp0) (Int.one_le_abs hq) (by rw [h7]; rfl)
      obtain ⟨r, f1, f2, f3, f4⟩ := k1 n
      have f5 := f4 g1
      rw [g2] at f1
      have hr : ((|p| : ℤ) / (|q| : ℤ) : ℚ) = r := Option.some.inj (Except.ok.inj f1)
      have hcop : IsCoprime |p| |q| := ⟨-|p|, N * |q|, by linear_combination -h7⟩
      have hqp : 0 < |q| := abs_pos.2 hq
      have hnn : r.num = |p| := by
        rw [← hr]
        exact Rat.num_div_eq_of_coprime hqp (Int.isCoprime_iff_gcd_eq_one.1 hcop)
      have hdd : (r.den : ℤ) = |q| := by
        rw [← hr]
        exact Rat.den_div_eq_of_coprime hqp (Int.isCoprime_iff_gcd_eq_one.1 hcop)
      rw [hnn, hdd, h7] at f5
      by_contra heven
      rw [Nat.not_odd_iff_even] at heven
      have : Even (n + 1) := heven.trans_dvd g1
      rw [this.neg_one_pow] at f5
      omega

example : RealOk ⟨0, 1, 1, 13⟩ ∧
    toContfrac ⟨false, true⟩ 10 ⟨0, 1, 1, 13⟩ = some (.ok (some ⟨[3], [1, 1, 1, 1, 6], false⟩)) := by decide +kernel

example : RealOk ⟨0, 1, 1, 15⟩ ∧ toContfrac ⟨false, true⟩ 10 ⟨0, 1, 1, 15⟩ = some (.ok (some ⟨[3], [1, 6], false⟩)) := by
  decide +kernel

end Surd
end NumIrr
