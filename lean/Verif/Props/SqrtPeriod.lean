/-
C104: the fractions of square roots.
-/
import Verif.Props.SurdShort
import Verif.Lemmas.SqrtPeriod

namespace NumIrr
open Lagrange

/-- `v = √(b/c) > 1` as a state -/
theorem sqrt_start {v : ℝ} {b c : ℤ} (hb : 0 < b) (hc : 0 < c) (hbc : c < b) (hv : 0 < v) (he : v ^ 2 * c = b)
    (hirr : Irrational v) : Start (b * c) (isqrt (b * c)) c ∧ v = th (b * c) 0 c := by
  have hcR : (0 : ℝ) < c := by exact_mod_cast hc
  have e : √((b * c : ℤ) : ℝ) = v * c := by
    rw [Real.sqrt_eq_iff_mul_self_eq (by exact_mod_cast (mul_pos hb hc).le) (by positivity)]
    push_cast
    rw [← he]; ring
  have hns : ¬ IsSquare (b * c) := by
    rintro ⟨k, hk⟩
    apply hirr
    refine ⟨(|k| : ℤ) / (c : ℤ), ?_⟩
    rw [hk] at e
    push_cast at e ⊢
    rw [Real.sqrt_mul_self_eq_abs] at e
    rw [e]; field_simp
  have h0 := (mul_pos hb hc).le
  refine ⟨⟨root_isqrt h0 hns, hc, Dvd.intro_left b rfl, ?_⟩, ?_⟩
  · by_contra hlt
    have h1 := lt_succ_isqrt (b * c)
    have h2 := isqrt_nonneg (b * c)
    nlinarith
  · unfold th
    rw [e]; push_cast; field_simp; ring

namespace CF

private theorem rat_sq {v : ℝ} {t : ℚ} (ht : v ^ 2 = t) : |v| ^ 2 * (t.den : ℤ) = t.num := by
  rw [sq_abs, ht]
  exact_mod_cast Rat.mul_den_eq_num t

/-- **C104** the shortest fraction of an irrational number whose square is rational: one coefficient `a₀` before the period,
or `0, a₀` for numbers below `1`; and the period is a palindrome followed by `2 a₀`. -/
theorem cf_sqrt_period (c : CF) (h : c.Wf) (hp : c.p ≠ []) (h1 : c.ShortestHead) (v : ℝ) (hv : c.HasVal v) (t : ℚ)
    (ht : v ^ 2 = t) :
    (1 < |v| → ∃ m, c.a = [⌊|v|⌋₊] ∧ c.p = m ++ [2 * ⌊|v|⌋₊] ∧ m.reverse = m) ∧
    (|v| < 1 → ∃ m, c.a = [0, ⌊1 / |v|⌋₊] ∧ c.p = m ++ [2 * ⌊1 / |v|⌋₊] ∧ m.reverse = m) := by
  obtain ⟨h0, hirr, -, -, hco⟩ := coeff_of_val h hp hv
  have hpos : 0 < |v| := abs_pos.2 h0
  have hsq := rat_sq ht
  have hd : 0 < (t.den : ℤ) := by exact_mod_cast t.den_pos
  have hdR : (0 : ℝ) < ((t.den : ℤ) : ℝ) := by exact_mod_cast hd
  have hn : 0 < t.num := by
    have : (0 : ℝ) < t.num := by rw [← hsq]; positivity
    exact_mod_cast this
  have hnR : (0 : ℝ) < t.num := by exact_mod_cast hn
  have hnat : ∀ (x : ℝ) (a : ℕ) (z : ℤ), ⌊x⌋ = z → (a : ℤ) = z → a = ⌊x⌋₊ := fun x a z h1 h2 => by
    rw [← Int.floor_toNat, h1, ← h2]; rfl
  constructor
  · intro h2
    have hlt : (t.den : ℤ) < t.num := by
      have : ((t.den : ℤ) : ℝ) < t.num := by
        rw [← hsq]
        exact lt_mul_of_one_lt_left hdR (one_lt_pow₀ h2 (by norm_num))
      exact_mod_cast this
    obtain ⟨hs, e⟩ := sqrt_start hn hd hlt hpos hsq hirr
    obtain ⟨z, a0, m, k1, k2, k3, k4, k5, -⟩ := sqrt_shape h hp hv hs 0 (fun n => by rw [← e]; rfl) h1
    have hf := hs.floor_tails.1
    rw [← e] at hf
    have := hnat _ _ _ hf k5
    subst this
    rw [List.length_eq_zero_iff.1 k2] at k1
    exact ⟨m, k1, k3, k4⟩
  · intro h2
    have hlt : t.num < (t.den : ℤ) := by
      have : (t.num : ℝ) < ((t.den : ℤ) : ℝ) := by
        rw [← hsq]
        exact mul_lt_of_lt_one_left hdR (pow_lt_one₀ hpos.le h2 (by norm_num))
      exact_mod_cast this
    obtain ⟨hs, e⟩ := sqrt_start (v := 1 / |v|) hd hn hlt (by positivity) (by
      rw [← hsq]; field_simp) (by rw [one_div]; exact irrational_inv_iff.2 hirr)
    have hz : ⌊|v|⌋ = 0 := by rw [Int.floor_eq_zero_iff]; exact ⟨hpos.le, h2⟩
    obtain ⟨z, a0, m, k1, k2, k3, k4, k5, -⟩ := sqrt_shape h hp hv hs 1 (fun n => by
      rw [← e, tails, hz]; simp) h1
    have hf := hs.floor_tails.1
    rw [← e] at hf
    have := hnat _ _ _ hf k5
    subst this
    obtain ⟨y, rfl⟩ := List.length_eq_one_iff.1 k2
    have hy : y = 0 := by
      have := hco 0
      rw [k1] at this
      change (y : ℤ) = ⌊tails |v| 0⌋ at this
      rw [show tails |v| 0 = |v| from rfl, hz] at this
      exact_mod_cast this
    subst hy
    exact ⟨m, k1, k3, k4⟩

example : Wf ⟨[3], [1, 2, 1, 6], false⟩ ∧ ([1, 2, 1, 6] : List ℕ) = [1, 2, 1] ++ [2 * 3] ∧
    ([1, 2, 1] : List ℕ).reverse = [1, 2, 1] := ⟨by simp [Wf], rfl, rfl⟩

end CF

namespace Surd

/-- **C104** `b√r/c` is converted to such a fraction, whatever `b`, `r`, `c`. -/
theorem surd_sqrt_period (cfg : Cfg) (s : Surd) (h : s.RealOk) (ha : s.a = 0) (hr : s.r ≠ 0) :
    ∃ N c, (∀ fuel, N ≤ fuel → s.toContfrac cfg fuel = some (.ok (some c))) ∧ c.HasVal s.val ∧ c.neg = decide (s.b < 0) ∧
      (1 < |s.val| → ∃ m, c.a = [⌊|s.val|⌋₊] ∧ c.p = m ++ [2 * ⌊|s.val|⌋₊] ∧ m.reverse = m) ∧
      (|s.val| < 1 → ∃ m, c.a = [0, ⌊1 / |s.val|⌋₊] ∧ c.p = m ++ [2 * ⌊1 / |s.val|⌋₊] ∧ m.reverse = m) := by
  have hb : s.b ≠ 0 := fun e => hr (h.rational.1 e)
  have hr0 : 0 < s.r := lt_of_le_of_ne h.real (Ne.symm hr)
  have hn : s.a * s.a < s.r * s.b * s.b := by
    rw [ha, mul_zero, mul_assoc]
    exact mul_pos hr0 (mul_self_pos.2 hb)
  obtain ⟨N, c, h1, h2, h3, -, h4⟩ := surd_toContfrac_returns_partial cfg s h hn
  obtain ⟨h5, -⟩ := surd_toContfrac_shortest_neg_conj cfg s h hn N c (h1 N le_rfl)
  have hcR : (0 : ℝ) < s.c := by exact_mod_cast h.c_pos
  have hrR : (0 : ℝ) < s.r := by exact_mod_cast hr0
  have hval : s.val = s.b * √(s.r : ℝ) / s.c := by
    unfold val quadR; rw [ha]; push_cast; ring
  obtain ⟨-, -, h6, -⟩ := CF.coeff_of_val h2 h3 h4
  refine ⟨N, c, h1, h4, ?_, CF.cf_sqrt_period c h2 h3 h5 s.val h4 (s.r * s.b ^ 2 / s.c ^ 2) ?_⟩
  · rw [h6]
    apply decide_eq_decide.2
    have hsq : 0 < √(s.r : ℝ) := Real.sqrt_pos.2 hrR
    rw [hval, div_neg_iff, mul_neg_iff]
    constructor
    · rintro (⟨-, h7⟩ | ⟨⟨-, h7⟩ | ⟨h7, -⟩, -⟩)
      · linarith
      · linarith
      · exact_mod_cast h7
    · intro h7
      exact .inr ⟨.inr ⟨by exact_mod_cast h7, hsq⟩, hcR⟩
  · rw [hval, div_pow, mul_pow, Real.sq_sqrt hrR.le]
    push_cast
    ring

example : RealOk ⟨0, 1, 1, 14⟩ ∧ toContfrac ⟨false, true⟩ 10 ⟨0, 1, 1, 14⟩ = some (.ok (some ⟨[3], [1, 2, 1, 6], false⟩)) := by
  decide +kernel
example : RealOk ⟨0, -3, 10, 7⟩ ∧
    toContfrac ⟨false, true⟩ 30 ⟨0, -3, 10, 7⟩ =
      some (.ok (some ⟨[0, 1], [3, 1, 5, 1, 1, 2, 1, 5, 6, 5, 1, 2, 1, 1, 5, 1, 3, 2], true⟩)) := by
  decide +kernel

end Surd
end NumIrr
