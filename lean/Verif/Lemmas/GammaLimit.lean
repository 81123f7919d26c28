/-
The weighted averages `p_n/q_n` tend to Euler's constant: the weights concentrate where `j² ≈ n - j`.
-/
import Verif.Lemmas.GammaSum
import Mathlib.NumberTheory.Harmonic.EulerMascheroni
import Mathlib.NumberTheory.Harmonic.Bounds
import Mathlib.Analysis.SpecialFunctions.Log.Basic
import Mathlib.Analysis.SpecialFunctions.Pow.Asymptotics

namespace NumIrr

open Finset Filter Topology

/-- the weights as real numbers -/
noncomputable def wt (n j : ℕ) : ℝ := (gamT n j : ℝ)

theorem wt_nonneg (n j : ℕ) : 0 ≤ wt n j := by unfold wt; exact_mod_cast gamT_nonneg n j

/-- the distance from the centre -/
noncomputable def dev (n j : ℕ) : ℝ := (j : ℝ) ^ 2 + j - n

/-- summation by parts -/
theorem wt_parts (n : ℕ) (g : ℕ → ℝ) :
    ∑ j ∈ range (n + 1), wt n j * (dev n j * g j) = ∑ j ∈ range (n + 1), wt n j * ((n - j) * (g (j + 1) - g j)) := by
  have h1 : ∑ j ∈ range (n + 1), wt n j * ((n - j) * g (j + 1)) = ∑ j ∈ range (n + 1), wt n j * ((j : ℝ) ^ 2 * g j) := by
    have e : ∀ j ∈ range (n + 1), wt n j * ((n - j) * g (j + 1)) = wt n (j + 1) * (((j + 1 : ℕ) : ℝ) ^ 2 * g (j + 1)) := by
      intro j hj
      have := gamT_next n j (Nat.lt_succ_iff.mp (mem_range.mp hj))
      have c : wt n (j + 1) * (j + 1) ^ 2 = wt n j * (n - j) := by unfold wt; exact_mod_cast this
      push_cast
      linear_combination -(g (j + 1)) * c
    rw [sum_congr rfl e, sum_range_succ, show wt n (n + 1) = 0 by unfold wt; rw [gamT_zero (by omega)]; simp,
      sum_range_succ' (fun j => wt n j * ((j : ℝ) ^ 2 * g j)) n]
    simp
  have h2 : ∑ j ∈ range (n + 1), wt n j * ((n - j) * (g (j + 1) - g j))
      = ∑ j ∈ range (n + 1), wt n j * ((n - j) * g (j + 1)) - ∑ j ∈ range (n + 1), wt n j * ((n - j) * g j) := by
    rw [← sum_sub_distrib]; exact sum_congr rfl fun j _ => by ring
  rw [h2, h1, ← sum_sub_distrib]
  exact sum_congr rfl fun j _ => by unfold dev; ring

theorem wt_sum (n : ℕ) : ∑ j ∈ range (n + 1), wt n j = gamQ n := by
  unfold wt
  rw [← Rat.cast_sum, ← gamQ_eq]
  simp

/-- the second moment -/
theorem wt_sq (n : ℕ) : ∑ j ∈ range (n + 1), wt n j * (j : ℝ) ^ 2 ≤ n * gamQ n := by
  have h := wt_parts n fun _ => 1
  simp only [sub_self, mul_zero, mul_one, sum_const_zero] at h
  rw [← wt_sum, mul_sum]
  have : ∑ j ∈ range (n + 1), wt n j * (j : ℝ) ^ 2 ≤ ∑ j ∈ range (n + 1), (wt n j * dev n j + n * wt n j) := by
    refine sum_le_sum fun j _ => ?_
    unfold dev
    have := wt_nonneg n j
    have : 0 ≤ wt n j * j := by positivity
    nlinarith
  rw [sum_add_distrib, h] at this
  linarith

/-- the variance -/
theorem wt_var (n : ℕ) (hn : 1 ≤ n) : ∑ j ∈ range (n + 1), wt n j * dev n j ^ 2 ≤ 4 * n * Real.sqrt n * gamQ n := by
  have h := wt_parts n (dev n)
  have e : ∀ j ∈ range (n + 1), wt n j * dev n j ^ 2 = wt n j * (dev n j * dev n j) := fun j _ => by ring
  rw [sum_congr rfl e, h]
  have hn' : (1 : ℝ) ≤ n := by exact_mod_cast hn
  set r := Real.sqrt n with hr
  have hr2 : r * r = n := Real.mul_self_sqrt (by positivity)
  have hr1 : 1 ≤ r := by rw [hr]; exact Real.one_le_sqrt.mpr hn'
  have b : ∀ j ∈ range (n + 1), wt n j * ((n - j) * (dev n (j + 1) - dev n j)) ≤ r * (wt n j * (j : ℝ) ^ 2) + (n * r + 2 * n) * wt n j := by
    intro j hj
    have hj' : (j : ℝ) ≤ n := by exact_mod_cast Nat.lt_succ_iff.mp (mem_range.mp hj)
    have hw := wt_nonneg n j
    have d : dev n (j + 1) - dev n j = 2 * j + 2 := by unfold dev; push_cast; ring
    rw [d]
    have j0 : (0 : ℝ) ≤ j := by positivity
    have s1 : ((n : ℝ) - j) * (2 * j + 2) ≤ n * (2 * j + 2) := by nlinarith
    have s2 : n * (2 * j + 2) ≤ r * (j : ℝ) ^ 2 + (n * r + 2 * n) := by
      have : 0 ≤ r * (j - r) ^ 2 := by positivity
      nlinarith
    calc wt n j * (((n : ℝ) - j) * (2 * j + 2)) ≤ wt n j * (r * (j : ℝ) ^ 2 + (n * r + 2 * n)) :=
          mul_le_mul_of_nonneg_left (s1.trans s2) hw
      _ = _ := by ring
  refine (sum_le_sum b).trans ?_
  rw [sum_add_distrib, ← mul_sum, ← mul_sum, wt_sum]
  have q0 : (0 : ℝ) ≤ gamQ n := by positivity
  have := mul_le_mul_of_nonneg_left (wt_sq n) (by linarith : 0 ≤ r)
  have k : 2 * n * (gamQ n : ℝ) ≤ 2 * n * r * gamQ n := by
    have : 0 ≤ 2 * (n : ℝ) * gamQ n := by positivity
    nlinarith
  nlinarith

theorem abs_log_le {y : ℝ} (h : |y| ≤ 1 / 2) : |Real.log (1 + y)| ≤ 2 * |y| := by
  obtain ⟨h1, h2⟩ := abs_le.mp h
  have p : 0 < 1 + y := by linarith
  have u := Real.log_le_sub_one_of_pos p
  have l := Real.one_sub_inv_le_log_of_pos p
  have l' : -(2 * |y|) ≤ 1 - (1 + y)⁻¹ := by
    have e : 1 - (1 + y)⁻¹ = y / (1 + y) := by field_simp; ring
    rw [e, le_div_iff₀ p]
    rcases abs_cases y with ⟨h, h'⟩ | ⟨h, h'⟩ <;> rw [h] <;> nlinarith
  rw [abs_le]
  refine ⟨l'.trans l, ?_⟩
  have := le_abs_self y
  have := abs_nonneg y
  linarith

theorem harmonic_mono {m n : ℕ} (h : m ≤ n) : harmonic m ≤ harmonic n := by
  unfold harmonic
  exact sum_le_sum_of_subset_of_nonneg (range_mono h) fun i _ _ => by positivity

theorem harmonic_nonneg (n : ℕ) : 0 ≤ harmonic n := harmonic_mono (Nat.zero_le n)

/-- the distance of what is averaged from the limit -/
theorem gamH_dist (ε : ℝ) (hε : 0 < ε) : ∃ N : ℕ, ∀ n ≥ N, ∀ j ≤ n,
    |(gamH n j : ℝ) - Real.eulerMascheroniConstant|
      ≤ 3 * ε + 4 * (|dev n j| / n) + 16 * (2 * (harmonic n : ℝ) + 1) * (dev n j ^ 2 / n ^ 2) := by
  have lim := Metric.tendsto_atTop.mp Real.tendsto_harmonic_sub_log ε hε
  obtain ⟨M, hM⟩ := lim
  refine ⟨2 * (M + 3) ^ 2 + 6, fun n hn j hj => ?_⟩
  set γ := Real.eulerMascheroniConstant with hγ
  have g0 : 0 < γ := by have := Real.one_half_lt_eulerMascheroniConstant; rw [← hγ] at this; linarith
  have g1 : γ < 1 := by have := Real.eulerMascheroniConstant_lt_two_thirds; rw [← hγ] at this; linarith
  have n6 : (6 : ℝ) ≤ n := by have : 6 ≤ n := by omega
                              exact_mod_cast this
  have np : (0 : ℝ) < n := by linarith
  have hj' : (j : ℝ) ≤ n := by exact_mod_cast hj
  have L0 : (0 : ℝ) ≤ harmonic n := by exact_mod_cast harmonic_nonneg n
  by_cases hg : |dev n j| ≤ n / 4
  · -- near the centre
    obtain ⟨d1, d2⟩ := abs_le.mp hg
    have dj : dev n j = (j : ℝ) ^ 2 + j - n := rfl
    have j0 : (0 : ℝ) ≤ j := by positivity
    have jM : M + 1 ≤ j := by
      by_contra hc
      have : j ≤ M := by omega
      have c : (j : ℝ) ≤ M := by exact_mod_cast this
      have hn' : (2 * (M + 3 : ℝ) ^ 2 + 6) ≤ n := by exact_mod_cast hn
      have : (0 : ℝ) ≤ M := by positivity
      nlinarith
    have j1 : (1 : ℝ) ≤ j := by exact_mod_cast (by omega : 1 ≤ j)
    have jn : (j : ℝ) ≤ n / 2 := by
      by_contra hc
      push Not at hc
      nlinarith
    have njM : M ≤ n - j := by
      have : 2 * j ≤ n := by
        have : (2 * j : ℝ) ≤ n := by linarith
        exact_mod_cast this
      have : 2 * M ≤ n := by nlinarith
      omega
    have cast : ((n - j : ℕ) : ℝ) = n - j := by push_cast [hj]; ring
    have e1 := hM j (by omega)
    have e2 := hM (n - j) njM
    rw [Real.dist_eq] at e1 e2
    rw [cast] at e2
    have nj : (0 : ℝ) < n - j := by linarith
    have y : |dev n j / (n - j)| ≤ 1 / 2 := by
      rw [abs_div, abs_of_pos nj, div_le_iff₀ nj]
      linarith
    have lg := abs_log_le y
    have ee : 1 + dev n j / (n - j) = (j : ℝ) ^ 2 / (n - j) := by rw [dj]; field_simp; ring
    rw [ee, Real.log_div (by positivity) nj.ne', Real.log_pow] at lg
    have lb : 2 * |dev n j / (n - j)| ≤ 4 * (|dev n j| / n) := by
      rw [abs_div, abs_of_pos nj, ← mul_div_assoc, ← mul_div_assoc, div_le_div_iff₀ nj np]
      have := abs_nonneg (dev n j)
      nlinarith
    have hh : (gamH n j : ℝ) - γ = 2 * ((harmonic j : ℝ) - Real.log j - γ) - ((harmonic (n - j) : ℝ) - Real.log (n - j) - γ)
        + (((2 : ℕ) : ℝ) * Real.log j - Real.log (n - j)) := by
      unfold gamH; push_cast; ring
    rw [hh]
    have rest : 0 ≤ 16 * (2 * (harmonic n : ℝ) + 1) * (dev n j ^ 2 / n ^ 2) := by positivity
    obtain ⟨a1, a2⟩ := abs_lt.mp e1
    obtain ⟨b1, b2⟩ := abs_lt.mp e2
    obtain ⟨c1, c2⟩ := abs_le.mp (lg.trans lb)
    rw [abs_le]
    constructor <;> linarith
  · -- far from the centre
    push Not at hg
    have h1 : (harmonic j : ℝ) ≤ harmonic n := by exact_mod_cast harmonic_mono hj
    have h2 : (harmonic (n - j) : ℝ) ≤ harmonic n := by exact_mod_cast harmonic_mono (Nat.sub_le n j)
    have h3 : (0 : ℝ) ≤ harmonic j := by exact_mod_cast harmonic_nonneg j
    have h4 : (0 : ℝ) ≤ harmonic (n - j) := by exact_mod_cast harmonic_nonneg (n - j)
    have b : |(gamH n j : ℝ) - γ| ≤ 2 * (harmonic n : ℝ) + 1 := by
      unfold gamH
      push_cast
      rw [abs_le]
      constructor <;> linarith
    have sq : 1 ≤ 16 * (dev n j ^ 2 / n ^ 2) := by
      rw [← mul_div_assoc, le_div_iff₀ (by positivity), ← sq_abs (dev n j)]
      nlinarith
    have p1 : 0 ≤ 4 * (|dev n j| / (n : ℝ)) := by positivity
    have : (2 * (harmonic n : ℝ) + 1) * 1 ≤ (2 * (harmonic n : ℝ) + 1) * (16 * (dev n j ^ 2 / n ^ 2)) :=
      mul_le_mul_of_nonneg_left sq (by linarith)
    linarith

/-- `p_n/q_n → γ` -/
theorem gamma_tendsto : Tendsto (fun n => ((gamP n / gamQ n : ℚ) : ℝ)) atTop (𝓝 Real.eulerMascheroniConstant) := by
  rw [Metric.tendsto_atTop]
  intro δ hδ
  set ε := δ / 8 with hε'
  have hε : 0 < ε := by positivity
  obtain ⟨N, hN⟩ := gamH_dist ε hε
  -- the remaining error tends to zero
  have l1 : Tendsto (fun n : ℕ => (4 / ε + 16 * (2 * (1 + Real.log n) + 1)) * (4 / Real.sqrt n)) atTop (𝓝 0) := by
    have a : Tendsto (fun n : ℕ => 1 / Real.sqrt (n : ℝ)) atTop (𝓝 0) :=
      (tendsto_const_nhds.div_atTop (Real.tendsto_sqrt_atTop.comp tendsto_natCast_atTop_atTop))
    have b : Tendsto (fun n : ℕ => Real.log n / Real.sqrt (n : ℝ)) atTop (𝓝 0) := by
      have := (isLittleO_log_rpow_atTop (by norm_num : (0 : ℝ) < 1 / 2)).tendsto_div_nhds_zero.comp
        (tendsto_natCast_atTop_atTop (R := ℝ))
      refine this.congr fun n => ?_
      simp only [Function.comp, Real.sqrt_eq_rpow]
    have c := (a.const_mul ((4 / ε + 48) * 4)).add (b.const_mul 128)
    simp only [mul_zero, add_zero] at c
    refine c.congr fun n => ?_
    ring
  obtain ⟨K, hK⟩ := Metric.tendsto_atTop.mp l1 ε hε
  refine ⟨max (max N K) 1, fun n hn => ?_⟩
  have hn1 : 1 ≤ n := le_trans (le_max_right _ _) hn
  have hnN : N ≤ n := le_trans (le_trans (le_max_left _ _) (le_max_left _ _)) hn
  have hnK : K ≤ n := le_trans (le_trans (le_max_right _ _) (le_max_left _ _)) hn
  have k := hK n hnK
  rw [Real.dist_eq, sub_zero] at k
  replace k := (le_abs_self _).trans_lt k
  have hn' : (1 : ℝ) ≤ n := by exact_mod_cast hn1
  have np : (0 : ℝ) < n := by linarith
  have q0 : (0 : ℝ) < gamQ n := by exact_mod_cast gamQ_pos n
  set γ := Real.eulerMascheroniConstant with hγ
  have hP : (gamP n : ℝ) = ∑ j ∈ range (n + 1), wt n j * (gamH n j : ℝ) := by
    rw [gamP_eq]; unfold wt; push_cast; rfl
  have hdiff : (gamP n : ℝ) - γ * gamQ n = ∑ j ∈ range (n + 1), wt n j * ((gamH n j : ℝ) - γ) := by
    rw [hP, ← wt_sum, mul_sum, ← sum_sub_distrib]
    exact sum_congr rfl fun j _ => by ring
  have L : (harmonic n : ℝ) ≤ 1 + Real.log n := by exact_mod_cast harmonic_le_one_add_log n
  have lg0 : 0 ≤ Real.log n := Real.log_nonneg hn'
  set C := 4 / ε + 16 * (2 * (1 + Real.log n) + 1) with hC
  have C0 : 0 ≤ C := by positivity
  have bound : |(gamP n : ℝ) - γ * gamQ n| ≤ 7 * ε * gamQ n + C * (4 / Real.sqrt n) * gamQ n := by
    rw [hdiff]
    refine (abs_sum_le_sum_abs _ _).trans ?_
    have each : ∀ j ∈ range (n + 1), |wt n j * ((gamH n j : ℝ) - γ)| ≤ 7 * ε * wt n j + C / n ^ 2 * (wt n j * dev n j ^ 2) := by
      intro j hj
      have hj' := Nat.lt_succ_iff.mp (mem_range.mp hj)
      have w := wt_nonneg n j
      rw [abs_mul, abs_of_nonneg w]
      have d := hN n hnN j hj'
      have s : |dev n j| / n ≤ ε + dev n j ^ 2 / n ^ 2 / ε := by
        set x := |dev n j| / (n : ℝ) with hx
        have x2 : dev n j ^ 2 / (n : ℝ) ^ 2 = x ^ 2 := by rw [hx, div_pow, sq_abs]
        rw [x2]
        have x0 : 0 ≤ x := by positivity
        have : x * ε ≤ ε * ε + x ^ 2 := by nlinarith [sq_nonneg (x - ε)]
        have e : x ^ 2 = x ^ 2 / ε * ε := by field_simp
        rw [e] at this
        nlinarith
      have z : 0 ≤ dev n j ^ 2 / (n : ℝ) ^ 2 := by positivity
      have m : (16 * (2 * (harmonic n : ℝ) + 1)) * (dev n j ^ 2 / n ^ 2) ≤ 16 * (2 * (1 + Real.log n) + 1) * (dev n j ^ 2 / n ^ 2) :=
        mul_le_mul_of_nonneg_right (by linarith) z
      have t : |(gamH n j : ℝ) - γ| ≤ 7 * ε + C * (dev n j ^ 2 / n ^ 2) := by
        have : 4 * (dev n j ^ 2 / (n : ℝ) ^ 2 / ε) = 4 / ε * (dev n j ^ 2 / n ^ 2) := by ring
        rw [hC]
        nlinarith
      calc wt n j * |(gamH n j : ℝ) - γ| ≤ wt n j * (7 * ε + C * (dev n j ^ 2 / n ^ 2)) := mul_le_mul_of_nonneg_left t w
        _ = _ := by ring
    refine (sum_le_sum each).trans ?_
    rw [sum_add_distrib, ← mul_sum, ← mul_sum, wt_sum]
    have v := wt_var n hn1
    have v' : C / (n : ℝ) ^ 2 * ∑ j ∈ range (n + 1), wt n j * dev n j ^ 2 ≤ C / n ^ 2 * (4 * n * Real.sqrt n * gamQ n) :=
      mul_le_mul_of_nonneg_left v (by positivity)
    have e : C / (n : ℝ) ^ 2 * (4 * n * Real.sqrt n * gamQ n) = C * (4 / Real.sqrt n) * gamQ n := by
      have sp : 0 < Real.sqrt n := Real.sqrt_pos.mpr np
      have ss : Real.sqrt n * Real.sqrt n = n := Real.mul_self_sqrt np.le
      field_simp
      nlinarith
    linarith
  rw [Real.dist_eq]
  push_cast
  have e : (gamP n : ℝ) / gamQ n - γ = ((gamP n : ℝ) - γ * gamQ n) / gamQ n := by field_simp
  rw [e, abs_div, abs_of_pos q0, div_lt_iff₀ q0]
  calc |(gamP n : ℝ) - γ * gamQ n| ≤ 7 * ε * gamQ n + C * (4 / Real.sqrt n) * gamQ n := bound
    _ < 7 * ε * gamQ n + ε * gamQ n := by
      have := mul_lt_mul_of_pos_right k q0
      linarith
    _ = δ * gamQ n := by rw [hε']; ring

end NumIrr
