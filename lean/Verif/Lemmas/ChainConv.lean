/-
A positive generalized continued fraction with `aₖ₊₁ ≤ bₖ·bₖ₊₁` converges to the number having its complete quotients.
-/
import Verif.Lemmas.GBetween
import Mathlib.Analysis.SpecificLimits.Basic

namespace NumIrr

open Block Filter Topology

theorem PosT.gap {g : ℕ → ℤ × ℤ} (hp : PosT g) (hab : ∀ k, (g (k + 2)).1 ≤ (g (k + 1)).2 * (g (k + 2)).2) (n : ℕ) :
    |(gP g (n + 3) : ℝ) / gQ g (n + 3) - gP g (n + 2) / gQ g (n + 2)|
      ≤ 1 / 2 * |(gP g (n + 2) : ℝ) / gQ g (n + 2) - gP g (n + 1) / gQ g (n + 1)| := by
  have q1 : (0 : ℝ) < gQ g (n + 1) := by
    exact_mod_cast (lt_of_lt_of_le one_pos (hp.gQ_pos n).1 : (0 : ℤ) < gQ g (n + 1))
  have q2 : (0 : ℝ) < gQ g (n + 2) := by
    exact_mod_cast (lt_of_lt_of_le one_pos (hp.gQ_pos (n + 1)).1 : (0 : ℤ) < gQ g (n + 2))
  have q3 : (0 : ℝ) < gQ g (n + 3) := by
    exact_mod_cast (lt_of_lt_of_le one_pos (hp.gQ_pos (n + 2)).1 : (0 : ℤ) < gQ g (n + 3))
  have hP : (gP g (n + 3) : ℝ) = gP g (n + 2) * (g (n + 2)).2 + gP g (n + 1) * (g (n + 2)).1 := by
    exact_mod_cast gP_rec g (n + 1)
  have hQ : (gQ g (n + 3) : ℝ) = gQ g (n + 2) * (g (n + 2)).2 + gQ g (n + 1) * (g (n + 2)).1 := by
    exact_mod_cast gQ_rec g (n + 1)
  have ha : (1 : ℝ) ≤ (g (n + 2)).1 := by exact_mod_cast hp.1 (n + 2)
  have e : (gP g (n + 3) : ℝ) / gQ g (n + 3) - gP g (n + 2) / gQ g (n + 2)
      = -((g (n + 2)).1 * gQ g (n + 1) / gQ g (n + 3)) * ((gP g (n + 2) : ℝ) / gQ g (n + 2) - gP g (n + 1) / gQ g (n + 1)) := by
    have key : (gP g (n + 3) : ℝ) * gQ g (n + 2) - gQ g (n + 3) * gP g (n + 2)
        = -((g (n + 2)).1 * (gP g (n + 2) * gQ g (n + 1) - gQ g (n + 2) * gP g (n + 1))) := by
      rw [hP, hQ]; ring
    rw [div_sub_div _ _ q3.ne' q2.ne', div_sub_div _ _ q2.ne' q1.ne', ← neg_div, div_mul_div_comm,
      div_eq_div_iff (by positivity) (by positivity), key]
    ring
  rw [e, abs_mul, abs_neg, abs_of_nonneg (by positivity)]
  apply mul_le_mul_of_nonneg_right _ (abs_nonneg _)
  rw [div_le_iff₀ q3]
  have h1 : (gQ g (n + 1) * (g (n + 1)).2 : ℝ) ≤ gQ g (n + 2) := by
    have h := gQ_rec g n
    have h0 : 0 ≤ gQ g n := by
      cases n with
      | zero => simp
      | succ n => have := (hp.gQ_pos n).1; omega
    have ha1 := hp.1 (n + 1)
    have : gQ g (n + 1) * (g (n + 1)).2 ≤ gQ g (n + 2) := by rw [h]; nlinarith
    exact_mod_cast this
  have hb : (0 : ℝ) ≤ (g (n + 2)).2 := by
    have := hp.2.2 (n + 1)
    exact_mod_cast (by omega : 0 ≤ (g (n + 1 + 1)).2)
  have hab' : ((g (n + 2)).1 : ℝ) ≤ (g (n + 1)).2 * (g (n + 2)).2 := by exact_mod_cast hab n
  have h2 := mul_le_mul_of_nonneg_right h1 hb
  have h3 := mul_le_mul_of_nonneg_left hab' q1.le
  rw [hQ]
  nlinarith

theorem Chain.cto {g : ℕ → ℤ × ℤ} (hp : PosT g) {w : ℕ → ℝ} (h : Chain g w)
    (hab : ∀ k, (g (k + 2)).1 ≤ (g (k + 1)).2 * (g (k + 2)).2) : CTo g (w 0) := by
  set c : ℕ → ℝ := fun n => (gP g (n + 1) : ℝ) / gQ g (n + 1) with hc
  have hgap : ∀ n, |c (n + 1) - c n| ≤ (1 / 2) ^ n * |c 1 - c 0| := by
    intro n
    induction n with
    | zero => simp
    | succ n ih =>
      have := hp.gap hab n
      calc |c (n + 2) - c (n + 1)| ≤ 1 / 2 * |c (n + 1) - c n| := this
        _ ≤ 1 / 2 * ((1 / 2) ^ n * |c 1 - c 0|) := by linarith
        _ = (1 / 2) ^ (n + 1) * |c 1 - c 0| := by ring
  have herr : ∀ n, |c n - w 0| ≤ (1 / 2) ^ n * |c 1 - c 0| := by
    intro n
    refine le_trans ?_ (hgap n)
    have hb : (w 0 - c n) * (w 0 - c (n + 1)) ≤ 0 := h.between hp n
    rcases le_total (w 0) (c n) with h1 | h1 <;> rcases le_total (w 0) (c (n + 1)) with h2 | h2
    · rw [abs_of_nonneg (by linarith)]
      rcases le_total (c n) (c (n + 1)) with h3 | h3
      · rw [abs_of_nonneg (by linarith)]; nlinarith
      · rw [abs_of_nonpos (by linarith)]; nlinarith
    · rw [abs_of_nonneg (by linarith), abs_of_nonpos (by linarith)]; linarith
    · rw [abs_of_nonpos (by linarith), abs_of_nonneg (by linarith)]; linarith
    · rw [abs_of_nonpos (by linarith)]
      rcases le_total (c n) (c (n + 1)) with h3 | h3
      · rw [abs_of_nonneg (by linarith)]; nlinarith
      · rw [abs_of_nonpos (by linarith)]; nlinarith
  have hlim : Tendsto (fun n : ℕ => (1 / 2 : ℝ) ^ n * |c 1 - c 0|) atTop (𝓝 0) := by
    have := (tendsto_pow_atTop_nhds_zero_of_lt_one (by norm_num : (0 : ℝ) ≤ 1 / 2) (by norm_num)).mul_const |c 1 - c 0|
    rwa [zero_mul] at this
  show Tendsto c atTop (𝓝 (w 0))
  rw [tendsto_iff_dist_tendsto_zero]
  exact squeeze_zero (fun n => dist_nonneg) (fun n => by rw [Real.dist_eq]; exact herr n) hlim

end NumIrr
