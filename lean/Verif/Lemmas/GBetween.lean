/-
The value of a positive generalized continued fraction lies between consecutive convergents.
-/
import Verif.Lemmas.ConvStep
import Mathlib.Data.Nat.Factorial.Basic

namespace NumIrr

open Block Filter Topology

theorem Chain.num_eq {g : ℕ → ℤ × ℤ} {w : ℕ → ℝ} (h : Chain g w) (n : ℕ) :
    (rawN Block.identity g n).num (w n) = w 0 * (rawN Block.identity g n).den (w n) := by
  induction n with
  | zero => simp [rawN, Block.identity, Block.num, Block.den]
  | succ n ih =>
    obtain ⟨h1, h2⟩ := h n
    have h3 := (h (n + 1)).1
    rw [rawN]
    generalize rawN Block.identity g n = m at ih ⊢
    simp only [Block.num, Block.den, Block.raw] at ih ⊢
    push_cast
    have h4 : ((g n).2 : ℝ) * w (n + 1) + 1 = (g n).1 * w n * w (n + 1) := by rw [h2]; field_simp
    linear_combination (g n).1 * w (n + 1) * ih + (m.pm1 - w 0 * m.qm1) * h4

/-- `Pₙ₊₁ - x·Qₙ₊₁ = -(Pₙ - x·Qₙ)/wₙ₊₁` -/
theorem Chain.err {g : ℕ → ℤ × ℤ} {w : ℕ → ℝ} (h : Chain g w) (n : ℕ) :
    (gP g (n + 1) - w 0 * gQ g (n + 1)) * w (n + 1) = -(gP g n - w 0 * gQ g n) := by
  have := h.num_eq (n + 1)
  simp only [rawN, Block.num, Block.den, Block.raw] at this
  simp only [gP, gQ, rawN, Block.raw]
  linear_combination this

theorem Chain.between {g : ℕ → ℤ × ℤ} (hp : PosT g) {w : ℕ → ℝ} (h : Chain g w) (n : ℕ) :
    (w 0 - (gP g (n + 1) : ℝ) / gQ g (n + 1)) * (w 0 - (gP g (n + 2) : ℝ) / gQ g (n + 2)) ≤ 0 := by
  have he := h.err (n + 1)
  have hw := (h (n + 2)).1
  have q1 : (0 : ℝ) < gQ g (n + 1) := by have := (hp.gQ_pos n).1; exact_mod_cast (by omega : (0 : ℤ) < gQ g (n + 1))
  have q2 : (0 : ℝ) < gQ g (n + 2) := by
    have := (hp.gQ_pos (n + 1)).1; exact_mod_cast (lt_of_lt_of_le one_pos this : (0 : ℤ) < gQ g (n + 2))
  have e1 : w 0 - (gP g (n + 1) : ℝ) / gQ g (n + 1) = -(gP g (n + 1) - w 0 * gQ g (n + 1)) / gQ g (n + 1) := by
    field_simp; ring
  have e2 : w 0 - (gP g (n + 2) : ℝ) / gQ g (n + 2) = -(gP g (n + 2) - w 0 * gQ g (n + 2)) / gQ g (n + 2) := by
    field_simp; ring
  rw [e1, e2, ← he, div_mul_div_comm]
  apply div_nonpos_of_nonpos_of_nonneg
  · nlinarith [mul_nonneg hw.le (sq_nonneg ((gP g (n + 2) : ℝ) - w 0 * gQ g (n + 2)))]
  · positivity

theorem GVal.between {g : ℕ → ℤ × ℤ} (hp : PosG g) {x : ℝ} (hx : GVal g x) {n : ℕ} {v v' : ℚ}
    (hv : nest g n = some v) (hv' : nest g (n + 1) = some v') : (x - v) * (x - v') ≤ 0 := by
  have := ((hx.cto hp.1).chain hp.posT).between hp.posT n
  rw [(nest_eq hp.1 hv).2, (nest_eq hp.1 hv').2]
  push_cast
  exact this

/-- the determinants alternate in sign -/
theorem PosT.det_sign {g : ℕ → ℤ × ℤ} (hp : PosT g) (k : ℕ) :
    gP g (2 * k + 1) * gQ g (2 * k) - gP g (2 * k) * gQ g (2 * k + 1) < 0 ∧
      0 < gP g (2 * k + 2) * gQ g (2 * k + 1) - gP g (2 * k + 1) * gQ g (2 * k + 2) := by
  have step : ∀ n, gP g (n + 2) * gQ g (n + 1) - gP g (n + 1) * gQ g (n + 2)
      = -(g (n + 1)).1 * (gP g (n + 1) * gQ g n - gP g n * gQ g (n + 1)) := by
    intro n; rw [gP_rec, gQ_rec]; ring
  induction k with
  | zero =>
    have h1 : gP g (2 * 0 + 1) * gQ g (2 * 0) - gP g (2 * 0) * gQ g (2 * 0 + 1) < 0 := by
      have := hp.1 0
      simp only [Nat.mul_zero, Nat.zero_add, gQ_zero, gP_zero, gQ_one]; omega
    refine ⟨h1, ?_⟩
    rw [step]
    have := hp.1 (2 * 0 + 1)
    nlinarith
  | succ k ih =>
    have e : 2 * (k + 1) = 2 * k + 2 := by ring
    have h1 : gP g (2 * (k + 1) + 1) * gQ g (2 * (k + 1)) - gP g (2 * (k + 1)) * gQ g (2 * (k + 1) + 1) < 0 := by
      rw [e, step (2 * k + 1)]
      have := hp.1 (2 * k + 1 + 1)
      have h2 := ih.2
      nlinarith
    refine ⟨h1, ?_⟩
    rw [step]
    have := hp.1 (2 * (k + 1) + 1)
    nlinarith

/-- the convergents of even index increase -/
theorem PosG.even_lt {g : ℕ → ℤ × ℤ} (hp : PosG g) {v : ℕ → ℚ} (hv : ∀ m, nest g m = some (v m)) (k : ℕ) :
    v (2 * k) < v (2 * (k + 1)) := by
  rw [(nest_eq hp.1 (hv (2 * k))).2, (nest_eq hp.1 (hv (2 * (k + 1)))).2]
  have q1 : (0 : ℚ) < gQ g (2 * k + 1) := by
    exact_mod_cast (lt_of_lt_of_le one_pos (hp.posT.gQ_pos (2 * k)).1 : (0 : ℤ) < _)
  have q2 : (0 : ℚ) < gQ g (2 * (k + 1) + 1) := by
    exact_mod_cast (lt_of_lt_of_le one_pos (hp.posT.gQ_pos (2 * (k + 1))).1 : (0 : ℤ) < _)
  rw [div_lt_div_iff₀ q1 q2]
  have h : gP g (2 * k + 1) * gQ g (2 * (k + 1) + 1) < gP g (2 * (k + 1) + 1) * gQ g (2 * k + 1) := by
    have e : 2 * (k + 1) + 1 = 2 * k + 1 + 2 := by ring
    rw [e, gP_rec, gQ_rec]
    have h1 := (hp.posT.det_sign k).2
    have h2 := hp.posT.2.2 (2 * k + 1)
    have e2 : 2 * k + 1 + 1 = 2 * k + 2 := rfl
    rw [e2] at h2 ⊢
    nlinarith
  exact_mod_cast h

theorem PosG.nest_le {g : ℕ → ℤ × ℤ} (hp : PosG g) {n : ℕ} {v : ℚ} (hv : nest g n = some v) :
    v ≤ (g 0).2 + (g 1).1 := by
  obtain ⟨hq, he⟩ := nest_eq hp.1 hv
  have q1 : (0 : ℚ) < gQ g (n + 1) := by
    exact_mod_cast (lt_of_lt_of_le one_pos (hp.posT.gQ_pos n).1 : (0 : ℤ) < _)
  rw [he, div_le_iff₀ q1]
  have h : gP g (n + 1) ≤ ((g 0).2 + (g 1).1) * gQ g (n + 1) := by
    rw [gP_cons, gQ_cons, hp.1]
    cases n with
    | zero => have := (hp.2.2 0).1; simp only [Nat.zero_add] at this; simp; omega
    | succ n =>
      rw [gP_cons (shiftG g) n, gQ_cons (shiftG g) n]
      obtain ⟨h1, h2⟩ := hp.posT.shift.shift.gP_pos n
      obtain ⟨h3, h4⟩ := hp.2.2 0
      generalize gP (shiftG (shiftG g)) n = p at *
      generalize gQ (shiftG (shiftG g)) n = q at *
      simp only [shiftG, Nat.zero_add] at h3 h4 ⊢
      have e1 : (g 1).1 * p ≤ (g 1).1 * ((g 1).2 * p) := by nlinarith [mul_nonneg (by omega : 0 ≤ (g 1).1) (by omega : 0 ≤ p)]
      have e2 : 0 ≤ (g 1).1 * q := mul_nonneg (by omega) h2
      nlinarith
  exact_mod_cast h

/-- the denominators of the convergents are unbounded -/
theorem PosG.den_unbounded {g : ℕ → ℤ × ℤ} (hp : PosG g) {v : ℕ → ℚ} (hv : ∀ m, nest g m = some (v m)) (L : ℕ) :
    ∃ n, L ≤ (v (n + 1)).den := by
  by_contra hc
  push Not at hc
  have hD : ∀ k, ∃ z : ℤ, (z : ℚ) = v (2 * (k + 1)) * (L.factorial : ℚ) := by
    intro k
    have h1 : (v (2 * (k + 1))).den ∣ L.factorial :=
      Nat.dvd_factorial (v (2 * (k + 1))).den_pos (by have := hc (2 * k + 1); exact this.le)
    obtain ⟨c, hcd⟩ := h1
    refine ⟨(v (2 * (k + 1))).num * c, ?_⟩
    rw [hcd]
    push_cast
    rw [← mul_assoc, Rat.mul_den_eq_num]
  choose z hz using hD
  have hL : (0 : ℚ) < L.factorial := by exact_mod_cast L.factorial_pos
  have hmono : ∀ k, z k + 1 ≤ z (k + 1) := by
    intro k
    have : (z k : ℚ) < z (k + 1) := by
      rw [hz, hz]; exact mul_lt_mul_of_pos_right (hp.even_lt hv (k + 1)) hL
    have : z k < z (k + 1) := by exact_mod_cast this
    omega
  have hlin : ∀ k : ℕ, z 0 + k ≤ z k := by
    intro k
    induction k with
    | zero => simp
    | succ k ih => have := hmono k; push_cast; omega
  have hB : ∀ k, z k ≤ ((g 0).2 + (g 1).1) * (L.factorial : ℤ) := by
    intro k
    have := mul_le_mul_of_nonneg_right (hp.nest_le (hv (2 * (k + 1)))) hL.le
    rw [← hz] at this
    exact_mod_cast this
  have h1 := hlin ((((g 0).2 + (g 1).1) * (L.factorial : ℤ) - z 0).toNat + 1)
  have h2 := hB ((((g 0).2 + (g 1).1) * (L.factorial : ℤ) - z 0).toNat + 1)
  push_cast at h1
  generalize ((g 0).2 + (g 1).1) * (L.factorial : ℤ) = B at *
  omega

end NumIrr
