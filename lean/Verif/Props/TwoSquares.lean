/-
C135: sums of two squares by Euclid's algorithm with Gaussian integers.
-/
import Verif.Props.Gcd
import Mathlib.NumberTheory.SumTwoSquares

namespace NumIrr

private theorem mem_gauss {z : ℂ} (h : z ∈ ringOf (-1)) : ∃ w : GInt, w.valC = z := by
  have hi : omegaC (-1) = Complex.I := by unfold omegaC rootC; norm_num
  unfold ringOf at h
  rw [hi] at h
  induction h using Algebra.adjoin_induction with
  | mem x hx =>
    rw [Set.mem_singleton_iff] at hx
    exact ⟨⟨0, 1⟩, by rw [hx]; simp [GInt.valC]⟩
  | algebraMap r => exact ⟨⟨r, 0⟩, by simp [GInt.valC]⟩
  | add x y _ _ hx hy =>
    obtain ⟨u, rfl⟩ := hx
    obtain ⟨v, rfl⟩ := hy
    exact ⟨⟨u.re + v.re, u.im + v.im⟩, by simp only [GInt.valC]; push_cast; ring⟩
  | mul x y _ _ hx hy =>
    obtain ⟨u, rfl⟩ := hx
    obtain ⟨v, rfl⟩ := hy
    exact ⟨⟨u.re * v.re - u.im * v.im, u.re * v.im + u.im * v.re⟩, by
      simp only [GInt.valC]; push_cast
      linear_combination -(u.im * v.im : ℂ) * Complex.I_mul_I⟩

private theorem coords {a b c d : ℤ} (h : (a : ℂ) + b * Complex.I = c + d * Complex.I) : a = c ∧ b = d := by
  have := gint_valC_inj ⟨a, b⟩ ⟨c, d⟩ (by simpa [GInt.valC] using h)
  simpa using this

private theorem divides {g : GInt} {a b : ℤ} (h : DividesIn (-1) g.valC ((a : ℂ) + b * Complex.I)) :
    ∃ u v : ℤ, a = g.re * u - g.im * v ∧ b = g.re * v + g.im * u := by
  obtain ⟨z, hz, e⟩ := h
  obtain ⟨w, rfl⟩ := mem_gauss hz
  refine ⟨w.re, w.im, coords ?_⟩
  rw [e]
  simp only [GInt.valC]; push_cast
  linear_combination (g.im * w.im : ℂ) * Complex.I_mul_I

/-- the greatest common divisor of `m` and `x + i` has norm `m` if `m` divides `x² + 1` -/
private theorem norm_gcd {m x : ℤ} (hm : 1 ≤ m) (hx : m ∣ x * x + 1) {g : GInt}
    (h : IsGcdIn (-1) g.valC (GInt.mk m 0).valC (GInt.mk x 1).valC) : g.norm = m := by
  have e1 : (GInt.mk m 0).valC = (m : ℂ) + ((0 : ℤ) : ℂ) * Complex.I := by simp [GInt.valC]
  have e2 : (GInt.mk x 1).valC = (x : ℂ) + ((1 : ℤ) : ℂ) * Complex.I := by simp [GInt.valC]
  obtain ⟨hl, hr, -, s, hs, t, ht, hst⟩ := h
  rw [e1] at hl hst
  rw [e2] at hr hst
  obtain ⟨u, v, h1, h2⟩ := divides hl
  obtain ⟨p, q, h3, h4⟩ := divides hr
  obtain ⟨S, rfl⟩ := mem_gauss hs
  obtain ⟨T, rfl⟩ := mem_gauss ht
  obtain ⟨h5, h6⟩ : g.re = S.re * m + (T.re * x - T.im) ∧ g.im = S.im * m + (T.re + T.im * x) := coords (by
    have : (g.re : ℂ) + g.im * Complex.I = g.valC := rfl
    rw [this, hst]
    simp only [GInt.valC]; push_cast
    linear_combination (T.im : ℂ) * Complex.I_mul_I)
  have hn0 : 0 ≤ g.norm := by unfold GInt.norm; nlinarith [mul_self_nonneg g.re, mul_self_nonneg g.im]
  refine Int.dvd_antisymm hn0 (by omega) ?_ ?_
  · -- the parts are coprime, since `1 = g.re * q + g.im * p`
    have k1 : g.norm ∣ m * g.re := ⟨u, by unfold GInt.norm; linear_combination g.re * h1 + g.im * h2⟩
    have k2 : g.norm ∣ m * g.im := ⟨-v, by unfold GInt.norm; linear_combination g.im * h1 - g.re * h2⟩
    have := dvd_add (k1.mul_left q) (k2.mul_left p)
    rwa [show q * (m * g.re) + p * (m * g.im) = m * (g.re * q + g.im * p) by ring, ← h4, mul_one] at this
  · obtain ⟨k, hk⟩ := hx
    refine ⟨S.re * S.re * m + S.im * S.im * m + 2 * (S.re * (T.re * x - T.im) + S.im * (T.re + T.im * x)) +
      (T.re * T.re + T.im * T.im) * k, ?_⟩
    unfold GInt.norm
    rw [h5, h6]
    linear_combination (T.re * T.re + T.im * T.im) * hk

/-- **C135** If `m` divides `x² + 1`, then Euclid's algorithm for `m` and `x + i` ends within `2 + log₂(x² + 1)` tests and
returns `u + vi` with `u² + v² = m`. -/
theorem gint_two_squares (m x : ℤ) (hm : 1 ≤ m) (hx : m ∣ x * x + 1) (n : ℕ) (hn : x * x + 1 < 2 ^ n) :
    ∃ u v, GInt.euclid (n + 1) ⟨m, 0⟩ ⟨x, 1⟩ = some (.ok ⟨u, v⟩) ∧ u * u + v * v = m := by
  obtain ⟨g, h1, h2⟩ := gint_gcd ⟨m, 0⟩ ⟨x, 1⟩ n (by simpa [GInt.norm] using hn)
  exact ⟨g.re, g.im, h1, norm_gcd hm hx h2⟩
example : (1105 : ℤ) ∣ 47 * 47 + 1 ∧ (47 * 47 + 1 : ℤ) < 2 ^ 12 ∧
    GInt.euclid 13 ⟨1105, 0⟩ ⟨47, 1⟩ = some (.ok ⟨-24, 23⟩) := by decide +kernel

/-- **C135** Over primitive integers with overflow checks it returns the same or panics with an overflow. -/
theorem fixed_two_squares (f : Fx) (hc : f.checks = true) (m x : ℤ) (hm : 1 ≤ m) (hx : m ∣ x * x + 1) (n : ℕ)
    (hn : x * x + 1 < 2 ^ n) :
    (∃ u v, f.gEuclid (n + 1) ⟨m, 0⟩ ⟨x, 1⟩ = some (.ok ⟨u, v⟩) ∧ u * u + v * v = m) ∨
      f.gEuclid (n + 1) ⟨m, 0⟩ ⟨x, 1⟩ = some (.error .overflow) := by
  rcases fixed_gint_gcd f hc ⟨m, 0⟩ ⟨x, 1⟩ (n + 1) with h | h
  · left; rw [h]; exact gint_two_squares m x hm hx n hn
  · exact .inr h
example : (⟨32, true⟩ : Fx).gEuclid 13 ⟨1105, 0⟩ ⟨47, 1⟩ = some (.ok ⟨-24, 23⟩) ∧
    (⟨16, true⟩ : Fx).gEuclid 13 ⟨1105, 0⟩ ⟨47, 1⟩ = some (.error .overflow) := by decide +kernel

/-- **C135** If `4m³` fits and `|x| ≤ m`, it returns them, with or without checks. -/
theorem fixed_two_squares_safe (f : Fx) (m x : ℤ) (hm : 1 ≤ m) (hx : m ∣ x * x + 1) (hx' : |x| ≤ m)
    (hf : 4 * m ^ 3 < 2 ^ (f.w - 1)) (n : ℕ) (hn : x * x + 1 < 2 ^ n) :
    ∃ u v, f.gEuclid (n + 1) ⟨m, 0⟩ ⟨x, 1⟩ = some (.ok ⟨u, v⟩) ∧ u * u + v * v = m := by
  rw [fixed_gint_gcd_safe f m hm hf ⟨m, 0⟩ ⟨x, 1⟩ ⟨by simp [abs_of_nonneg (by omega : 0 ≤ m)], by simp; omega⟩
    ⟨hx', by simpa using hm⟩]
  exact gint_two_squares m x hm hx n hn
example : (65 : ℤ) ∣ 8 * 8 + 1 ∧ |(8 : ℤ)| ≤ 65 ∧ 4 * (65 : ℤ) ^ 3 < 2 ^ (32 - 1) := by decide

/-- **C135** Every prime number that is not `3` modulo `4`, and only those, is found in this way. -/
theorem gint_two_squares_prime (p : ℕ) [Fact p.Prime] :
    p % 4 ≠ 3 ↔ ∃ (x u v : ℤ) (n : ℕ), GInt.euclid n ⟨p, 0⟩ ⟨x, 1⟩ = some (.ok ⟨u, v⟩) ∧ u * u + v * v = p := by
  constructor
  · intro h
    obtain ⟨y, hy⟩ := ZMod.exists_sq_eq_neg_one_iff.2 h
    have hd : (p : ℤ) ∣ (y.val : ℤ) * y.val + 1 := by
      rw [← ZMod.intCast_zmod_eq_zero_iff_dvd]
      push_cast
      rw [ZMod.natCast_zmod_val, ← hy]; ring
    obtain ⟨n, hn⟩ : ∃ n : ℕ, (y.val : ℤ) * y.val + 1 < 2 ^ n :=
      ⟨y.val * y.val + 1, by exact_mod_cast Nat.lt_two_pow_self⟩
    obtain ⟨u, v, h1, h2⟩ := gint_two_squares p y.val (by exact_mod_cast (Fact.out : p.Prime).one_le) hd n hn
    exact ⟨y.val, u, v, n + 1, h1, h2⟩
  · rintro ⟨x, u, v, n, -, h⟩ h3
    have hu : u * u % 4 = 0 ∨ u * u % 4 = 1 := by
      rcases Int.emod_two_eq_zero_or_one u with h | h
      · obtain ⟨k, rfl⟩ := Int.dvd_of_emod_eq_zero h; left; ring_nf; omega
      · obtain ⟨k, rfl⟩ : ∃ k, u = 2 * k + 1 := ⟨u / 2, by omega⟩
        right; ring_nf; omega
    have hv : v * v % 4 = 0 ∨ v * v % 4 = 1 := by
      rcases Int.emod_two_eq_zero_or_one v with h | h
      · obtain ⟨k, rfl⟩ := Int.dvd_of_emod_eq_zero h; left; ring_nf; omega
      · obtain ⟨k, rfl⟩ : ∃ k, v = 2 * k + 1 := ⟨v / 2, by omega⟩
        right; ring_nf; omega
    omega
example : 10007 % 4 = 3 ∧ 10009 % 4 ≠ 3 := by decide

end NumIrr
