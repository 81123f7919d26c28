/-
C134: the solutions of Pell's equation among the convergents are the powers of the first one, multiplied with the
arithmetic of surds.
-/
import Verif.Props.Pell

namespace NumIrr
namespace Surd

/-- `x`, `x * x`, `x * x * x`, … -/
def powers (cfg : Cfg) (x : Surd) : ℕ → Res Surd
  | 0 => pure x
  | k + 1 => do mul cfg (← powers cfg x k) x

private theorem reduce_one {N : ℤ} (hN : ¬ IsSquare N) (h0 : 0 < N) {a b : ℤ} (hb : b ≠ 0) (cfg : Cfg) :
    fromCoeffs cfg ⟨a, b, 1⟩ N = .ok ⟨a, b, 1, N⟩ := by
  have h1 : ¬ (isqrt (N.natAbs : ℤ) * isqrt (N.natAbs : ℤ) = N) := fun h => hN ((isqrt_natAbs_iff N).1 h)
  have h2 : isqrt 1 = 1 := by decide +kernel
  unfold fromCoeffs
  rw [if_neg (by omega)]
  simp only [reduce, reduceSquare, if_neg h1, one_ne_zero, if_false, hb, h0.ne', false_or, reduceIrr, reduceFactor]
  simp [igcd, h2, reduceSign]

private theorem mul_one_den {N : ℤ} (hN : ¬ IsSquare N) (h0 : 0 < N) {a b p q : ℤ} (ha : a ≠ 0) (hb : b ≠ 0) (hq : q ≠ 0)
    (hz : a * q + b * p ≠ 0) (cfg : Cfg) :
    mul cfg ⟨a, b, 1, N⟩ ⟨p, q, 1, N⟩ = .ok ⟨a * p + b * q * N, a * q + b * p, 1, N⟩ := by
  have hbin : reduceBinOpUnwrap cfg ⟨a, b, 1, N⟩ ⟨p, q, 1, N⟩ = .ok (⟨a, b, 1, N⟩, ⟨p, q, 1, N⟩) := by
    unfold reduceBinOpUnwrap reduceBinOp
    obtain ⟨c, d⟩ := cfg
    cases c <;> simp [h0.ne'] <;> rfl
  unfold mul
  rw [if_neg (by simp [isRational, hq, h0.ne']), if_neg (by simp [isRational, hb, h0.ne']),
    if_neg (by simp [isPure, ha]), hbin]
  exact reduce_one hN h0 hz cfg

end Surd

/-! ### integers -/

private def Sol (N p q : ℤ) : Prop := 1 ≤ p ∧ 1 ≤ q ∧ (p ^ 2 - N * q ^ 2 = 1 ∨ p ^ 2 - N * q ^ 2 = -1)

private theorem Sol.unique {N p p' q : ℤ} (h : Sol N p q) (h' : Sol N p' q) : p = p' := by
  obtain ⟨h1, -, h3⟩ := h
  obtain ⟨k1, -, k3⟩ := h'
  by_contra hne
  rcases lt_or_gt_of_ne hne with hl | hl
  · have : 3 ≤ p' ^ 2 - p ^ 2 := by nlinarith
    rcases h3 with h3 | h3 <;> rcases k3 with k3 | k3 <;> linarith
  · have : 3 ≤ p ^ 2 - p' ^ 2 := by nlinarith
    rcases h3 with h3 | h3 <;> rcases k3 with k3 | k3 <;> linarith

private theorem pos_of_sq {x y : ℤ} (hy : 0 ≤ y) (h : y ^ 2 < x ^ 2) (hx : 0 ≤ x) : 1 ≤ x - y := by
  have := lt_of_pow_lt_pow_left₀ 2 hx h
  omega

/-- dividing a solution by a smaller one -/
private theorem Sol.descent {N p q u v : ℤ} (hN : 2 ≤ N) (h : Sol N p q) (k : Sol N u v) (hlt : q < v) :
    ∃ a b, Sol N a b ∧ u = a * p + b * q * N ∧ v = a * q + b * p := by
  obtain ⟨h1, h2, h3⟩ := h
  obtain ⟨k1, k2, k3⟩ := k
  have hv : q ^ 2 + 3 ≤ v ^ 2 := by nlinarith
  have hNv : N * q ^ 2 + 6 ≤ N * v ^ 2 := by nlinarith
  have hq2 : 1 ≤ q ^ 2 := by nlinarith
  have hNq : 2 ≤ N * q ^ 2 := by nlinarith
  rcases h3 with h3 | h3
  · refine ⟨u * p - N * (v * q), v * p - u * q, ⟨?_, ?_, ?_⟩, ?_, ?_⟩
    · refine pos_of_sq (by positivity) ?_ (by positivity)
      have e : (u * p) ^ 2 - (N * (v * q)) ^ 2 = (u ^ 2 - N * v ^ 2) * (p ^ 2 - N * q ^ 2) + N * v ^ 2 * (p ^ 2 - N * q ^ 2) +
        N * q ^ 2 * (u ^ 2 - N * v ^ 2) := by ring
      rw [h3] at e
      rcases k3 with k3 | k3 <;> rw [k3] at e <;> linarith
    · refine pos_of_sq (by positivity) ?_ (by positivity)
      have e : (v * p) ^ 2 - (u * q) ^ 2 = v ^ 2 * (p ^ 2 - N * q ^ 2) - q ^ 2 * (u ^ 2 - N * v ^ 2) := by ring
      rw [h3] at e
      rcases k3 with k3 | k3 <;> rw [k3] at e <;> linarith
    · have e : (u * p - N * (v * q)) ^ 2 - N * (v * p - u * q) ^ 2 = (u ^ 2 - N * v ^ 2) * (p ^ 2 - N * q ^ 2) := by ring
      rw [e, h3, mul_one]; exact k3
    · linear_combination -u * h3
    · linear_combination -v * h3
  · refine ⟨N * (v * q) - u * p, u * q - v * p, ⟨?_, ?_, ?_⟩, ?_, ?_⟩
    · refine pos_of_sq (by positivity) ?_ (by positivity)
      have e : (u * p) ^ 2 - (N * (v * q)) ^ 2 = (u ^ 2 - N * v ^ 2) * (p ^ 2 - N * q ^ 2) + N * v ^ 2 * (p ^ 2 - N * q ^ 2) +
        N * q ^ 2 * (u ^ 2 - N * v ^ 2) := by ring
      rw [h3] at e
      rcases k3 with k3 | k3 <;> rw [k3] at e <;> linarith
    · refine pos_of_sq (by positivity) ?_ (by positivity)
      have e : (v * p) ^ 2 - (u * q) ^ 2 = v ^ 2 * (p ^ 2 - N * q ^ 2) - q ^ 2 * (u ^ 2 - N * v ^ 2) := by ring
      rw [h3] at e
      rcases k3 with k3 | k3 <;> rw [k3] at e <;> linarith
    · have e : (N * (v * q) - u * p) ^ 2 - N * (u * q - v * p) ^ 2 = (u ^ 2 - N * v ^ 2) * (p ^ 2 - N * q ^ 2) := by ring
      rw [e, h3]; rcases k3 with k3 | k3 <;> rw [k3] <;> simp
    · linear_combination u * h3
    · linear_combination v * h3

/-- the solutions in ascending order are the powers of the first one -/
private theorem sol_step {N : ℤ} (hN : 2 ≤ N) {P Q : ℕ → ℤ} (hs : ∀ k, Sol N (P k) (Q k)) (hm : StrictMono Q)
    (hall : ∀ p q, Sol N p q → ∃ k, p = P k ∧ q = Q k) (k : ℕ) :
    P (k + 1) = P k * P 0 + Q k * Q 0 * N ∧ Q (k + 1) = P k * Q 0 + Q k * P 0 := by
  induction k using Nat.strong_induction_on with
  | _ k ih =>
    obtain ⟨a, b, h1, h2, h3⟩ := (hs 0).descent hN (hs (k + 1)) (hm (Nat.succ_pos k))
    obtain ⟨i, rfl, rfl⟩ := hall a b h1
    rcases lt_trichotomy i k with hi | rfl | hi
    · have := (ih i hi).2
      rw [← this] at h3
      have := hm.injective h3
      omega
    · exact ⟨h2, h3⟩
    · have l1 : Q (k + 1) ≤ Q i := hm.monotone hi
      have h0 := hs 0
      unfold Sol at h0 h1
      nlinarith [h0.1, h0.2.1, h1.1, h1.2.1]

namespace CF

/-- **C134** Let `x = p + q√N`, where `p/q` is the last convergent of `√N` before the period repeats. Multiplying surds,
`x`, `x * x`, `x * x * x`, … never panics, and `x^(k+1)` is stored as `p' + q'√N` with the last convergent `p'/q'` before
the period has been repeated `k + 1` times. -/
theorem cf_pell_powers (cfg : Cfg) (c : CF) (h : c.Wf) (hp : c.p ≠ []) (h1 : c.ShortestHead) (h2 : c.ShortestPeriod) (N : ℕ)
    (hv : c.HasVal (√(N : ℝ))) :
    ∃ x : ℚ, itemAt (ConvIter.next .big) (c.p.length - 1) c.convergents = .ok (some x) ∧
      ∀ k, ∃ r, itemAt (ConvIter.next .big) ((k + 1) * c.p.length - 1) c.convergents = .ok (some r) ∧
        Surd.powers cfg ⟨x.num, x.den, 1, N⟩ k = .ok ⟨r.num, r.den, 1, N⟩ := by
  obtain ⟨g1, g2⟩ := cf_pell c h hp h1 h2 N hv
  have hirr : Irrational √(N : ℝ) := by
    have := (coeff_of_val h hp hv).2.1
    rwa [abs_of_nonneg (Real.sqrt_nonneg _)] at this
  have hN : 2 ≤ N := by
    by_contra hlt
    apply hirr
    have : N = 0 ∨ N = 1 := by omega
    rcases this with rfl | rfl
    · exact ⟨0, by simp⟩
    · exact ⟨1, by simp⟩
  have hsq : ¬ IsSquare (N : ℤ) := by
    rintro ⟨m, hm⟩
    apply hirr
    refine ⟨(|m| : ℤ), ?_⟩
    have : (N : ℝ) = ((|m| : ℤ) : ℝ) ^ 2 := by
      have : (N : ℝ) = (m : ℝ) * m := by exact_mod_cast hm
      rw [this]; push_cast; rw [sq_abs, pow_two]
    rw [this, Real.sqrt_sq (by exact_mod_cast abs_nonneg m)]
    simp
  have hl : 1 ≤ c.p.length := List.length_pos_iff.2 hp
  choose R r1 r2 r3 r4 using g1
  have idx : ∀ k : ℕ, (k + 1) * c.p.length - 1 + 1 = (k + 1) * c.p.length := fun k => by
    have : 1 ≤ (k + 1) * c.p.length := Nat.mul_pos (by omega) hl
    omega
  let P : ℕ → ℤ := fun k => (R ((k + 1) * c.p.length - 1)).num
  let Q : ℕ → ℤ := fun k => (R ((k + 1) * c.p.length - 1)).den
  have hs : ∀ k, Sol N (P k) (Q k) := fun k => by
    refine ⟨Rat.num_pos.2 (r2 _), Int.natCast_pos.2 (R ((k + 1) * c.p.length - 1)).den_pos, ?_⟩
    have := (r3 ((k + 1) * c.p.length - 1)).2 (by rw [idx]; exact dvd_mul_left _ _)
    exact (abs_eq (by norm_num)).1 this
  have hc : ∀ n, c.HasCoeff n := fun n => .inl hp
  have hconv : ∀ n, c.conv n = some (R n) := fun n => by
    have := r1 n
    rw [(cf_convergents c h n).1, if_pos (hc n)] at this
    exact Except.ok.inj this
  have mono1 : ∀ n, (R n).den ≤ (R (n + 1)).den := fun n =>
    (cf_conv_den_mono c h n (hc _) _ _ (hconv n) (hconv (n + 1))).1
  have mono : Monotone fun n => (R n).den := monotone_nat_of_le_succ mono1
  have hm : StrictMono Q := by
    refine strictMono_nat_of_lt_succ fun k => ?_
    have lt : (k + 1) * c.p.length - 1 < (k + 1 + 1) * c.p.length - 1 := by
      have := idx k
      have e : (k + 1 + 1) * c.p.length = (k + 1) * c.p.length + c.p.length := by ring
      omega
    refine lt_of_le_of_ne (Int.ofNat_le.2 (mono lt.le)) fun he => ?_
    have hP : P k = P (k + 1) := (hs k).unique (by rw [he]; exact hs (k + 1))
    have hR : R ((k + 1) * c.p.length - 1) = R ((k + 1 + 1) * c.p.length - 1) := Rat.ext hP (Int.ofNat.inj he)
    generalize (k + 1) * c.p.length - 1 = i at lt hR
    generalize (k + 1 + 1) * c.p.length - 1 = j at lt hR
    -- the only equal denominators are the first two
    have hj : j = i + 1 ∧ i = 0 := by
      by_contra hn
      obtain ⟨m, rfl⟩ : ∃ m, j = m + 1 := ⟨j - 1, by omega⟩
      have a1 : (R i).den ≤ (R m).den := mono (by omega)
      have a2 := (cf_conv_den_mono c h m (hc _) _ _ (hconv m) (hconv (m + 1))).2 (by omega)
      rw [hR] at a1
      omega
    obtain ⟨rfl, rfl⟩ := hj
    obtain ⟨x0, a1, a2, -⟩ := Fx.conv_fields h (hc 0)
    obtain ⟨x1, b1, b2, -⟩ := Fx.conv_fields h (hc 1)
    rw [hconv, Option.some.injEq] at a1 b1
    rw [a1, b1] at hR
    have hx : x0 = x1 := by
      cases hn : c.neg <;> simp only [hn, signed] at hR
      · simpa using hR
      · simpa using hR
    have d0 : (1 : ℤ) ≤ c.den 0 := trunc_den_pos h (hc 0)
    have d1 : (1 : ℤ) ≤ c.den 1 := trunc_den_pos h (hc 1)
    rw [a2, b2, div_eq_div_iff (by exact_mod_cast (by omega : c.den 0 ≠ 0)) (by exact_mod_cast (by omega : c.den 1 ≠ 0))] at hx
    have hx' : c.num 0 * c.den 1 = c.num 1 * c.den 0 := by exact_mod_cast hx
    rcases num_den_det c 0 with e | e <;> simp only [zero_add] at e <;> omega
  have hall : ∀ p q, Sol N p q → ∃ k, p = P k ∧ q = Q k := fun p q hpq => by
    obtain ⟨s1, s2, s3⟩ := hpq
    obtain ⟨n, k1, k2⟩ := g2 p q s1 s2 ((abs_eq (by norm_num)).2 s3)
    obtain ⟨m, hm⟩ := k1
    have hm0 : m ≠ 0 := by rintro rfl; omega
    refine ⟨m - 1, ?_⟩
    have e : (m - 1 + 1) * c.p.length - 1 = n := by
      rw [Nat.sub_add_cancel (by omega), mul_comm, ← hm]; omega
    rw [r1 n] at k2
    have hr : R n = (p / q : ℚ) := Option.some.inj (Except.ok.inj k2)
    have hcop : IsCoprime p q := by
      rcases s3 with s3 | s3
      · exact ⟨p, -(N * q), by linear_combination s3⟩
      · exact ⟨-p, N * q, by linear_combination -s3⟩
    have hcop' := Int.isCoprime_iff_gcd_eq_one.1 hcop
    constructor
    · show p = (R _).num
      rw [e, hr]; exact (Rat.num_div_eq_of_coprime (by omega) hcop').symm
    · show q = ((R _).den : ℤ)
      rw [e, hr]; exact (Rat.den_div_eq_of_coprime (by omega) hcop').symm
  have step := sol_step (by omega) hs hm hall
  refine ⟨R (c.p.length - 1), r1 _, fun k => ⟨R ((k + 1) * c.p.length - 1), r1 _, ?_⟩⟩
  have e0 : (0 + 1) * c.p.length - 1 = c.p.length - 1 := by omega
  have b0 : R (c.p.length - 1) = R ((0 + 1) * c.p.length - 1) := by rw [e0]
  rw [b0]
  show Surd.powers cfg ⟨P 0, Q 0, 1, N⟩ k = .ok ⟨P k, Q k, 1, N⟩
  induction k with
  | zero => rfl
  | succ k ih =>
    have p0 := hs 0
    have pk := hs k
    unfold Sol at p0 pk
    simp only [Surd.powers, ih]
    have := Surd.mul_one_den hsq (by omega) (a := P k) (b := Q k) (p := P 0) (q := Q 0) (by omega) (by omega) (by omega)
      (by rw [← (step k).2]; have := hs (k + 1); unfold Sol at this; omega) cfg
    rw [← (step k).1, ← (step k).2] at this
    exact this
example : itemAt (ConvIter.next .big) 3 (convergents ⟨[2], [1, 1, 1, 4], false⟩) = .ok (some (8 / 3)) ∧
    itemAt (ConvIter.next .big) 7 (convergents ⟨[2], [1, 1, 1, 4], false⟩) = .ok (some (127 / 48)) ∧
    Surd.mul ⟨false, true⟩ ⟨8, 3, 1, 7⟩ ⟨8, 3, 1, 7⟩ = .ok ⟨127, 48, 1, 7⟩ := by decide +kernel

end CF

namespace Surd

/-- **C134** the same for the fraction that `to_contfrac` computes for a surd with the value `√N` -/
theorem surd_pell_powers (cfg : Cfg) (s : Surd) (h : s.RealOk) (ha : s.a = 0) (hr : s.r ≠ 0) (N : ℕ) (hv : s.val = √(N : ℝ)) :
    ∃ F c, (∀ fuel, F ≤ fuel → s.toContfrac cfg fuel = some (.ok (some c))) ∧ c.p ≠ [] ∧
      ∃ x : ℚ, itemAt (CF.ConvIter.next .big) (c.p.length - 1) c.convergents = .ok (some x) ∧
        ∀ k, ∃ r, itemAt (CF.ConvIter.next .big) ((k + 1) * c.p.length - 1) c.convergents = .ok (some r) ∧
          powers cfg ⟨x.num, x.den, 1, N⟩ k = .ok ⟨r.num, r.den, 1, N⟩ := by
  have hb : s.b ≠ 0 := fun e => hr (h.rational.1 e)
  have hr0 : 0 < s.r := lt_of_le_of_ne h.real (Ne.symm hr)
  have hn : s.a * s.a < s.r * s.b * s.b := by
    rw [ha, mul_zero, mul_assoc]
    exact mul_pos hr0 (mul_self_pos.2 hb)
  obtain ⟨F, c, h1, h2, h3, -, h4⟩ := surd_toContfrac_returns_partial cfg s h hn
  obtain ⟨h5, h6⟩ := surd_toContfrac_shortest_neg_conj cfg s h hn F c (h1 F le_rfl)
  rw [hv] at h4
  exact ⟨F, c, h1, h3, CF.cf_pell_powers cfg c h2 h3 h5 h6 N h4⟩
example : RealOk ⟨0, 2, 1, 3⟩ ∧ toContfrac ⟨false, true⟩ 20 ⟨0, 2, 1, 3⟩ = some (.ok (some ⟨[3], [2, 6], false⟩)) ∧
    powers ⟨false, true⟩ ⟨7, 2, 1, 12⟩ 2 = .ok ⟨1351, 390, 1, 12⟩ := by decide +kernel

end Surd
end NumIrr
