/-
C125: Euclid's algorithm with the remainders of Gaussian and quadratic integers.
-/
import Verif.Props.QIntLaws
import Verif.Props.FixedQInt
import Verif.Spec.Gcd

namespace NumIrr
open QInt

private theorem mem_ring (D m n : ℤ) : (m : ℂ) + n * omegaC D ∈ ringOf D := by
  unfold ringOf
  refine Subalgebra.add_mem _ ?_ (Subalgebra.mul_mem _ ?_ (Algebra.subset_adjoin rfl))
  · simp
  · simp

private theorem gcd_zero (D : ℤ) (a : ℂ) : IsGcdIn D a a 0 :=
  ⟨⟨1, one_mem _, by ring⟩, ⟨0, zero_mem _, by ring⟩, fun _ h _ => h, ⟨1, one_mem _, 0, zero_mem _, by ring⟩⟩

private theorem gcd_step {D : ℤ} {g a b q r : ℂ} (hq : q ∈ ringOf D) (e : a = q * b + r) (h : IsGcdIn D g b r) :
    IsGcdIn D g a b := by
  obtain ⟨⟨u, hu, eu⟩, ⟨v, hv, ev⟩, hg, ⟨s, hs, t, ht, est⟩⟩ := h
  refine ⟨⟨q * u + v, add_mem (mul_mem hq hu) hv, ?_⟩, ⟨u, hu, eu⟩, ?_, ⟨t, ht, s - t * q, sub_mem hs (mul_mem ht hq), ?_⟩⟩
  · rw [e, ev]; nth_rw 1 [eu]; ring
  · rintro k ⟨m, hm, em⟩ ⟨n, hn, en⟩
    exact hg k ⟨n, hn, en⟩ ⟨m - q * n, sub_mem hm (mul_mem hq hn), by linear_combination em - q * en - e⟩
  · rw [est, e]; ring

/-! ### Gaussian integers -/

private theorem omega_neg_one : omegaC (-1) = Complex.I := by
  unfold omegaC rootC; norm_num

private theorem gint_norm_nonneg (x : GInt) : 0 ≤ x.norm := by
  unfold GInt.norm; nlinarith [mul_self_nonneg x.re, mul_self_nonneg x.im]

private theorem gint_val_ne_zero {x : GInt} (h : x ≠ ⟨0, 0⟩) : x.valC ≠ 0 := by
  intro h0
  exact h (gint_valC_inj x ⟨0, 0⟩ (by rw [h0]; simp [GInt.valC]))

/-- **C125** For Gaussian integers the algorithm ends after at most `2 + log₂ N(b)` tests and returns a greatest common
divisor. -/
theorem gint_gcd (a b : GInt) (n : ℕ) (hn : b.norm < 2 ^ n) :
    ∃ g, GInt.euclid (n + 1) a b = some (.ok g) ∧ IsGcdIn (-1) g.valC a.valC b.valC := by
  induction n generalizing a b with
  | zero =>
    have hb : b = ⟨0, 0⟩ := by
      by_contra h
      have h1 := gint_norm_nonneg b
      have h2 : b.norm = 0 := by simp at hn; omega
      apply h
      obtain ⟨p, q⟩ := b
      unfold GInt.norm at h2
      have : p = 0 := by nlinarith [mul_self_nonneg p, mul_self_nonneg q]
      have : q = 0 := by nlinarith [mul_self_nonneg p, mul_self_nonneg q]
      simp_all
    subst hb
    refine ⟨a, by simp [GInt.euclid, euclid], ?_⟩
    have : (⟨0, 0⟩ : GInt).valC = 0 := by simp [GInt.valC]
    rw [this]; exact gcd_zero _ _
  | succ n ih =>
    by_cases hb : b = ⟨0, 0⟩
    · subst hb
      refine ⟨a, by simp [GInt.euclid, euclid], ?_⟩
      have : (⟨0, 0⟩ : GInt).valC = 0 := by simp [GInt.valC]
      rw [this]; exact gcd_zero _ _
    · obtain ⟨q, r, -, h2, h3, h4, -⟩ := gint_euclid a b (gint_val_ne_zero hb)
      obtain ⟨g, k1, k2⟩ := ih b r (by rw [pow_succ] at hn; omega)
      refine ⟨g, ?_, gcd_step ?_ h3 k2⟩
      · unfold GInt.euclid euclid
        rw [if_neg (by simpa using hb), h2]
        exact k1
      · have := mem_ring (-1) q.re q.im
        rwa [omega_neg_one] at this

/-- `gcd(11+3i, 1+8i)` -/
example : (GInt.mk 1 8).norm < 2 ^ 7 ∧ GInt.euclid 8 ⟨11, 3⟩ ⟨1, 8⟩ = some (.ok ⟨1, -2⟩) := by decide +kernel

/-- **C125** Over primitive integers with overflow checks it returns the same or panics with an overflow, round by round. -/
theorem fixed_gint_gcd (x : Fx) (hc : x.checks = true) (a b : GInt) (n : ℕ) :
    x.gEuclid n a b = GInt.euclid n a b ∨ x.gEuclid n a b = some (.error .overflow) := by
  induction n generalizing a b with
  | zero => exact .inl rfl
  | succ n ih =>
    unfold Fx.gEuclid GInt.euclid euclid
    by_cases hb : b = ⟨0, 0⟩
    · left; simp [hb]
    · rw [if_neg (by simpa using hb), if_neg (by simpa using hb)]
      rcases (fixed_gint_refines x hc a b).2.2.2.2.1 with h | h
      · rw [h]
        cases hr : a.rem b with
        | error e => exact .inl rfl
        | ok r => exact ih b r
      · right; rw [h]

example : (⟨16, true⟩ : Fx).gEuclid 8 ⟨11, 3⟩ ⟨1, 8⟩ = some (.ok ⟨1, -2⟩) ∧
    (⟨8, true⟩ : Fx).gEuclid 8 ⟨11, 3⟩ ⟨1, 8⟩ = some (.error .overflow) := by decide +kernel

/-- **C125** It does not overflow, with or without checks, for numbers up to `B` with `4B³` in the type: the remainders
stay below `B`. -/
theorem fixed_gint_gcd_safe (x : Fx) (B : ℤ) (hB : 1 ≤ B) (hx : 4 * B ^ 3 < 2 ^ (x.w - 1)) (a b : GInt)
    (ha : a.Small B) (hb : b.Small B) (n : ℕ) : x.gEuclid n a b = GInt.euclid n a b := by
  induction n generalizing a b with
  | zero => rfl
  | succ n ih =>
    unfold Fx.gEuclid GInt.euclid euclid
    by_cases h0 : b = ⟨0, 0⟩
    · simp [h0]
    · rw [if_neg (by simpa using h0), if_neg (by simpa using h0), ((fixed_gint_safe x a b B hB ha hb).2.2 hx).2]
      obtain ⟨q, r, -, h2, -, h4, -⟩ := gint_euclid a b (gint_val_ne_zero h0)
      rw [h2]
      refine ih b r hb ?_
      obtain ⟨b1, b2⟩ := hb
      have e1 : b.re * b.re ≤ B * B := by nlinarith [abs_le.1 b1]
      have e2 : b.im * b.im ≤ B * B := by nlinarith [abs_le.1 b2]
      unfold GInt.norm at h4
      have e3 : r.re * r.re ≤ B * B := by nlinarith [mul_self_nonneg r.im]
      have e4 : r.im * r.im ≤ B * B := by nlinarith [mul_self_nonneg r.re]
      exact ⟨abs_le_of_sq_le_sq (by nlinarith) (by omega), abs_le_of_sq_le_sq (by nlinarith) (by omega)⟩

example : (GInt.mk 11 3).Small 19 ∧ 4 * (19 : ℤ) ^ 3 < 2 ^ (16 - 1) := by
  constructor
  · constructor <;> decide
  · norm_num

/-! ### quadratic integers -/

/-- **C125** is false for `QuadraticInt`: the algorithm never ends for 6 and 4, -/
theorem qint_gcd_endless_refuted (cfg : Cfg) (n : ℕ) : QInt.euclid cfg n ⟨6, 0, 0⟩ ⟨4, 0, 0⟩ = none := by
  have key : ∀ n, QInt.euclid cfg n ⟨2, 0, 0⟩ ⟨1, 0, 0⟩ = none ∧ QInt.euclid cfg n ⟨1, 0, 0⟩ ⟨2, 0, 0⟩ = none := by
    intro n
    induction n with
    | zero => exact ⟨rfl, rfl⟩
    | succ n ih => exact ⟨ih.2, ih.1⟩
  match n with
  | 0 => rfl
  | 1 => rfl
  | 2 => rfl
  | n + 3 => exact (key n).1

/-- **C125** it panics for the coprime Eisenstein integers `7+3ω` and `2+ω`, -/
theorem qint_gcd_panics_refuted (n : ℕ) :
    QInt.euclid ⟨true, true⟩ (n + 3) ⟨7, 3, -3⟩ ⟨2, 1, -3⟩ = some (.error .incompatible) := by
  show QInt.euclid ⟨true, true⟩ (n + 2) ⟨2, 1, -3⟩ ⟨1, 0, 0⟩ = _
  rfl

theorem ring_coords {D : ℤ} {z : ℂ} (h : z ∈ ringOf D) : ∃ m n : ℤ, z = m + n * omegaC D := by
  unfold ringOf at h
  induction h using Algebra.adjoin_induction with
  | mem x hx =>
    rw [Set.mem_singleton_iff.1 hx]; exact ⟨0, 1, by push_cast; ring⟩
  | algebraMap r => exact ⟨r, 0, by simp⟩
  | add x y _ _ hx hy =>
    obtain ⟨m, n, rfl⟩ := hx
    obtain ⟨m', n', rfl⟩ := hy
    exact ⟨m + m', n + n', by push_cast; ring⟩
  | mul x y _ _ hx hy =>
    obtain ⟨m, n, rfl⟩ := hx
    obtain ⟨m', n', rfl⟩ := hy
    by_cases h1 : D % 4 = 1
    · obtain ⟨k, hk⟩ : ∃ k, D = 4 * k + 1 := ⟨D / 4, by omega⟩
      have hs' : omegaC D * omegaC D = omegaC D + k := by
        unfold omegaC; rw [if_pos h1]
        have := rootC_mul_self D
        have hk' : (D : ℂ) = 4 * k + 1 := by exact_mod_cast hk
        linear_combination (1 / 4 : ℂ) * this + (1 / 4 : ℂ) * hk'
      exact ⟨m * m' + n * n' * k, m * n' + n * m' + n * n', by
        push_cast; linear_combination (n * n' : ℂ) * hs'⟩
    · have hs' : omegaC D * omegaC D = D := by
        unfold omegaC; rw [if_neg h1]; exact rootC_mul_self D
      exact ⟨m * m' + n * n' * D, m * n' + n * m', by
        push_cast; linear_combination (n * n' : ℂ) * hs'⟩

/-- **C125** and for the Eisenstein integers `5+ω` and `8+ω` it returns -3, which divides neither. -/
theorem qint_gcd_wrong_refuted : QInt.euclid ⟨true, true⟩ 9 ⟨5, 1, -3⟩ ⟨8, 1, -3⟩ = some (.ok ⟨-3, 0, -3⟩) ∧
    ¬ DividesIn (-3) (QInt.mk (-3) 0 (-3)).valC (QInt.mk 5 1 (-3)).valC ∧
    ¬ DividesIn (-3) (QInt.mk (-3) 0 (-3)).valC (QInt.mk 8 1 (-3)).valC := by
  have no : ∀ a : ℤ, ¬ DividesIn (-3) (QInt.mk (-3) 0 (-3)).valC (QInt.mk a 1 (-3)).valC := by
    rintro a ⟨z, hz, e⟩
    obtain ⟨m, n, rfl⟩ := ring_coords hz
    have h3 : ¬ IsSquare (-3 : ℤ) := by rintro ⟨k, hk⟩; nlinarith [mul_self_nonneg k]
    have := (root_coeff_eq h3 (x := a + 1 / 2) (y := 1 / 2) (x' := -3 * m - 3 * n / 2) (y' := -3 * n / 2) (by
      simp only [valC, omegaC] at e
      norm_num at e
      push_cast
      linear_combination e)).2
    have h : (1 : ℚ) = -3 * n := by linarith
    have h' : (1 : ℤ) = -3 * n := by exact_mod_cast h
    omega
  exact ⟨by decide +kernel, no 5, no 8⟩

private theorem rem_inRing {cfg : Cfg} {x y r : QInt} (hy : y.Ok cfg) (hd : x.d = y.d) (hyb : y.b ≠ 0)
    (h : QInt.rem cfg x y = .ok r) : r.InRing cfg y.d := by
  have hd0 : y.d ≠ 0 := fun e => hyb (hy.rational e)
  have hp : reduceBinOpUnwrap cfg x y = .ok (x, y) := by
    unfold reduceBinOpUnwrap reduceBinOp
    simp [hd, hd0, bind, Except.bind, pure, Except.pure]
  unfold QInt.rem at h
  rw [if_neg (by rwa [isRational_iff]), hp] at h
  obtain ⟨c, -, h⟩ := bind_ok (m := x.coeffs.divRem y.coeffs x.d) h
  suffices hh : r.Stored ∧ (r.b ≠ 0 → r.d = y.d) from ⟨fromCoeffs_ok h, hh.1, hh.2⟩
  rw [fromCoeffs_eq hy.real (hy.mod4 hd0) (hy.irrational hd0)] at h
  have h := Except.ok.inj h
  subst h
  unfold QInt.Stored
  split
  · exact ⟨fun _ => rfl, fun h => absurd rfl h⟩
  · next hb => exact ⟨fun h => absurd h hb, fun _ => rfl⟩

/-- **C125** partial: over the discriminants for which division is Euclidean (C52), starting from irrational numbers, the
algorithm with `QuadraticInt` ends after at most `2 + |N(b)|` tests with a greatest common divisor, unless a rational
divisor comes up.
Missing from the full claim: rational divisors, for which `%` divides (the refutations above). -/
theorem qint_gcd_partial (cfg : Cfg) (D : ℤ) (hD : D ∈ ({-3, -2, -1, 2, 3, 5, 13} : Set ℤ)) (a b : QInt)
    (ha : a.InRing cfg D) (hb : b.InRing cfg D) (hai : a.b ≠ 0) (hm : ¬ MeetsRational cfg a b) (k : ℤ)
    (hk : b.norm = .ok k) (n : ℕ) (hn : |k| ≤ n) :
    ∃ g, QInt.euclid cfg (n + 2) a b = some (.ok g) ∧ IsGcdIn D g.valC a.valC b.valC := by
  have done : ∀ (a b : QInt) n, b.isZero = true →
      ∃ g, QInt.euclid cfg (n + 1) a b = some (.ok g) ∧ IsGcdIn D g.valC a.valC b.valC := by
    intro a b n h
    refine ⟨a, by unfold QInt.euclid euclid; rw [if_pos h], ?_⟩
    have : b.valC = 0 := by
      simp only [QInt.isZero, Bool.and_eq_true, decide_eq_true_eq] at h
      simp [valC, h.1, h.2]
    rw [this]; exact gcd_zero _ _
  have rat : ∀ {x : QInt}, x.Ok cfg → x.b ≠ 0 → ∀ q : ℚ, x.valC ≠ q := fun {x} hx h q e =>
    h ((isRational_iff x).1 ((qint_isRational cfg x hx).2 ⟨q, e⟩))
  induction n generalizing a b k with
  | zero =>
    -- a divisor of norm zero is zero
    by_cases hz : b.isZero = true
    · exact done a b _ hz
    exfalso
    have hbb : b.b ≠ 0 := fun h => hm (.here h fun h' => hz (by simp [QInt.isZero, h, h']))
    obtain ⟨c, hc, hc2, -⟩ := qint_conj cfg b hb.ok
    obtain ⟨m, hm1, hm2⟩ := qint_norm cfg b c hb.ok hc
    rw [hk] at hm1
    cases hm1
    have h0 : k = 0 := by simpa using hn
    rw [h0] at hm2
    have hval : ∀ {x : QInt}, x.Ok cfg → x.b ≠ 0 → x.valC ≠ 0 := fun hx h => by
      have := rat hx h 0; simpa using this
    rcases mul_eq_zero.1 (by exact_mod_cast hm2.symm) with h | h
    · exact hval hb.ok hbb h
    · have hcok := conj_ok hb.ok hc
      have hcb : c.b = 0 := by
        by_contra hcb; exact hval hcok hcb h
      obtain ⟨c', h1, -, h3, h4⟩ := qint_conj cfg c hcok
      rw [hc2] at h1; cases h1
      have : b.b = 0 := by
        have hc0 : c.d ≠ 0 := fun e => hbb (hb.ok.rational (h3.trans e))
        have := h4 0 0 (by rw [h]; push_cast; ring) hc0
        have hv : b.valC = 0 := by rw [this]; push_cast; ring
        by_contra hbb'; exact hval hb.ok hbb' hv
      exact hbb this
  | succ n ih =>
    by_cases hz : b.isZero = true
    · exact done a b _ hz
    have hbb : b.b ≠ 0 := fun h => hm (.here h fun h' => hz (by simp [QInt.isZero, h, h']))
    have hd : a.d = b.d := by rw [ha.discr hai, hb.discr hbb]
    have hdD : b.d = D := hb.discr hbb
    obtain ⟨q, r, m, l, h1, h2, h3, h4, h5, h6⟩ := qint_euclid_partial cfg a b ha.ok hb.ok hd (rat ha.ok hai)
      (rat hb.ok hbb) (by rw [hdD]; exact hD)
    rw [hk] at h4; cases h4
    have hr := rem_inRing hb.ok hd hbb h2
    rw [hdD] at hr
    obtain ⟨g, g1, g2⟩ := ih b r hb hr hbb (fun h => hm (.next (by simpa using hz) h2 h)) l h5 (by push_cast at hn; omega)
    obtain ⟨D', u, v, i, j, e1, -, -, -, e2⟩ := qint_div_value cfg a b q ha.ok hb.ok h1
    have hD' : D' = D := by rcases e1 with e | e; rw [e, hd, hdD]; rw [e, hdD]
    refine ⟨g, ?_, gcd_step (q := q.valC) ?_ h3 g2⟩
    · unfold QInt.euclid euclid
      rw [if_neg hz, h2]
      exact g1
    · rw [e2, hD']; exact mem_ring D i j

/-- `gcd(7+3ω, 2+ω)` over the discriminant 5 is the unit `-1-ω` -/
example : (QInt.mk 7 3 5).InRing ⟨false, true⟩ 5 ∧ ¬ MeetsRational ⟨false, true⟩ ⟨7, 3, 5⟩ ⟨2, 1, 5⟩ ∧
    QInt.euclid ⟨false, true⟩ 9 ⟨7, 3, 5⟩ ⟨2, 1, 5⟩ = some (.ok ⟨-1, -1, 5⟩) := by
  have h5 : ¬ IsSquare (5 : ℤ) := by decide +kernel
  refine ⟨⟨⟨by simp, by simp, fun _ => h5, by simp⟩, by simp [QInt.Stored], by simp⟩, ?_, by decide +kernel⟩
  have e1 : QInt.rem ⟨false, true⟩ ⟨7, 3, 5⟩ ⟨2, 1, 5⟩ = .ok ⟨-1, -1, 5⟩ := by decide +kernel
  have e2 : QInt.rem ⟨false, true⟩ ⟨2, 1, 5⟩ ⟨-1, -1, 5⟩ = .ok ⟨0, 0, 0⟩ := by decide +kernel
  rintro (⟨h, -⟩ | ⟨-, h, h'⟩)
  · simp at h
  rw [e1] at h; cases h
  rcases h' with ⟨h, -⟩ | ⟨-, h, h'⟩
  · simp at h
  rw [e2] at h; cases h
  rcases h' with ⟨-, h⟩ | ⟨h, -, -⟩
  · simp at h
  · simp [QInt.isZero] at h

end NumIrr
