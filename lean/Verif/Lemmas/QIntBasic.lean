/- Helper lemmas: `mod4d2`, rounding division and the ring `ℤ[ω]`. -/
import Verif.Spec.QInt
import Verif.Lemmas.Root
import Mathlib.Tactic.IntervalCases
import Mathlib.Tactic.FieldSimp
import Mathlib.Algebra.Order.Field.Basic

namespace NumIrr

theorem mod4d2_eq (v : ℤ) : mod4d2 v = if v % 4 = 0 then -1 else if v % 4 = 1 then 0 else 1 := by
  unfold mod4d2
  have h2 : ∀ m : ℤ, 0 ≤ m → m.tdiv 2 = m / 2 := fun m hm => Int.tdiv_eq_ediv_of_nonneg hm
  rcases le_or_gt 0 v with h | h
  · have e : v.tmod 4 = v % 4 := Int.tmod_eq_emod_of_nonneg h
    simp only [e, not_lt.mpr h, if_false]
    have := Int.emod_nonneg v (by norm_num : (4:ℤ) ≠ 0)
    rw [h2 _ this]
    have := Int.emod_lt_of_pos v (by norm_num : (0:ℤ) < 4)
    split_ifs <;> omega
  · have e : v.tmod 4 = -((-v) % 4) := by
      rw [← Int.tmod_eq_emod_of_nonneg (by omega : 0 ≤ -v), Int.neg_tmod]; ring
    simp only [e, h, if_true]
    rw [h2 _ (by omega)]
    split_ifs <;> omega

/-- specification of the rounding division -/
theorem divRemRound_spec (x : ℤ) {y : ℤ} (hy : y ≠ 0) :
    ∃ q r, divRemRound x y = .ok (q, r) ∧ x = q * y + r ∧ 2 * |r| ≤ |y| ∧
      (2 * |r| = |y| → |x| < |q * y|) := by
  unfold divRemRound
  rw [if_neg hy]
  refine ⟨_, _, rfl, ?_, ?_⟩
  · have := Int.tmod_add_mul_tdiv (x + (y.natAbs : ℤ).tdiv 2 * x.sign) y
    linarith
  have hN : 0 < (y.natAbs : ℤ) := by omega
  have hh : (y.natAbs : ℤ).tdiv 2 = (y.natAbs : ℤ) / 2 := Int.tdiv_eq_ediv_of_nonneg hN.le
  rw [hh, Int.abs_eq_natAbs y]
  generalize hNN : (y.natAbs : ℤ) = N at *
  -- reduce to division by N
  have key : ∀ z : ℤ, z.tmod y = z.tmod N ∧ z.tdiv y * y = z.tdiv N * N := by
    intro z
    have : y = N ∨ y = -N := by omega
    rcases this with e | e
    · rw [e]; exact ⟨rfl, rfl⟩
    · rw [e, Int.tmod_neg, Int.tdiv_neg]; exact ⟨rfl, by ring⟩
  obtain ⟨k1, k2⟩ := key (x + N / 2 * x.sign)
  rw [k1, k2]
  have hdm := Int.tmod_add_mul_tdiv (x + N / 2 * x.sign) N
  have hq : (x + N / 2 * x.sign).tdiv N * N =
      x + N / 2 * x.sign - (x + N / 2 * x.sign).tmod N := by linarith
  rw [hq]
  rcases lt_trichotomy x 0 with hx | hx | hx
  · rw [Int.sign_eq_neg_one_of_neg hx]
    have e : (x + N / 2 * -1).tmod N = -((-x + N / 2) % N) := by
      rw [← Int.tmod_eq_emod_of_nonneg (by omega : 0 ≤ -x + N / 2), ← Int.neg_tmod]; congr 1; ring
    rw [e]
    have h1 := Int.emod_nonneg (-x + N / 2) hN.ne'
    have h2 := Int.emod_lt_of_pos (-x + N / 2) hN
    generalize (-x + N / 2) % N = m at *
    constructor
    · rcases abs_cases (-m - N / 2 * -1) with h | h <;> omega
    · intro h
      rcases abs_cases (-m - N / 2 * -1) with h' | h' <;>
      rcases abs_cases x with h'' | h'' <;>
      rcases abs_cases (x + N / 2 * -1 - -m) with h3 | h3 <;> omega
  · subst hx; simp; omega
  · rw [Int.sign_eq_one_of_pos hx]
    rw [Int.tmod_eq_emod_of_nonneg (by omega : 0 ≤ x + N / 2 * 1)]
    have h1 := Int.emod_nonneg (x + N / 2 * 1) hN.ne'
    have h2 := Int.emod_lt_of_pos (x + N / 2 * 1) hN
    generalize (x + N / 2 * 1) % N = m at *
    constructor
    · rcases abs_cases (m - N / 2 * 1) with h | h <;> omega
    · intro h
      rcases abs_cases (m - N / 2 * 1) with h' | h' <;>
      rcases abs_cases x with h'' | h'' <;>
      rcases abs_cases (x + N / 2 * 1 - m) with h3 | h3 <;> omega

theorem divRemRound_zero (x : ℤ) : divRemRound x 0 = .error .divZero := rfl

/-- the rounding division on exact multiples -/
theorem divRemRound_exact (k : ℤ) {y : ℤ} (hy : y ≠ 0) :
    divRemRound (k * y) y = .ok (k, 0) := by
  obtain ⟨q, r, e, h1, h2, h3⟩ := divRemRound_spec (k * y) hy
  have hd : y ∣ r := ⟨k - q, by linarith⟩
  have hr : r = 0 := by
    have h4 : |r| < |y| := by
      have := abs_pos.mpr hy; linarith [abs_nonneg r]
    exact Int.eq_zero_of_abs_lt_dvd ((abs_dvd y r).mpr hd) (by simpa using h4)
  subst hr
  have : k = q := mul_right_cancel₀ hy (by linarith)
  rw [e, this]

theorem roundAway_of_divRemRound {x y q r : ℤ} (hy : y ≠ 0) (h : divRemRound x y = .ok (q, r)) :
    RoundAway ((x : ℚ) / y) q ∧ x = q * y + r := by
  obtain ⟨q', r', e, h1, h2, h3⟩ := divRemRound_spec x hy
  rw [h] at e; cases e
  refine ⟨?_, h1⟩
  have hyQ : (y : ℚ) ≠ 0 := by exact_mod_cast hy
  have hpos : (0:ℚ) < |(y:ℚ)| := abs_pos.mpr hyQ
  have e1 : (x : ℚ) / y - q = r / y := by
    have : (x : ℚ) = q * y + r := by exact_mod_cast h1
    rw [this]; field_simp; ring
  have h2' : 2 * |(r:ℚ)| ≤ |(y:ℚ)| := by exact_mod_cast h2
  constructor
  · rw [e1, abs_div, div_le_iff₀ hpos]; linarith
  · rw [e1, abs_div, div_eq_iff hpos.ne']
    intro h4
    have h5 : 2 * |r| = |y| := by
      have : 2 * |(r:ℚ)| = |(y:ℚ)| := by linarith
      exact_mod_cast this
    have h6 : |(x:ℚ)| < |(q * y : ℚ)| := by exact_mod_cast h3 h5
    rw [abs_mul] at h6
    rw [abs_div, div_lt_iff₀ hpos]; exact h6

/-! ### the ring -/

theorem omegaC_sq (d : ℤ) : omegaC d * omegaC d =
    if d % 4 = 1 then ((d - 1) / 4 : ℤ) + omegaC d else (d : ℂ) := by
  unfold omegaC
  split
  · next h =>
    have e : ((d - 1) / 4 : ℤ) * 4 = d - 1 := by omega
    have e' : (((d - 1) / 4 : ℤ) : ℂ) = ((d:ℂ) - 1) / 4 := by
      rw [eq_div_iff (by norm_num)]; exact_mod_cast e
    rw [e']
    have := rootC_mul_self d
    linear_combination this / 4
  · exact rootC_mul_self d

/-- The conjugate of `ω`. -/
noncomputable def omegaC' (d : ℤ) : ℂ := if d % 4 = 1 then 1 - omegaC d else -omegaC d

namespace QCoeffs

noncomputable def cval (c : QCoeffs) (d : ℤ) : ℂ := c.a + c.b * omegaC d

theorem tdiv4 {d : ℤ} (h : d % 4 = 1) : (d - 1).tdiv 4 = (d - 1) / 4 ∧ (1 - d).tdiv 4 = -((d - 1) / 4) := by
  have h1 : (4:ℤ) ∣ d - 1 := by omega
  obtain ⟨k, hk⟩ := h1
  have e2 : (1 - d) = 4 * (-k) := by omega
  rw [e2, hk]
  refine ⟨by rw [Int.mul_tdiv_cancel_left _ (by norm_num), Int.mul_ediv_cancel_left _ (by norm_num)], ?_⟩
  rw [Int.mul_tdiv_cancel_left _ (by norm_num), Int.mul_ediv_cancel_left _ (by norm_num)]

theorem mul_spec (x y : QCoeffs) {d : ℤ} (hd : d % 4 ≠ 0) :
    ∃ m, mul x y d = .ok m ∧ m.cval d = x.cval d * y.cval d := by
  unfold mul
  rw [mod4d2_eq, if_neg hd]
  have hs := omegaC_sq d
  by_cases h1 : d % 4 = 1
  · rw [if_pos h1]
    rw [if_pos h1] at hs
    refine ⟨_, rfl, ?_⟩
    unfold cval
    simp only [(tdiv4 h1).1]
    push_cast
    generalize (((d - 1) / 4 : ℤ) : ℂ) = e at *
    linear_combination -(x.b:ℂ) * y.b * hs
  · rw [if_neg h1]
    rw [if_neg h1] at hs
    refine ⟨_, rfl, ?_⟩
    unfold cval; push_cast
    linear_combination -(x.b:ℂ) * y.b * hs

/-- conjugate and norm -/
theorem conj_spec (x : QCoeffs) {d : ℤ} (hd : d % 4 ≠ 0) :
    ∃ c n, conj x d = .ok c ∧ norm x d = .ok n ∧ c.cval d = x.a + x.b * omegaC' d ∧
      (n : ℂ) = x.cval d * c.cval d := by
  have hd0 : d ≠ 0 := by rintro rfl; simp at hd
  unfold conj norm
  rw [if_neg hd0, if_neg hd0, mod4d2_eq, if_neg hd]
  have hs := omegaC_sq d
  unfold omegaC'
  by_cases h1 : d % 4 = 1
  · rw [if_pos h1, if_pos h1]
    rw [if_pos h1] at hs
    refine ⟨_, _, rfl, rfl, ?_, ?_⟩
    · unfold cval; push_cast; ring
    · unfold cval
      simp only [(tdiv4 h1).2]
      push_cast
      generalize (((d - 1) / 4 : ℤ) : ℂ) = e at *
      linear_combination (x.b:ℂ) * x.b * hs
  · rw [if_neg h1, if_neg h1]
    rw [if_neg h1] at hs
    refine ⟨_, _, rfl, rfl, ?_, ?_⟩
    · unfold cval; push_cast; ring
    · unfold cval; push_cast
      linear_combination (x.b:ℂ) * x.b * hs

theorem divNumer_spec (x y : QCoeffs) {d : ℤ} (hd : d % 4 ≠ 0) {c : QCoeffs} (hc : conj y d = .ok c) :
    ∃ u v, divNumer x y d = .ok (u, v) ∧ (u : ℂ) + v * omegaC d = x.cval d * c.cval d := by
  have hd0 : d ≠ 0 := by rintro rfl; simp at hd
  unfold divNumer
  unfold conj at hc
  rw [if_neg hd0] at hc
  rw [mod4d2_eq, if_neg hd] at hc ⊢
  have hs := omegaC_sq d
  by_cases h1 : d % 4 = 1
  · rw [if_pos h1] at hc ⊢
    rw [if_pos h1] at hs
    cases hc
    refine ⟨_, _, rfl, ?_⟩
    unfold cval
    simp only [(tdiv4 h1).1]
    push_cast
    generalize (((d - 1) / 4 : ℤ) : ℂ) = e at *
    linear_combination (x.b:ℂ) * y.b * hs
  · rw [if_neg h1] at hc ⊢
    rw [if_neg h1] at hs
    cases hc
    refine ⟨_, _, rfl, ?_⟩
    unfold cval; push_cast
    linear_combination (x.b:ℂ) * y.b * hs

end QCoeffs

/-- `1, ω` are independent over ℚ -/
theorem omega_coeff_eq {d : ℤ} (hd : ¬ IsSquare d) {x y x' y' : ℚ}
    (h : (x : ℂ) + y * omegaC d = x' + y' * omegaC d) : x = x' ∧ y = y' := by
  unfold omegaC at h
  split at h
  · have := root_coeff_eq hd (x := x + y / 2) (y := y / 2) (x' := x' + y' / 2) (y' := y' / 2)
      (by push_cast; linear_combination h)
    constructor <;> linarith [this.1, this.2]
  · exact root_coeff_eq hd h

theorem QCoeffs.cval_inj {d : ℤ} (hd : ¬ IsSquare d) {x y : QCoeffs} (h : x.cval d = y.cval d) : x = y := by
  unfold QCoeffs.cval at h
  have := omega_coeff_eq hd (x := x.a) (y := x.b) (x' := y.a) (y' := y.b) (by push_cast; exact h)
  cases x; cases y
  congr
  · exact_mod_cast this.1
  · exact_mod_cast this.2

theorem QCoeffs.norm_ne_zero {d : ℤ} (hd : d % 4 ≠ 0) (hs : ¬ IsSquare d) {y c : QCoeffs} {n : ℤ}
    (hc : y.conj d = .ok c) (hn : y.norm d = .ok n) (hy : y.cval d ≠ 0) : n ≠ 0 := by
  obtain ⟨c', n', e1, e2, h1, h2⟩ := QCoeffs.conj_spec y hd
  rw [hc] at e1; cases e1
  rw [hn] at e2; cases e2
  intro h0
  rw [h0] at h2
  rcases mul_eq_zero.mp (by simpa using h2.symm : y.cval d * c.cval d = 0) with h | h
  · exact hy h
  · -- the conjugate vanishes, so do the coefficients
    apply hy
    have : c = ⟨0, 0⟩ := QCoeffs.cval_inj hs (by rw [h]; simp [QCoeffs.cval])
    unfold QCoeffs.conj at hc
    have hd0 : d ≠ 0 := by rintro rfl; simp at hd
    rw [if_neg hd0, mod4d2_eq, if_neg hd, this] at hc
    unfold QCoeffs.cval
    by_cases h1 : d % 4 = 1
    · rw [if_pos h1] at hc; cases y; simp at hc; obtain ⟨h3, h4⟩ := hc
      subst h4; simp at h3; subst h3; simp
    · rw [if_neg h1] at hc; cases y; simp at hc; obtain ⟨h3, h4⟩ := hc
      subst h4; subst h3; simp

/-- division with remainder -/
theorem QCoeffs.divRem_spec (x y : QCoeffs) {d : ℤ} (hd : d % 4 ≠ 0) (hs : ¬ IsSquare d)
    (hy : y.cval d ≠ 0) :
    ∃ (q r : QCoeffs) (u v : ℚ) , divRem x y d = .ok (q, r) ∧
      x.cval d = q.cval d * y.cval d + r.cval d ∧
      x.cval d / y.cval d = u + v * omegaC d ∧ RoundAway u q.a ∧ RoundAway v q.b := by
  obtain ⟨c, n, hc, hn, h1, h2⟩ := QCoeffs.conj_spec y hd
  have hn0 := QCoeffs.norm_ne_zero hd hs hc hn hy
  obtain ⟨a, b, hab, h3⟩ := QCoeffs.divNumer_spec x y hd hc
  obtain ⟨aq, ar, ea, -, -, -⟩ := divRemRound_spec a hn0
  obtain ⟨bq, br, eb, -, -, -⟩ := divRemRound_spec b hn0
  obtain ⟨ra, ha⟩ := roundAway_of_divRemRound hn0 ea
  obtain ⟨rb, hb⟩ := roundAway_of_divRemRound hn0 eb
  obtain ⟨m, em, hm⟩ := QCoeffs.mul_spec y ⟨ar, br⟩ hd
  obtain ⟨qy, eqy, hqy⟩ := QCoeffs.mul_spec ⟨aq, bq⟩ y hd
  have hnC : (n : ℂ) ≠ 0 := by exact_mod_cast hn0
  have haC : (a : ℂ) = aq * n + ar := by exact_mod_cast ha
  have hbC : (b : ℂ) = bq * n + br := by exact_mod_cast hb
  have hmm : m = ⟨(x.a - qy.a) * n, (x.b - qy.b) * n⟩ := by
    apply QCoeffs.cval_inj hs
    rw [hm]
    have e1 : (QCoeffs.mk ar br).cval d = x.cval d * c.cval d - n * (QCoeffs.mk aq bq).cval d := by
      rw [← h3, haC, hbC]; unfold QCoeffs.cval; ring
    have e2 : (QCoeffs.mk ((x.a - qy.a) * n) ((x.b - qy.b) * n)).cval d =
        n * (x.cval d - qy.cval d) := by
      unfold QCoeffs.cval; push_cast; ring
    rw [e1, e2, hqy, h2]; ring
  refine ⟨⟨aq, bq⟩, ⟨x.a - qy.a, x.b - qy.b⟩, a / n, b / n, ?_, ?_, ?_, ra, rb⟩
  · unfold QCoeffs.divRem
    rw [hab]; simp only [bind, Except.bind]
    rw [hn]; simp only
    rw [ea]; simp only
    rw [eb]; simp only
    rw [em]; simp only
    unfold QCoeffs.divInt
    rw [hmm]; simp only [bind, Except.bind, divRemRound_exact _ hn0, pure, Except.pure]
  · rw [← hqy]; unfold QCoeffs.cval; push_cast; ring
  · have hcy : c.cval d ≠ 0 := by
      intro e; rw [e, mul_zero] at h2; exact hnC h2
    have : x.cval d / y.cval d = (x.cval d * c.cval d) / n := by
      rw [h2]; field_simp
    rw [this, ← h3]; push_cast; ring

end NumIrr
