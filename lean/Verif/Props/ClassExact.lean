/-
C20, C21 and C54: what the classification predicates, the conversions and `==` of the integer types answer, exactly.
-/
import Verif.Props.QIntEq

namespace NumIrr
open QInt

/-! ### C20 -/

/-- **C20** `is_quadint` decides membership in the order `ℤ + ℤ√r` of the surd's own root (not in the ring of
integers of its field, see `surd_isQuadint_refuted`). -/
theorem surd_isQuadint_exact (cfg : Cfg) (s : Surd) (h : s.Ok cfg) :
    s.isQuadint = true ↔ ∃ m n : ℤ, s.valC = m + n * rootC s.r := by
  simp only [Surd.isQuadint, decide_eq_true_eq]
  have hc := h.c_pos
  have hcC : (s.c : ℂ) ≠ 0 := by exact_mod_cast h.ne_zero
  have hcQ : (s.c : ℚ) ≠ 0 := by exact_mod_cast h.ne_zero
  constructor
  · intro e
    exact ⟨s.a, s.b, by unfold Surd.valC quadC; rw [e]; simp⟩
  · rintro ⟨m, n, e⟩
    by_cases hr : s.r = 0
    · have h0 : rootC s.r = 0 := by
        have := rootC_mul_self s.r
        rw [hr] at this ⊢
        simpa using this
      have := (surd_isInteger cfg s h).mpr ⟨m, by rw [e, h0]; simp⟩
      simp only [Surd.isInteger, Bool.and_eq_true, decide_eq_true_eq] at this
      exact this.1
    · have lin : (((s.a / s.c - m : ℚ)) : ℂ) + ((s.b / s.c - n : ℚ) : ℂ) * rootC s.r = 0 := by
        have e' : s.valC - (m + n * rootC s.r) = 0 := by rw [e]; ring
        unfold Surd.valC quadC at e'
        push_cast
        rw [← e']
        ring
      obtain ⟨l1, l2⟩ := root_lin_indep (h.irrational hr) lin
      have ha : s.a = m * s.c := by
        have : (s.a : ℚ) = m * s.c := by rw [sub_eq_zero, div_eq_iff hcQ] at l1; exact l1
        exact_mod_cast this
      have hb : s.b = n * s.c := by
        have : (s.b : ℚ) = n * s.c := by rw [sub_eq_zero, div_eq_iff hcQ] at l2; exact l2
        exact_mod_cast this
      rcases Int.isUnit_iff.mp (h.coprime s.c (ha ▸ Dvd.intro_left _ rfl) (hb ▸ Dvd.intro_left _ rfl) dvd_rfl)
        with h1 | h1 <;> omega
example : (Surd.mk 3 2 1 5).Ok ⟨false, true⟩ ∧ (Surd.mk 3 2 1 5).isQuadint = true ∧
    (Surd.mk 3 1 2 5).Ok ⟨false, true⟩ ∧ (Surd.mk 3 1 2 5).isQuadint = false := by decide +kernel

/-- **C20** the algebraic integers `is_quadint` misses when the root is square-free: exactly the numbers
`(a + b√r)/2` with odd `a` and `b` and `r ≡ 1 (mod 4)`. -/
theorem surd_isQuadint_missed (cfg : Cfg) (s : Surd) (h : s.Ok cfg) (hsf : Squarefree s.r) :
    IsIntegral ℤ s.valC ∧ s.isQuadint = false ↔
      s.r % 4 = 1 ∧ s.c = 2 ∧ s.a % 2 = 1 ∧ s.b % 2 = 1 := by
  have hr0 : s.r ≠ 0 := hsf.ne_zero
  have hcpos := h.c_pos
  rw [Surd.integral_iff h.toNormal hr0]
  simp only [Surd.isQuadint, decide_eq_false_iff_not]
  constructor
  · rintro ⟨⟨h1, h2⟩, hc1⟩
    have key : ∀ p : ℤ, Prime p → p ∣ s.c → ¬ p ∣ s.a := by
      intro p hp hpc hpa
      have hpp : p * p ∣ s.a * s.a - s.b * s.b * s.r := (mul_dvd_mul hpc hpc).trans h2
      have hpb : ¬ p ∣ s.b := fun e => hp.not_isUnit (h.coprime p hpa e hpc)
      have h3 : p * p ∣ s.b * s.b * s.r := by
        have := dvd_sub (mul_dvd_mul hpa hpa) hpp
        rwa [show s.a * s.a - (s.a * s.a - s.b * s.b * s.r) = s.b * s.b * s.r by ring] at this
      have hcop : IsCoprime (p * p) (s.b * s.b) := by
        have : IsCoprime p s.b := (Prime.coprime_iff_not_dvd hp).mpr hpb
        exact (this.mul_left this).mul_right (this.mul_left this)
      exact hp.not_isUnit (hsf p (hcop.dvd_of_dvd_mul_left h3))
    have hcop : IsCoprime s.c s.a := by
      rw [Int.isCoprime_iff_gcd_eq_one]
      by_contra hg
      obtain ⟨p, hp, hpg⟩ := Nat.exists_prime_and_dvd hg
      have hpz : ((p:ℕ):ℤ) ∣ (Int.gcd s.c s.a : ℤ) := by exact_mod_cast hpg
      exact key p (Nat.prime_iff_prime_int.mp hp) (hpz.trans (Int.gcd_dvd_left ..)) (hpz.trans (Int.gcd_dvd_right ..))
    have hc2 : s.c ∣ 2 := hcop.dvd_of_dvd_mul_right h1
    have hc : s.c = 2 := by
      have := Int.le_of_dvd (by norm_num) hc2
      omega
    have ha : s.a % 2 = 1 := by
      have := key 2 Int.prime_two (by rw [hc])
      omega
    rw [hc] at h2
    obtain ⟨k, hk⟩ := h2
    obtain ⟨u, hu⟩ : ∃ u, s.a = 2 * u + 1 := ⟨s.a / 2, by omega⟩
    have hb : s.b % 2 = 1 := by
      by_contra hb
      obtain ⟨v, hv⟩ : ∃ v, s.b = 2 * v := ⟨s.b / 2, by omega⟩
      rw [hu, hv] at hk
      have : 4 * (u * u + u - v * v * s.r - k) = -1 := by linear_combination hk
      omega
    obtain ⟨v, hv⟩ : ∃ v, s.b = 2 * v + 1 := ⟨s.b / 2, by omega⟩
    rw [hu, hv] at hk
    have : s.r = 4 * (u * u + u - v * v * s.r - v * s.r - k) + 1 := by linear_combination -hk
    exact ⟨by omega, hc, ha, hb⟩
  · rintro ⟨hr, hc, ha, hb⟩
    rw [hc]
    obtain ⟨u, hu⟩ : ∃ u, s.a = 2 * u + 1 := ⟨s.a / 2, by omega⟩
    obtain ⟨v, hv⟩ : ∃ v, s.b = 2 * v + 1 := ⟨s.b / 2, by omega⟩
    obtain ⟨w, hw⟩ : ∃ w, s.r = 4 * w + 1 := ⟨s.r / 4, by omega⟩
    refine ⟨⟨⟨s.a, rfl⟩, ⟨u * u + u - (v * v + v) * (4 * w + 1) - w, ?_⟩⟩, by norm_num⟩
    rw [hu, hv, hw]; ring
example : (Surd.mk 3 1 2 5).Ok ⟨false, true⟩ ∧ Squarefree (5:ℤ) ∧ (5:ℤ) % 4 = 1 ∧ (3:ℤ) % 2 = 1 := by
  refine ⟨by decide +kernel, ?_, by decide, by decide⟩
  have : Prime (5:ℤ) := by rw [← Nat.cast_ofNat, ← Nat.prime_iff_prime_int]; decide
  exact this.squarefree

/-- **C20** a surd a program can obtain is a Gaussian integer iff `is_gaussint` says so and in addition it is
rational or minus its root is a perfect square: the second condition is what `is_gaussint` does not test. -/
theorem surd_isGaussint_exact (cfg : Cfg) (fits : ℤ → Bool) (s : Surd) (hs : Surd.Reach cfg fits s) :
    (∃ m n : ℤ, s.valC = m + n * Complex.I) ↔ s.isGaussint = true ∧ (s.r = 0 ∨ s.r < 0 ∧ IsSquare (-s.r)) := by
  have h := surd_reach_ok cfg fits s hs
  constructor
  · intro e
    have hg := (surd_isGaussint_partial cfg fits s hs).1 e
    refine ⟨hg, ?_⟩
    obtain ⟨m, n, e⟩ := e
    have hc1 : s.c = 1 := by simpa [Surd.isGaussint] using hg
    by_cases hr0 : s.r = 0
    · exact .inl hr0
    right
    have hb : s.b ≠ 0 := fun e => hr0 (h.rational.mp e)
    rcases lt_or_gt_of_ne hr0 with hr | hr
    · refine ⟨hr, ?_⟩
      have e2 : n = s.b * Real.sqrt ((-s.r : ℤ) : ℝ) := by
        have := congrArg Complex.im e
        unfold Surd.valC quadC rootC at this
        rw [if_neg (not_le.mpr hr), hc1] at this
        simp at this
        push_cast; linarith
      have h0 : (0:ℝ) ≤ ((-s.r : ℤ) : ℝ) := by exact_mod_cast (by omega : (0:ℤ) ≤ -s.r)
      have h1 := Real.mul_self_sqrt h0
      have hsq : n * n = s.b * s.b * (-s.r) := by
        have : (n:ℝ) * n = s.b * s.b * ((-s.r : ℤ) : ℝ) := by rw [e2]; linear_combination (s.b:ℝ)^2 * h1
        exact_mod_cast this
      apply isSquare_of_rat (q := n / s.b)
      have hbQ : (s.b : ℚ) ≠ 0 := by exact_mod_cast hb
      have : (n * n : ℚ) = s.b * s.b * ((-s.r : ℤ) : ℚ) := by exact_mod_cast hsq
      rw [div_mul_div_comm, this]; field_simp
    · exfalso
      have him : s.valC.im = 0 := by rw [Surd.valC_eq_val hr.le]; simp
      have hn : n = 0 := by
        rw [e] at him; simp at him; exact_mod_cast him
      have := (surd_isRational cfg s h).mpr ⟨m, by rw [e, hn]; simp⟩
      exact hr0 (h.isRational_iff.mp this)
  · rintro ⟨hg, hr⟩
    have hc1 : s.c = 1 := by simpa [Surd.isGaussint] using hg
    rcases hr with hr | ⟨hr, k, hk⟩
    · exact (surd_isGaussint_partial cfg fits s hs).2 (.inl hr) hg
    · refine ⟨s.a, s.b * |k|, ?_⟩
      have hroot : rootC s.r = |k| * Complex.I := by
        unfold rootC
        rw [if_neg (not_le.mpr hr)]
        have : Real.sqrt (-(s.r:ℝ)) = |(k:ℝ)| := by
          rw [← Real.sqrt_mul_self_eq_abs]
          congr 1
          exact_mod_cast hk
        rw [this, ← Int.cast_abs, Complex.ofReal_intCast, mul_comm]
      unfold Surd.valC quadC
      rw [hroot, hc1]; push_cast; ring
example : Surd.Reach ⟨true, true⟩ (fun _ => true) ⟨1, 3, 1, -1⟩ ∧ (Surd.mk 1 3 1 (-1)).isGaussint = true :=
  ⟨.new (a := 2) (b := 3) (c := 2) (r := -4) (by decide +kernel), rfl⟩

/-! ### C21 -/

/-- **C21** `to_gaussint` answers `Exact` iff the denominator is 1, and its answer is then the surd iff the root is
0 or -1. -/
theorem surd_toGaussint_exact (cfg : Cfg) (s : Surd) (h : s.Ok cfg) :
    ((∃ g, Surd.toGaussint cfg s = .ok (.exact g)) ↔ s.c = 1) ∧
    ∀ g, Surd.toGaussint cfg s = .ok (.exact g) → (g.valC = s.valC ↔ s.r = 0 ∨ s.r = -1) := by
  constructor
  · unfold Surd.toGaussint
    split
    · next hg => exact ⟨fun _ => by simpa [Surd.isGaussint] using hg, fun _ => ⟨_, rfl⟩⟩
    · next hg =>
      constructor
      · rintro ⟨g, e⟩
        obtain ⟨q, e', e⟩ := bind_ok e
        cases e
      · intro hc; exact absurd (by simpa [Surd.isGaussint] using hc) hg
  · intro g e
    constructor
    · intro hv
      by_cases hr : s.r = 0
      · exact .inl hr
      right
      have hb : s.b ≠ 0 := fun e => hr (h.rational.mp e)
      unfold Surd.toGaussint at e
      split at e
      · next hg =>
        have h1 : s.c = 1 := by simpa [Surd.isGaussint] using hg
        cases e
        unfold Surd.valC quadC GInt.valC at hv
        rw [h1] at hv
        have hbC : (s.b : ℂ) ≠ 0 := by exact_mod_cast hb
        have hroot : rootC s.r = Complex.I := by
          have : (s.b : ℂ) * (rootC s.r - Complex.I) = 0 := by
            simp at hv
            rcases hv with hv | hv
            · rw [hv]; ring
            · exact absurd hv hb
          rcases mul_eq_zero.mp this with h2 | h2
          · exact absurd h2 hbC
          · exact sub_eq_zero.mp h2
        have := rootC_mul_self s.r
        rw [hroot, Complex.I_mul_I] at this
        exact_mod_cast this.symm
      · obtain ⟨q, e', e⟩ := bind_ok e
        cases e
    · intro hr; exact (surd_toGaussint_partial cfg s h).2 hr g e
example : Surd.toGaussint ⟨true, true⟩ ⟨3, -2, 1, -2⟩ = .ok (.exact ⟨3, -2⟩) := by decide +kernel

/-! ### C54 -/

theorem parts_unique {d e : ℤ} (hd : ¬ IsSquare d) (he : ¬ IsSquare e) {p q p' q' : ℤ}
    (h : ((p / 2 : ℚ) : ℂ) + ((q / 2 : ℚ) : ℂ) * rootC d = ((p' / 2 : ℚ) : ℂ) + ((q' / 2 : ℚ) : ℂ) * rootC e) :
    p = p' ∧ q * q * d = q' * q' * e := by
  push_cast at h
  have r1 := rootC_mul_self d
  have r2 := rootC_mul_self e
  by_cases hq0 : q' = 0
  · have lin : (((p:ℚ) - p' : ℚ) : ℂ) + ((q : ℚ) : ℂ) * rootC d = 0 := by
      rw [hq0] at h; push_cast at h ⊢; linear_combination 2 * h
    obtain ⟨l1, l2⟩ := root_lin_indep hd lin
    have l1' : p = p' := by have : (p:ℚ) = p' := by linarith
                            exact_mod_cast this
    have l2' : q = 0 := by exact_mod_cast l2
    exact ⟨l1', by rw [l2', hq0]; ring⟩
  · have hq' : (q' : ℚ) ≠ 0 := by exact_mod_cast hq0
    have lin : ((((p':ℚ) - p) ^ 2 + q' ^ 2 * e - q ^ 2 * d : ℚ) : ℂ) +
        ((2 * ((p':ℚ) - p) * q' : ℚ) : ℂ) * rootC e = 0 := by
      push_cast
      have : (q : ℂ) * rootC d = (p' - p) + q' * rootC e := by linear_combination 2 * h
      linear_combination (-(p' - p : ℂ) - q' * rootC e - q * rootC d) * this
        + (q : ℂ) ^ 2 * r1 - (q' : ℂ) ^ 2 * r2
    obtain ⟨l1, l2⟩ := root_lin_indep he lin
    have e0 : (p':ℚ) = p := by
      rcases mul_eq_zero.mp l2 with h | h
      · linarith
      · exact absurd h hq'
    rw [e0] at l1
    refine ⟨by exact_mod_cast e0.symm, ?_⟩
    have : (q:ℚ) * q * d = q' * q' * e := by linarith
    exact_mod_cast this

/-- **C54** what `==` computes, exactly: it is numeric equality for operands with the same discriminant, it is
always false when only one discriminant is zero, and for two different non-zero discriminants it is numeric
equality up to conjugation. -/
theorem qint_eq_exact (cfg : Cfg) (x y : QInt) (hx : x.Ok cfg) (hy : y.Ok cfg) :
    QInt.eq x y = .ok true ↔
      (x.d = y.d ∧ x.valC = y.valC) ∨
      (x.d ≠ y.d ∧ x.d ≠ 0 ∧ y.d ≠ 0 ∧ (x.valC = y.valC ∨ ∃ c, y.conj = .ok c ∧ x.valC = c.valC)) := by
  constructor
  · intro h
    by_cases hd : x.d = y.d
    · exact .inl ⟨hd, (qint_eq_same_discr_partial cfg x y hx hy hd).mp h⟩
    · right
      have h2 := qint_eq_sound_partial cfg x y hx hy h
      unfold QInt.eq at h
      rw [if_neg hd] at h
      split at h
      · cases h
      · next h0 => push Not at h0; exact ⟨hd, h0.1, h0.2, h2⟩
  · rintro (⟨hd, h⟩ | ⟨hd, h0, h0', h⟩)
    · exact (qint_eq_same_discr_partial cfg x y hx hy hd).mpr h
    · obtain ⟨p, q, e, ev, -⟩ := partsDoubled_spec hx h0
      obtain ⟨p', q', e', ev', -⟩ := partsDoubled_spec hy h0'
      unfold QInt.eq
      rw [if_neg hd, if_neg (by tauto), e, e']
      simp only [bind, Except.bind, pure, Except.pure, Except.ok.injEq, decide_eq_true_eq]
      rcases h with h | ⟨c, hc, h⟩
      · rw [ev, ev'] at h
        exact parts_unique (hx.irrational h0) (hy.irrational h0') h
      · obtain ⟨c', hc', -, -, hcv⟩ := qint_conj cfg y hy
        rw [hc] at hc'
        cases hc'
        rw [hcv _ _ ev' h0', ev] at h
        have := parts_unique (q' := -q') (hx.irrational h0) (hy.irrational h0') (by rw [h]; push_cast; ring)
        exact ⟨this.1, by rw [this.2]; ring⟩
example : QInt.new ⟨false, true⟩ 0 1 18 = .ok ⟨0, 1, 18⟩ ∧ QInt.new ⟨false, true⟩ 0 (-3) 2 = .ok ⟨0, -3, 2⟩ ∧
    QInt.eq ⟨0, 1, 18⟩ ⟨0, -3, 2⟩ = .ok true ∧ QInt.eq ⟨1, 0, 2⟩ QInt.one = .ok false := by decide +kernel

end NumIrr
