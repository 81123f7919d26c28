/-
C75, C76: quadratic surds to continued fractions over fixed-width integers.
-/
import Verif.Lemmas.FixedCFSurdSafe
import Verif.Props.SurdCF

namespace NumIrr

open Lagrange Surd

/-! ### C75: with overflow checks -/

/-- **C75** with overflow checks the conversion panics with an overflow or does what it does for arbitrary precision. -/
theorem fixed_surd_to_cf_partial (x : Fx) (hw : 2 ≤ x.w) (hc : x.checks = true) (cfg : Cfg) (fuel : ℕ) (s : Surd)
    (h : s.Normal) : RefinesO (x.toContfrac cfg fuel s) (s.toContfrac cfg fuel) :=
  Fx.toContfrac_ref hw hc cfg fuel h

/-- **C75** the coefficients of the result fit, in both kinds of build and whatever the four integers are. -/
theorem fixed_surd_to_cf_fits (x : Fx) (cfg : Cfg) (fuel : ℕ) (s : Surd) (c : CF)
    (h : x.toContfrac cfg fuel s = some (.ok (some c))) : c.Fits x.w :=
  Fx.toContfrac_holds cfg fuel s _ h c rfl

/-- **C75** without overflow checks the result is the checked one unless that is an overflow. -/
theorem fixed_surd_to_cf_release (w : ℕ) (cfg : Cfg) (fuel : ℕ) (s : Surd)
    (h : (⟨w, true⟩ : Fx).toContfrac cfg fuel s ≠ some (.error .overflow)) :
    (⟨w, false⟩ : Fx).toContfrac cfg fuel s = (⟨w, true⟩ : Fx).toContfrac cfg fuel s :=
  ((Fx.toContfrac_rel (x := ⟨w, true⟩) rfl cfg fuel s).resolve_right h).symm

/-- `i8`: `(1+√7)/3` converts, `(1+2√7)/5` overflows -/
example : (⟨8, true⟩ : Fx).toContfrac ⟨false, true⟩ 20 ⟨1, 1, 3, 7⟩ = some (.ok (some ⟨[1], [4, 1, 1, 1], false⟩)) ∧
    (⟨8, true⟩ : Fx).toContfrac ⟨false, true⟩ 20 ⟨1, 2, 5, 7⟩ = some (.error .overflow) := by
  refine ⟨by decide +kernel, by decide +kernel⟩

/-! ### C76: the range without overflow -/

/-- **C76** the conversion of an irrational number is exact in both kinds of build when `13 d + 2 p²` fits, where
`(p + √d)/q` is the form the number is brought to first. -/
theorem fixed_surd_to_cf_exact (x : Fx) (hw : 2 ≤ x.w) (cfg : Cfg) (fuel : ℕ) (s : Surd) (h : s.RealOk) (hr : s.r ≠ 0)
    (hb : 13 * s.cfDisc + 2 * s.cfShift ^ 2 < 2 ^ (x.w - 1)) : x.toContfrac cfg fuel s = s.toContfrac cfg fuel := by
  have hb0 : s.b ≠ 0 := fun e => hr (h.rational.1 e)
  have hr0 : 0 < s.r := lt_of_le_of_ne h.real (Ne.symm hr)
  have hq : ∀ σ : Bool, 0 < signed σ s.val → x.quadsurdToContfrac cfg fuel (signed σ s.a) (signed σ s.b) s.c s.r σ =
      quadsurdToContfrac cfg fuel (signed σ s.a) (signed σ s.b) s.c s.r σ := by
    intro σ hσ
    have e1 : s.r * signed σ s.b * signed σ s.b = s.r * s.b * s.b := by cases σ <;> simp [signed]
    have e2 : signed σ s.a * signed σ s.a = s.a * s.a := by cases σ <;> simp [signed]
    have e3 : (signed σ s.a * s.c) * (signed σ s.a * s.c) = (s.a * s.c) * (s.a * s.c) := by cases σ <;> simp [signed]
    refine Fx.quadsurd_exact hw cfg fuel σ h.c_pos h.real (h.irrational hr) (by cases σ <;> simp [signed, hb0]) ?_ ?_
    · cases σ
      · exact hσ
      · convert hσ using 1
        simp only [signed, if_true, val, quadR]
        push_cast
        rw [← neg_div]; congr 1; ring
    · rw [e1, e2, e3]
      unfold cfDisc cfShift at hb
      split at hb
      · rename_i hd; rw [if_pos hd]; linarith
      · rename_i hd; rw [if_neg hd]; linarith
  have hK : s.r * s.b * s.b + s.a * s.a ≤ 2 ^ (x.w - 1) - 1 := by
    have h1 : 0 ≤ s.r * s.b * s.b := by rw [mul_assoc]; exact mul_nonneg hr0.le (mul_self_nonneg _)
    have h2 := mul_self_nonneg s.a
    have h3 := h.c_pos
    have h4 : 1 ≤ s.c * s.c := by nlinarith
    have h5 : s.r * s.b * s.b ≤ s.cfDisc := by
      unfold cfDisc
      split
      · exact le_rfl
      · rw [mul_assoc (s.r * s.b * s.b)]; exact le_mul_of_one_le_right h1 h4
    have h6 : s.a * s.a ≤ s.cfShift ^ 2 := by
      unfold cfShift
      split
      · rw [sq]
      · have : (s.a * s.c) ^ 2 = (s.a * s.a) * (s.c * s.c) := by ring
        rw [this]; exact le_mul_of_one_le_right h2 h4
    omega
  obtain ⟨b, h1, h2⟩ := surd_isNegative cfg s h
  have hne : s.val ≠ 0 := by
    have := valC_ne_zero_of_b h.c_pos.ne' hb0 (h.irrational hr)
    rw [h.valC] at this
    exact_mod_cast this
  unfold Fx.toContfrac Surd.toContfrac
  rw [if_neg (by omega), if_neg (by omega), Fx.cfArgs_exact cfg hr0 hK (by omega), h1]
  cases b
  · have : ¬ s.val < 0 := fun h => by have := h2.2 h; cases this
    exact congrArg (Option.map fun y => y.map some) (hq false (lt_of_le_of_ne (not_lt.1 this) (Ne.symm hne)))
  · have := h2.1 rfl
    exact congrArg (Option.map fun y => y.map some) (hq true (by simp only [signed, if_true]; linarith))

/-- **C76** in particular when the four integers are at most `B` in absolute value and `15 B⁵` fits. -/
theorem fixed_surd_to_cf_small (x : Fx) (hw : 2 ≤ x.w) (cfg : Cfg) (fuel : ℕ) (s : Surd) (h : s.RealOk) (hr : s.r ≠ 0)
    (B : ℤ) (hs : |s.a| ≤ B ∧ |s.b| ≤ B ∧ |s.c| ≤ B ∧ |s.r| ≤ B) (hB : 15 * B ^ 5 < 2 ^ (x.w - 1)) :
    x.toContfrac cfg fuel s = s.toContfrac cfg fuel := by
  refine fixed_surd_to_cf_exact x hw cfg fuel s h hr (lt_of_le_of_lt ?_ hB)
  obtain ⟨h1, h2, h3, h4⟩ := hs
  have h5 := h.c_pos
  have hr0 := h.real
  rw [abs_of_pos h5] at h3
  rw [abs_of_nonneg hr0] at h4
  have hB1 : 1 ≤ B := by omega
  have hB0 : 0 ≤ B := by omega
  have ha : s.a * s.a ≤ B * B := by
    rw [← abs_mul_abs_self]; exact mul_le_mul h1 h1 (abs_nonneg _) hB0
  have hb : s.b * s.b ≤ B * B := by
    rw [← abs_mul_abs_self]; exact mul_le_mul h2 h2 (abs_nonneg _) hB0
  have hc : s.c * s.c ≤ B * B := mul_le_mul h3 h3 h5.le hB0
  have hd : s.r * (s.b * s.b) ≤ B * (B * B) := mul_le_mul h4 hb (mul_self_nonneg _) hB0
  have hBB : 1 ≤ B * B := by nlinarith
  have h0 : 0 ≤ B * (B * B) := by positivity
  have hd1 : s.cfDisc ≤ B ^ 5 := by
    have e : B ^ 5 = B * (B * B) * (B * B) := by ring
    unfold cfDisc
    rw [e]
    split
    · rw [mul_assoc]; exact hd.trans (le_mul_of_one_le_right h0 hBB)
    · rw [mul_assoc (s.r * s.b * s.b), mul_assoc s.r]
      exact mul_le_mul hd hc (mul_self_nonneg _) h0
  have hd2 : s.cfShift ^ 2 ≤ B ^ 5 := by
    have e : B ^ 5 = B * ((B * B) * (B * B)) := by ring
    have h6 : (B * B) * (B * B) ≤ B ^ 5 := by rw [e]; exact le_mul_of_one_le_left (by positivity) hB1
    refine le_trans ?_ h6
    unfold cfShift
    split
    · rw [sq]; exact ha.trans (le_mul_of_one_le_right (by positivity) hBB)
    · have : (s.a * s.c) ^ 2 = (s.a * s.a) * (s.c * s.c) := by ring
      rw [this]; exact mul_le_mul ha hc (mul_self_nonneg _) (by positivity)
  linarith

/-- `i16`: `(1 + 2√11)/5` with `d = 44·25`, `p = 5` -/
example : (⟨16, false⟩ : Fx).toContfrac ⟨false, false⟩ 50 ⟨1, 2, 5, 11⟩ = Surd.toContfrac ⟨false, false⟩ 50 ⟨1, 2, 5, 11⟩ ∧
    13 * cfDisc ⟨1, 2, 5, 11⟩ + 2 * cfShift ⟨1, 2, 5, 11⟩ ^ 2 < 2 ^ 15 := by
  refine ⟨by decide +kernel, by decide +kernel⟩

/-! ### C75 refuted: without overflow checks -/

private theorem two_root (n : ℤ) (hn : 2 ≤ n) : Root (n * n + 2) n := ⟨by omega, by omega, by nlinarith⟩

private theorem two_isqrt (n : ℤ) (hn : 2 ≤ n) : isqrt (n * n + 2) = n := by
  have h0 : 0 ≤ n * n + 2 := by nlinarith
  have h1 := isqrt_le (n * n + 2) h0
  have h2 := lt_succ_isqrt (n * n + 2)
  have h3 := isqrt_nonneg (n * n + 2)
  nlinarith

/-- the run of the loops for `√(n²+2) = [n; (n, 2n)]` -/
private theorem two_loops (debug : Bool) (n : ℕ) (hn : 2 ≤ n) (fuel : ℕ) (hf : 2 ≤ fuel) :
    cfOfState debug fuel ((n : ℤ) * n + 2) n 0 1 false = some (.ok ⟨[n], [n, 2 * n], false⟩) := by
  obtain ⟨k, rfl⟩ : ∃ k, fuel = k + 2 := ⟨fuel - 2, by omega⟩
  have hn' : (2 : ℤ) ≤ n := by exact_mod_cast hn
  have r1 : rho ((n : ℤ) * n + 2) n 0 1 = .ok ((n : ℤ), (n : ℤ), 2) := by
    simp [rho, divFloorR, divR, bind, Except.bind, pure, Except.pure]
  have r2 : rho ((n : ℤ) * n + 2) n n 2 = .ok ((n : ℤ), (n : ℤ), 1) := by
    have e : ((n : ℤ) + n).fdiv 2 = n := by
      rw [← two_mul]; exact Int.mul_fdiv_cancel_left _ (by norm_num)
    simp only [rho, divFloorR, divR, bind, Except.bind, pure, Except.pure, e, show ¬ ((2 : ℤ) = 0) by norm_num, if_false]
    have e2 : (n : ℤ) * 2 - n = n := by ring
    rw [e2]
    have e3 : (n : ℤ) * n + 2 - n * n = 2 := by ring
    rw [e3]; rfl
  have r3 : rho ((n : ℤ) * n + 2) n n 1 = .ok (2 * (n : ℤ), (n : ℤ), 2) := by
    have e : ((n : ℤ) + n).fdiv 1 = 2 * n := by rw [Int.fdiv_one]; ring
    simp only [rho, divFloorR, divR, bind, Except.bind, pure, Except.pure, e, show ¬ ((1 : ℤ) = 0) by norm_num, if_false]
    have e2 : 2 * (n : ℤ) * 1 - n = n := by ring
    rw [e2]
    have e3 : (n : ℤ) * n + 2 - n * n = 2 := by ring
    rw [e3]; rfl
  have hred : isReduced (n : ℤ) n 2 = true := by
    simp [isReduced]; omega
  have h1 : headLoop ((n : ℤ) * n + 2) n (k + 2) [] 0 1 = some (.ok ([(n : ℤ)], (n : ℤ), 2)) := by
    rw [headLoop, r1]; simp [hred]
  have h2 : periodLoop ((n : ℤ) * n + 2) n n 2 (k + 2) [] n 2 = some (.ok [(n : ℤ), 2 * (n : ℤ)]) := by
    rw [periodLoop, r2]
    show (if (n : ℤ) = n ∧ (1 : ℤ) = 2 then _ else _) = _
    rw [if_neg (fun h => absurd h.2 (by norm_num)), periodLoop, r3]
    simp
  unfold cfOfState
  rw [h1]
  simp only [h2]
  have h3 : n ≠ 0 := by omega
  have h4 : ¬ (n : ℤ) < 0 := by omega
  have h5 : ¬ (2 * (n : ℤ)) < 0 := by omega
  have h6 : (2 * (n : ℤ)).toNat = 2 * n := by omega
  simp [CF.new, CF.newLoop, CF.newStep, bind, Except.bind, pure, Except.pure, CF.finalSign, CF.toUnsignedAll, CF.toUnsigned, h3, h4, h5, h6]

/-- **C75** refuted without overflow checks: for each of the widths 16, 32, 64, 128 (and all other multiples of 4 from
16 on) the number `(2^(w/2) + 1)√2`, whose coefficients are far inside the range, is converted to the fraction of
`√(2^(w/2+2) + 2)`; with overflow checks there is a panic. -/
theorem fixed_surd_to_cf_refuted (j : ℕ) (hj : 4 ≤ j) (cfg : Cfg) (fuel : ℕ) (hf : 2 ≤ fuel) :
    (⟨4 * j, false⟩ : Fx).toContfrac cfg fuel ⟨0, 2 ^ (2 * j) + 1, 1, 2⟩ =
      some (.ok (some ⟨[2 ^ (j + 1)], [2 ^ (j + 1), 2 * 2 ^ (j + 1)], false⟩)) ∧
    CF.HasVal ⟨[2 ^ (j + 1)], [2 ^ (j + 1), 2 * 2 ^ (j + 1)], false⟩ √((2 ^ (2 * j + 2) + 2 : ℤ) : ℝ) ∧
    √((2 ^ (2 * j + 2) + 2 : ℤ) : ℝ) < Surd.val ⟨0, 2 ^ (2 * j) + 1, 1, 2⟩ ∧
    (⟨4 * j, true⟩ : Fx).toContfrac cfg fuel ⟨0, 2 ^ (2 * j) + 1, 1, 2⟩ = some (.error .overflow) := by
  set A : ℤ := 2 ^ (2 * j) with hA
  set n : ℕ := 2 ^ (j + 1) with hn
  have hA256 : (256 : ℤ) ≤ A := by
    calc (256 : ℤ) = 2 ^ 8 := by norm_num
      _ ≤ 2 ^ (2 * j) := pow_le_pow_right₀ (by norm_num) (by omega)
  have hnn : (n : ℤ) * n = 4 * A := by
    rw [hn, hA]; push_cast
    rw [← pow_add, show j + 1 + (j + 1) = 2 * j + 2 by ring, pow_add]; ring
  have hn2 : 2 ≤ n := by
    calc 2 = 2 ^ 1 := rfl
      _ ≤ 2 ^ (j + 1) := Nat.pow_le_pow_right (by norm_num) (by omega)
  have hn2' : (2 : ℤ) ≤ n := by exact_mod_cast hn2
  have hW : (2 : ℤ) ^ (4 * j) = A * A := by rw [hA, ← pow_add]; congr 1; ring
  have hH : 2 * (2 : ℤ) ^ (4 * j - 1) = A * A := by rw [← hW, ← pow_succ']; congr 1; omega
  have hHA : 256 * A ≤ A * A := mul_le_mul_of_nonneg_right hA256 (by omega)
  have hd2 : (2 : ℤ) ^ (2 * j + 2) + 2 = n * n + 2 := by rw [hnn, pow_add, ← hA]; ring
  have hroot := two_root n hn2'
  have hisq := two_isqrt n hn2'
  have hval : Valid ((n : ℤ) * n + 2) 0 1 := ⟨one_ne_zero, one_dvd _⟩
  have hth : th ((n : ℤ) * n + 2) 0 1 = √(((n : ℤ) * n + 2 : ℤ) : ℝ) := by unfold th; simp
  have hpos : 0 < th ((n : ℤ) * n + 2) 0 1 := by
    rw [hth, Real.sqrt_pos]; exact_mod_cast (by omega : (0 : ℤ) < n * n + 2)
  have hneg : thc ((n : ℤ) * n + 2) 0 1 < 0 := by
    have : thc ((n : ℤ) * n + 2) 0 1 = -th ((n : ℤ) * n + 2) 0 1 := by unfold thc th; simp
    rw [this]; linarith
  have hloops : ∀ x : Fx, x.w = 4 * j → x.cfLoops cfg.debug fuel ((n : ℤ) * n + 2) 0 1 false =
      some (.ok ⟨[n], [n, 2 * n], false⟩) := by
    intro x hx
    rw [Fx.cfLoops_exact (P := 3 * n) (by omega) (by rw [hisq]; exact hroot) (by rw [hisq]) ?_ ?_ hval (by simp) ?_,
      hisq, two_loops cfg.debug n hn2 fuel hf]
    · rw [hx]; nlinarith
    · rw [hx, hisq, abs_zero]; nlinarith
    · rw [hisq]; exact .inl ⟨one_pos, by omega⟩
  have hargs : ∀ x : Fx, x.cfArgs cfg ⟨0, A + 1, 1, 2⟩ = .ok (0, A + 1, false) := by
    intro x
    have h1 : x.isNegative cfg ⟨0, A + 1, 1, 2⟩ = .ok false := by
      have h0 : A + 1 ≠ 0 := by omega
      have h2 : ¬ A + 1 < 0 := by omega
      have h3 : Surd.panicIfComplex cfg ⟨0, A + 1, 1, 2⟩ = .ok () := by simp [Surd.panicIfComplex]
      unfold Fx.isNegative
      rw [h3]
      simp [h0, h2, bind, Except.bind, pure, Except.pure]
    unfold Fx.cfArgs
    rw [h1]; rfl
  have hsq2 : ¬ isqrt 2 * isqrt 2 = 2 := by decide +kernel
  have hrun : ∀ x : Fx, x.toContfrac cfg fuel ⟨0, A + 1, 1, 2⟩ = (match x.pqForm 0 (A + 1) 1 2 with
      | .error e => some (.error e)
      | .ok (d, p, q) => (x.cfLoops cfg.debug fuel d p q false).map fun y => y.map some) := by
    intro x
    unfold Fx.toContfrac
    rw [if_neg (show ¬ ((2 : ℤ) < 0) by norm_num), hargs]
    show Option.map _ (x.quadsurdToContfrac cfg fuel 0 (A + 1) 1 2 false) = _
    unfold Fx.quadsurdToContfrac
    rw [if_neg (by simp), if_neg (by simp [hsq2])]
    cases x.pqForm 0 (A + 1) 1 2 <;> rfl
  refine ⟨?_, ?_, ?_, ?_⟩
  · set x : Fx := ⟨4 * j, false⟩ with hx
    have hw : 2 ≤ x.w := by show 2 ≤ 4 * j; omega
    have hold : ∀ v : ℤ, 0 ≤ v → v ≤ 4 * A + 2 → x.ret v = .ok v := fun v h1 h2 =>
      Fx.ret_ok (by unfold Fx.Holds; show -2 ^ (4 * j - 1) ≤ v ∧ v < 2 ^ (4 * j - 1); omega)
    have e1 : x.wr (2 * (A + 1) * (A + 1)) = n * n + 2 := by
      rw [← Fx.wr_of_holds hw (v := (n : ℤ) * n + 2)
        (by unfold Fx.Holds; show -2 ^ (4 * j - 1) ≤ _ ∧ _ < 2 ^ (4 * j - 1); omega)]
      apply Fx.wr_congr
      show _ ≡ _ [ZMOD 2 ^ (4 * j)]
      rw [hW, hnn]
      exact (Int.modEq_iff_dvd.2 ⟨-2, by ring⟩)
    have e2 : x.pqForm 0 (A + 1) 1 2 = .ok ((n : ℤ) * n + 2, 0, 1) := by
      have m1 : x.mul 2 (A + 1) = .ok (2 * (A + 1)) := hold _ (by omega) (by omega)
      have m2 : x.mul (2 * (A + 1)) (A + 1) = .ok ((n : ℤ) * n + 2) := by rw [← e1]; exact Fx.ret_wr hw rfl _
      have m3 : x.mul 0 0 = .ok 0 := hold 0 le_rfl (by omega)
      have m4 : x.sub ((n : ℤ) * n + 2) 0 = .ok ((n : ℤ) * n + 2) := by
        unfold Fx.sub; rw [sub_zero]; exact hold _ (by omega) (by omega)
      have e3 : x.pqSign 0 (A + 1) 1 = .ok (0, 1) := by
        unfold Fx.pqSign; rw [if_neg (by omega)]
      have e4 : x.rem ((n : ℤ) * n + 2) 1 = .ok 0 := by
        rw [Fx.rem_abs (K := 4 * A + 2) one_ne_zero (by rw [abs_of_nonneg (by omega)]; omega)
          (by show _ < (2 : ℤ) ^ (4 * j - 1); omega), Int.tmod_one]
      unfold Fx.pqForm
      simp [m1, m2, m3, m4, e3, e4, bind, Except.bind, pure, Except.pure]
    rw [hrun, e2]
    simp only [hloops x rfl]
    rfl
  · rw [hd2, ← hth]
    obtain ⟨hst, -⟩ := neg_conj_run hroot hval hpos hneg
    obtain ⟨N, c, k1, -, -, -, k5, k6, -⟩ := cfOfState_spec cfg.debug false hroot hval hpos hst
    have h1 := k1 (max N 2) (le_max_left _ _)
    rw [two_loops cfg.debug n hn2 _ (le_max_right _ _)] at h1
    cases h1
    exact k5
  · unfold Surd.val quadR
    rw [Real.sqrt_lt' (by push_cast; positivity)]
    have e : (((0 : ℤ) : ℝ) + ((A + 1 : ℤ) : ℝ) * √((2 : ℤ) : ℝ)) / ((1 : ℤ) : ℝ) = ((A + 1 : ℤ) : ℝ) * √2 := by simp
    rw [e, mul_pow, Real.sq_sqrt (by norm_num)]
    have : (2 : ℤ) ^ (2 * j + 2) + 2 < (A + 1) ^ 2 * 2 := by rw [hd2, hnn]; nlinarith
    exact_mod_cast this
  · set x : Fx := ⟨4 * j, true⟩ with hx
    have e2 : x.pqForm 0 (A + 1) 1 2 = .error .overflow := by
      unfold Fx.pqForm Fx.mul
      have h1 : x.ret (2 * (A + 1)) = .ok (2 * (A + 1)) :=
        Fx.ret_ok (by unfold Fx.Holds; show -2 ^ (4 * j - 1) ≤ _ ∧ _ < 2 ^ (4 * j - 1); omega)
      rw [h1]
      show (x.ret (2 * (A + 1) * (A + 1)) >>= _) = _
      have h2 : x.ret (2 * (A + 1) * (A + 1)) = .error .overflow := by
        unfold Fx.ret
        rw [if_neg]
        · rfl
        · simp only [Fx.fits, IntTy.signed, Bool.and_eq_true, decide_eq_true_eq, not_and]
          intro _
          show ¬ _ < (2 : ℤ) ^ (4 * j - 1)
          nlinarith
      rw [h2]; rfl
    rw [hrun, e2]

end NumIrr
