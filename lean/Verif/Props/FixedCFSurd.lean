/-
C77, C78: continued fractions to quadratic surds, and arithmetic of continued fractions, over fixed-width integers.
-/
import Verif.Lemmas.FixedRtSafe
import Verif.Lemmas.FixedCFArith
import Verif.Props.CFArith

namespace NumIrr

open CF

/-! ### C77: from continued fractions to surds -/

/-- **C77** with overflow checks the conversion panics with an overflow or does what it does for arbitrary precision, if
the integers read off the fraction fit the signed type.  Missing: fractions where they do not, for which the claim is
false (`fixed_cf_to_surd_refuted`). -/
theorem fixed_cf_to_surd_partial (x : Fx) (hc : x.checks = true) (cfg : Cfg) (c : CF) (h : c.Wf) (hr : c.Reads x.w) :
    Refines (x.toSurd cfg c) (c.toSurd cfg) :=
  Fx.toSurd_ref hc cfg h hr

/-- **C77** the surd that is returned has the value of the fraction. -/
theorem fixed_cf_to_surd_value_partial (x : Fx) (hc : x.checks = true) (cfg : Cfg) (c : CF) (h : c.Wf)
    (hr : c.Reads x.w) (s : Surd) (hs : x.toSurd cfg c = .ok s) : s.RealOk ∧ c.HasVal s.val := by
  rcases Fx.toSurd_ref hc cfg h hr with e | e
  · exact cf_toSurd_value cfg c h s (e ▸ hs)
  · rw [hs] at e; cases e

/-- **C77** the fields of the result fit, in both kinds of build and whatever the coefficients are. -/
theorem fixed_cf_to_surd_fits (x : Fx) (hw : 2 ≤ x.w) (cfg : Cfg) (c : CF) (s : Surd) (h : x.toSurd cfg c = .ok s) :
    x.HoldsS s :=
  Fx.toSurd_holds hw cfg c s h

/-- **C77** without overflow checks the result is the checked one unless that is an overflow. -/
theorem fixed_cf_to_surd_release (w : ℕ) (cfg : Cfg) (c : CF)
    (h : (⟨w, true⟩ : Fx).toSurd cfg c ≠ .error .overflow) :
    (⟨w, false⟩ : Fx).toSurd cfg c = (⟨w, true⟩ : Fx).toSurd cfg c :=
  ((Fx.toSurd_rel (x := ⟨w, true⟩) rfl cfg c).resolve_right h).symm

/-- **C77** finite fractions are converted exactly in both kinds of build if the number fits. -/
theorem fixed_cf_to_surd_finite (x : Fx) (cfg : Cfg) (c : CF) (h : c.Wf) (hp : c.p = []) (hr : c.Reads x.w) :
    x.toSurd cfg c = c.toSurd cfg :=
  Fx.toSurd_finite cfg h hp hr

/-- **C77** fractions with one coefficient `a₀` before the period are converted exactly in both kinds of build if `16 K⁴`
and `(14 + 4 a₀) K²` fit, where `K` is the continuant of the period. -/
theorem fixed_cf_to_surd_exact (x : Fx) (cfg : Cfg) (a0 : ℕ) (p : List ℕ) (n : Bool) (hp : p ≠ []) (h1 : ∀ u ∈ p, 1 ≤ u)
    (hk : 16 * ((continuant p : ℕ) : ℤ) ^ 4 < 2 ^ (x.w - 1))
    (ha : (14 + 4 * (a0 : ℤ)) * ((continuant p : ℕ) : ℤ) ^ 2 < 2 ^ (x.w - 1)) :
    x.toSurd cfg ⟨[a0], p, n⟩ = CF.toSurd cfg ⟨[a0], p, n⟩ := by
  have hK : (1 : ℤ) ≤ ((continuant p : ℕ) : ℤ) := by exact_mod_cast Fx.continuant_pos h1
  obtain ⟨p1, p2, p3, -⟩ := Fx.pows hK
  have ha0 : (0 : ℤ) ≤ a0 := by omega
  have hk0 : (a0 : ℤ) ≤ (a0 : ℤ) * ((continuant p : ℕ) : ℤ) ^ 2 := le_mul_of_one_le_right ha0 (by linarith)
  have hwf : CF.Wf ⟨[a0], p, n⟩ := ⟨by simp, by simp, h1⟩
  refine Fx.run_eq_at (f := fun y => y.toSurd cfg ⟨[a0], p, n⟩) (Fx.toSurd_ref (x := ⟨x.w, true⟩) rfl cfg hwf ?_)
    (Fx.toSurd_rel (x := ⟨x.w, true⟩) rfl cfg _)
    (Fx.toSurd_safe (x := ⟨x.w, true⟩) (L := 2 ^ (x.w - 1) - 1) (B := ((continuant p : ℕ) : ℤ))
      (by show (2 : ℤ) ^ (x.w - 1) - 1 < 2 ^ (x.w - 1); omega) cfg hp h1 le_rfl (by omega) (by nlinarith))
  unfold CF.Reads
  rw [if_neg hp]
  show (a0 : ℤ) < 2 ^ (x.w - 1) ∧ ((1 : ℕ) : ℤ) < 2 ^ (x.w - 1) ∧ ((continuant p : ℕ) : ℤ) < 2 ^ (x.w - 1)
  refine ⟨by nlinarith, by push_cast; linarith, by linarith⟩

/-- `√2 = [1; (2)]` is in the range for `i16`; `i8` converts `√2` but not `√7 = [2; (1, 1, 1, 4)]` -/
example : continuant [2] = 2 ∧ (16 : ℤ) * 2 ^ 4 < 2 ^ 15 ∧ (14 + 4 * 1 : ℤ) * 2 ^ 2 < 2 ^ 15 ∧ continuant [1, 1, 1, 4] = 14 ∧
    CF.Reads 8 ⟨[2], [1, 1, 1, 4], false⟩ ∧
    (⟨16, false⟩ : Fx).toSurd ⟨false, true⟩ ⟨[1], [2], false⟩ = .ok ⟨0, 1, 1, 2⟩ ∧
    (⟨8, true⟩ : Fx).toSurd ⟨false, true⟩ ⟨[1], [2], false⟩ = .ok ⟨0, 1, 1, 2⟩ ∧
    (⟨8, true⟩ : Fx).toSurd ⟨false, true⟩ ⟨[2], [1, 1, 1, 4], false⟩ = .error .overflow ∧
    (⟨16, true⟩ : Fx).toSurd ⟨false, true⟩ ⟨[2], [1, 1, 1, 4], false⟩ = .ok ⟨0, 1, 1, 7⟩ := by
  refine ⟨by decide, by norm_num, by norm_num, by decide, ⟨by decide, by decide, by decide⟩, by decide +kernel,
    by decide +kernel, by decide +kernel, by decide +kernel⟩

/-- **C77** the claim is false in both kinds of build if the coefficients only fit the unsigned type: `[0; (2ʷ - 1)]`,
a number below 1, becomes the golden ratio without a panic. -/
theorem fixed_cf_to_surd_refuted (x : Fx) (hw : 6 ≤ x.w) (cfg : Cfg) :
    x.toSurd cfg ⟨[0], [2 ^ x.w - 1], false⟩ = .ok ⟨1, 1, 2, 5⟩ ∧ CF.Wf ⟨[0], [2 ^ x.w - 1], false⟩ ∧
    CF.Fits x.w ⟨[0], [2 ^ x.w - 1], false⟩ ∧ ¬ CF.HasVal ⟨[0], [2 ^ x.w - 1], false⟩ (Surd.val ⟨1, 1, 2, 5⟩) := by
  have hpw : (2 : Int) ^ x.w = 2 * 2 ^ (x.w - 1) := Prim.pow_split (by omega)
  have hL : (17 : Int) < 2 ^ (x.w - 1) := by
    calc (17 : Int) < 2 ^ 5 := by norm_num
      _ ≤ 2 ^ (x.w - 1) := pow_le_pow_right₀ (by norm_num) (by omega)
  have e : ((2 ^ x.w : Nat) : Int) = 2 ^ x.w := by push_cast; rfl
  have e1 : ((2 ^ x.w - 1 : Nat) : Int) = 2 ^ x.w - 1 := by omega
  have hwf : CF.Wf ⟨[0], [2 ^ x.w - 1], false⟩ := ⟨by simp, by simp, by
    intro v hv; have : v = 2 ^ x.w - 1 := by simpa using hv
    omega⟩
  refine ⟨?_, hwf, ?_, ?_⟩
  · have c1 : castS x.w (2 ^ x.w - 1) = -1 := by unfold castS; rw [if_neg (by omega)]; omega
    have c0 : castS x.w 0 = 0 := by unfold castS; rw [if_pos (by push_cast; omega)]; rfl
    have c2 : castS x.w 1 = 1 := by unfold castS; rw [if_pos (by push_cast; omega)]; rfl
    have hB : Surd.fromEquation cfg 1 (-1) (-1) = .ok (some ⟨1, 1, 2, 5⟩) := by
      obtain ⟨c, d⟩ := cfg; cases c <;> cases d <;> decide +kernel
    have hE : x.fromEquation cfg ⟨1, 1⟩ ⟨-1, 1⟩ ⟨-1, 1⟩ = .ok (some ⟨1, 1, 2, 5⟩) := by
      rw [← hB]
      refine Fx.run_eq_at (f := fun y => y.fromEquation cfg ⟨1, 1⟩ ⟨-1, 1⟩ ⟨-1, 1⟩) ?_
        (Fx.fromEquation_rel (x := ⟨x.w, true⟩) rfl cfg _ _ _)
        (Fx.fromEquation_safe (x := ⟨x.w, true⟩) (L := 17) (B := 1) hL le_rfl (by norm_num) cfg (by norm_num) (by norm_num)
          (by norm_num) (by norm_num))
      have := Fx.fromEquation_ref (x := ⟨x.w, true⟩) rfl cfg 1 (-1) (-1)
      exact this
    have hA : x.surdAddInt cfg ⟨1, 1, 2, 5⟩ 0 = .ok ⟨1, 1, 2, 5⟩ := by
      have hb : Surd.addInt cfg ⟨1, 1, 2, 5⟩ 0 = .ok ⟨1, 1, 2, 5⟩ := by
        obtain ⟨c, d⟩ := cfg; cases c <;> cases d <;> decide +kernel
      rw [← hb]
      refine Fx.run_eq_at (f := fun y => y.surdAddInt cfg ⟨1, 1, 2, 5⟩ 0) (Q := fun _ => True)
        (Fx.surdAddInt_ref (x := ⟨x.w, true⟩) rfl cfg _ _) (Fx.surdAddInt_rel (x := ⟨x.w, true⟩) rfl cfg _ _) ?_
      unfold Fx.surdAddInt Fx.forward Fx.coeffsAddInt
      refine Safe.bind (P := fun t => Fx.CBnd t 1 1 2) ?_ fun t ht => ?_
      · refine (Fx.mul_safe (x := ⟨x.w, true⟩) (A := 0) (B := 2) hL (by norm_num) (by norm_num [Surd.coeffs]) (by norm_num)).bind
          fun u hu => ?_
        refine (Fx.add_safe (x := ⟨x.w, true⟩) (A := 1) hL (by norm_num [Surd.coeffs]) hu (by norm_num)).bind fun v hv => ?_
        exact Safe.pure ⟨by simpa using hv, by norm_num [Surd.coeffs], by norm_num [Surd.coeffs]⟩
      · exact (Fx.fromCoeffs_safe (x := ⟨x.w, true⟩) (R := 5) (S := 3) hL cfg ht (by norm_num) (by norm_num) (by norm_num)
          (by norm_num) (by norm_num) (by norm_num)).mono fun _ _ => trivial
    have hP : x.periodSurd cfg [2 ^ x.w - 1] = .ok ⟨1, 1, 2, 5⟩ := by
      have hm : x.mobOfRev [2 ^ x.w - 1].reverse = .ok ⟨0, 1, 1, 2 ^ x.w - 1⟩ := rfl
      have r1 : x.sub (-1) 0 = .ok (-1) := Fx.ret_ok (by unfold Fx.Holds; omega)
      have r2 : x.neg 1 = .ok (-1) := Fx.ret_ok (by unfold Fx.Holds; omega)
      unfold Fx.periodSurd
      rw [hm, Surd.ok_bind]
      dsimp only
      rw [c1, c0, c2, r1, Surd.ok_bind, r2, Surd.ok_bind, hE]
      rfl
    unfold Fx.toSurd
    rw [if_neg (by simp [CF.isRational]), hP, Surd.ok_bind]
    show (x.surdAddInt cfg ⟨1, 1, 2, 5⟩ (castS x.w 0) >>= _) = _
    rw [c0, hA]
    rfl
  · intro v hv
    have : v = 0 ∨ v = 2 ^ x.w - 1 := by simpa using hv
    omega
  · intro hv
    obtain ⟨ps, z, -, -, hz, hz1, -⟩ := periodSurd_spec cfg (p := [2 ^ x.w - 1]) (by simp) hwf.2.2
    obtain ⟨y, hy, e2⟩ := hv
    have h1 := valOf_cons (by simp [toInts]) hz1 (by linarith) 0
    have h2 := valOf_unique hy h1
    have h3 : Surd.val ⟨1, 1, 2, 5⟩ = y := e2
    have h4 : (0 : ℝ) ≤ √5 := Real.sqrt_nonneg 5
    have h5 : √(5 : ℝ) * √5 = 5 := Real.mul_self_sqrt (by norm_num)
    have h6 : Surd.val ⟨1, 1, 2, 5⟩ = (1 + √5) / 2 := by simp [Surd.val, quadR]
    have h7 : 1 / z < 1 := by rw [div_lt_one (by linarith)]; exact hz
    rw [h6, h2] at h3
    push_cast at h3
    nlinarith

/-- **C77** without overflow checks the claim is false for fractions whose integers are small: for every even width
`[0; (2^(w/2))]`, a number between 0 and 1, becomes a negative integer.  With overflow checks it panics. -/
theorem fixed_cf_to_surd_release_refuted (j : ℕ) (hj : 3 ≤ j) (cfg : Cfg) :
    (⟨2 * j, false⟩ : Fx).toSurd cfg ⟨[0], [2 ^ j], false⟩ = .ok ⟨1 - 2 ^ (j - 1), 0, 1, 0⟩ ∧
    (⟨2 * j, true⟩ : Fx).toSurd cfg ⟨[0], [2 ^ j], false⟩ = .error .overflow ∧
    CF.Wf ⟨[0], [2 ^ j], false⟩ ∧ CF.Reads (2 * j) ⟨[0], [2 ^ j], false⟩ ∧
    ∃ v : ℝ, CF.HasVal ⟨[0], [2 ^ j], false⟩ v ∧ 0 < v ∧ v < 1 := by
  obtain ⟨M, hM⟩ : ∃ M : ℤ, M = 2 ^ (j - 1) := ⟨_, rfl⟩
  have hM4 : 4 ≤ M := by
    rw [hM]
    calc (4 : ℤ) = 2 ^ 2 := by norm_num
      _ ≤ 2 ^ (j - 1) := pow_le_pow_right₀ (by norm_num) (by omega)
  have h2j : (2 : ℤ) ^ j = 2 * M := by rw [hM, ← pow_succ']; congr 1; omega
  have hw1 : (2 : ℤ) ^ (2 * j - 1) = 2 * (M * M) := by
    rw [hM, ← pow_add, ← pow_succ']; congr 1; omega
  have hw2 : (2 : ℤ) ^ (2 * j) = 4 * (M * M) := by rw [two_mul, pow_add, h2j]; ring
  have hMM : 4 * M ≤ M * M := by nlinarith
  have en : ((2 ^ j : ℕ) : ℤ) = 2 * M := by rw [← h2j]; push_cast; rfl
  have hwf : CF.Wf ⟨[0], [2 ^ j], false⟩ := ⟨by simp, by simp, by
    intro v hv; have : v = 2 ^ j := by simpa using hv
    omega⟩
  have hreads : CF.Reads (2 * j) ⟨[0], [2 ^ j], false⟩ := by
    unfold CF.Reads
    rw [if_neg (by simp)]
    show ((0 : ℕ) : ℤ) < 2 ^ (2 * j - 1) ∧ ((1 : ℕ) : ℤ) < 2 ^ (2 * j - 1) ∧ ((2 ^ j : ℕ) : ℤ) < 2 ^ (2 * j - 1)
    rw [hw1, en]
    refine ⟨?_, ?_, ?_⟩ <;> push_cast <;> omega
  have hrel : (⟨2 * j, false⟩ : Fx).toSurd cfg ⟨[0], [2 ^ j], false⟩ = .ok ⟨1 - 2 ^ (j - 1), 0, 1, 0⟩ := by
    generalize hx : (⟨2 * j, false⟩ : Fx) = x
    have hxw : x.w = 2 * j := by rw [← hx]
    have hL : 2 * (M * M) - 1 < (2 : ℤ) ^ (x.w - 1) := by rw [hxw, hw1]; omega
    have ok : ∀ v : ℤ, |v| ≤ 2 * M → x.ret v = .ok v := fun v hv => by
      have := abs_le.1 hv
      refine Fx.ret_ok ?_
      unfold Fx.Holds
      rw [hxw, hw1]; constructor <;> omega
    have okd : ∀ a b : ℤ, b ≠ 0 → |a.tdiv b| ≤ 2 * M → x.div a b = .ok (a.tdiv b) := fun a b hb hv => by
      have := abs_le.1 hv
      unfold Fx.div
      rw [if_neg hb, if_pos]
      unfold Fx.fits IntTy.signed
      simp only [hxw, hw1, Bool.and_eq_true, decide_eq_true_eq]
      omega
    have c0 : castS x.w 0 = 0 := by unfold castS; rw [hxw, hw1, if_pos (by push_cast; omega)]; rfl
    have c1 : castS x.w 1 = 1 := by unfold castS; rw [hxw, hw1, if_pos (by push_cast; omega)]; rfl
    have c2 : castS x.w (2 ^ j) = 2 * M := by unfold castS; rw [hxw, hw1, if_pos (by omega), en]
    have hi : ∀ a : ℤ, igcd a 1 = 1 ∧ igcd 1 a = 1 := fun a => by
      unfold igcd; rw [Int.gcd_one_right, Int.gcd_one_left]; exact ⟨rfl, rfl⟩
    have hone : x.ret 1 = .ok 1 := ok 1 (by rw [abs_one]; omega)
    have hd1 : ∀ a : ℤ, |a| ≤ 2 * M → x.div a 1 = .ok a := fun a ha => by
      rw [okd a 1 one_ne_zero (by rwa [Int.tdiv_one]), Int.tdiv_one]
    have hab : |2 * M| ≤ 2 * M := by rw [abs_of_pos (by omega)]
    have ha1 : |(1 : ℤ)| ≤ 2 * M := by rw [abs_one]; omega
    have hsq : x.mul (2 * M) (2 * M) = .ok 0 := by
      have hwf2 : 2 ≤ x.w := by omega
      rw [Fx.mul_wr hwf2 (by rw [← hx])]
      have : x.wr (2 * M * (2 * M)) = x.wr 0 := Fx.wr_congr (by
        rw [hxw, hw2]
        exact (Int.modEq_zero_iff_dvd).2 ⟨1, by ring⟩)
      rw [this, Fx.wr_of_holds hwf2 (Fx.holds_zero x)]
    have ht1 : x.rtMul ⟨2 * M, 1⟩ ⟨2 * M, 1⟩ = .ok ⟨0, 1⟩ := by
      unfold Fx.rtMul Fx.gcd
      simp only [(hi _).1, (hi _).2, hone, Surd.ok_bind, hd1 _ hab, hsq, hd1 _ ha1]
      unfold Fx.mul
      rw [one_mul, hone]
      rfl
    have m4 : (4 : ℤ) * 1 ≤ 2 * (M * M) - 1 := by omega
    have ht2 := Fx.rtMul_int (x := x) (p := 4) (q := 1) (P := 4) (Q := 1) hL (by norm_num) (by norm_num) (by norm_num)
      le_rfl m4
    have ht3 := Fx.rtMul_int (x := x) (p := 4) (q := -1) (P := 4) (Q := 1) hL (by norm_num) (by norm_num) (by norm_num)
      le_rfl m4
    have hdl := Fx.rtSub_int (x := x) (p := 0) (q := -4) (P := 1) (Q := 4) hL (by norm_num) (by norm_num) (by norm_num)
      (by omega)
    have haa := Fx.rtMul_int (x := x) (p := 2) (q := 1) (P := 2) (Q := 1) hL (by norm_num) (by norm_num) (by norm_num)
      le_rfl (by omega)
    norm_num at ht2 ht3 hdl haa
    have hu : x.rtMul ⟨-(2 * M), 1⟩ ⟨1, 2⟩ = .ok ⟨-M, 1⟩ := by
      have e1 : (⟨1, 2⟩ : Rt) = .of (1 / 2) := by decide +kernel
      rw [Fx.rt_int, Fx.rt_int, e1]
      refine Fx.run_eq_at (f := fun y => y.rtMul (.of ((-(2 * M) : ℤ) : ℚ)) (.of (1 / 2))) ?_
        (Fx.rtMul_rel (x := ⟨x.w, true⟩) rfl _ _)
        (Fx.rtMul_safe (x := ⟨x.w, true⟩) (N := 2 * M) (D := 1) (N' := 1) (D' := 2) hL ?_ ?_ (by omega) le_rfl le_rfl
          (by norm_num) (by omega) (by omega))
      · have := Fx.rtMul_ref (x := ⟨x.w, true⟩) rfl ((-(2 * M) : ℤ) : ℚ) (1 / 2)
        rw [show ((-(2 * M) : ℤ) : ℚ) * (1 / 2) = ((-M : ℤ) : ℚ) by push_cast; ring] at this
        exact this
      · rw [← Fx.rt_int]; exact ⟨by rw [abs_neg]; exact hab, by norm_num⟩
      · rw [← e1]; exact ⟨by norm_num, by norm_num⟩
    have hMab : |1 - M| ≤ 2 * M := by rw [abs_le]; constructor <;> omega
    have hzero : x.ret 0 = .ok 0 := ok 0 (by rw [abs_zero]; omega)
    have s0 : sqrtR 0 = .ok 0 := by decide +kernel
    have s4 : sqrtR 4 = .ok 2 := by decide +kernel
    have hr2 : x.fromRationals cfg ⟨-M, 1⟩ ⟨1, 2⟩ ⟨4, 1⟩ = .ok ⟨1 - M, 0, 1, 0⟩ := by
      have k1 : x.mul 4 1 = .ok 4 := ok 4 (by rw [abs_of_pos (by norm_num)]; omega)
      have k2 : x.mul 2 1 = .ok 2 := ok 2 (by rw [abs_of_pos (by norm_num)]; omega)
      have k3 : x.mul (-M) 2 = .ok (-M * 2) := ok _ (by rw [abs_le]; constructor <;> omega)
      have k4 : x.mul 1 1 = .ok 1 := hone
      have k5 : x.mul 1 2 = .ok 2 := ok 2 (by rw [abs_of_pos (by norm_num)]; omega)
      have k6 : x.abs 4 = .ok 4 := ok 4 (by rw [abs_of_pos (by norm_num)]; omega)
      have k7 : x.mul 2 2 = .ok 4 := ok 4 (by rw [abs_of_pos (by norm_num)]; omega)
      have k8 : x.add (-M * 2) 2 = .ok (-M * 2 + 2) := ok _ (by rw [abs_le]; constructor <;> omega)
      have k9 : x.gcd (-M * 2 + 2) 2 = .ok 2 := by
        have : igcd (-M * 2 + 2) 2 = 2 := by
          unfold igcd
          rw [Int.gcd_eq_right (by norm_num) ⟨1 - M, by ring⟩]
        unfold Fx.gcd
        rw [this]
        exact ok 2 (by rw [abs_of_pos (by norm_num)]; omega)
      have e3 : (-M * 2 + 2).tdiv 2 = 1 - M := by
        rw [show -M * 2 + 2 = (1 - M) * 2 by ring]; exact Int.mul_tdiv_cancel _ (by norm_num)
      have k10 : x.div (-M * 2 + 2) 2 = .ok (1 - M) := by
        rw [okd _ 2 (by norm_num) (by rw [e3]; exact hMab), e3]
      have k11 : x.div 2 2 = .ok 1 := okd 2 2 (by norm_num) (by norm_num; omega)
      unfold Fx.fromRationals Fx.reduce Fx.reduceSquare
      rw [if_neg (by norm_num)]
      dsimp only
      rw [k1, Surd.ok_bind, k2, Surd.ok_bind, k3, Surd.ok_bind, k4, Surd.ok_bind, k5, Surd.ok_bind]
      rw [if_neg (by norm_num)]
      rw [k6, Surd.ok_bind, s4, Surd.ok_bind, k7, Surd.ok_bind, if_pos rfl, if_neg (by norm_num), k5, Surd.ok_bind, k8,
        Surd.ok_bind]
      show ((if (0 : ℤ) = 0 ∨ (0 : ℤ) = 0 then x.reduceRat ⟨-M * 2 + 2, 0, 2, 0⟩ else _) >>= _) = _
      rw [if_pos (.inl rfl)]
      unfold Fx.reduceRat
      dsimp only
      rw [k9, Surd.ok_bind, k10, Surd.ok_bind, k11]
      rfl
    have hE : x.fromEquation cfg ⟨1, 1⟩ ⟨2 * M, 1⟩ ⟨-1, 1⟩ = .ok (some ⟨1 - M, 0, 1, 0⟩) := by
      have k1 : x.add 1 1 = .ok 2 := ok 2 (by rw [abs_of_pos (by norm_num)]; omega)
      have k2 : x.mul 2 2 = .ok 4 := ok 4 (by rw [abs_of_pos (by norm_num)]; omega)
      have k3 : x.rtNeg ⟨2 * M, 1⟩ = .ok ⟨-(2 * M), 1⟩ := by
        have : x.neg (2 * M) = .ok (-(2 * M)) := ok _ (by rw [abs_neg]; exact hab)
        unfold Fx.rtNeg
        dsimp only
        rw [this]; rfl
      have k4 : x.rtRecip ⟨2, 1⟩ = .ok ⟨1, 2⟩ := rfl
      unfold Fx.fromEquation
      rw [if_neg (by norm_num), k1, Surd.ok_bind, k2, Surd.ok_bind, ht1, Surd.ok_bind, ht2, Surd.ok_bind, ht3,
        Surd.ok_bind, hdl, Surd.ok_bind, if_neg (by norm_num), haa, Surd.ok_bind, k3, Surd.ok_bind, k4, Surd.ok_bind, hu,
        Surd.ok_bind, Surd.ok_bind, hr2]
      rfl
    have hP : x.periodSurd cfg [2 ^ j] = .ok ⟨1 - M, 0, 1, 0⟩ := by
      have hm : x.mobOfRev [2 ^ j].reverse = .ok ⟨0, 1, 1, 2 ^ j⟩ := rfl
      have r1 : x.sub (2 * M) 0 = .ok (2 * M) := by unfold Fx.sub; rw [sub_zero]; exact ok _ hab
      have r2 : x.neg 1 = .ok (-1) := ok (-1) (by rw [abs_neg]; exact ha1)
      unfold Fx.periodSurd
      rw [hm, Surd.ok_bind]
      dsimp only
      rw [c1, c0, c2, r1, Surd.ok_bind, r2, Surd.ok_bind, hE]
      rfl
    have hA : x.surdAddInt cfg ⟨1 - M, 0, 1, 0⟩ 0 = .ok ⟨1 - M, 0, 1, 0⟩ := by
      have k1 : ∀ v, x.mul 0 v = .ok 0 := fun v => by unfold Fx.mul; rw [zero_mul]; exact hzero
      have k2 : x.add (1 - M) 0 = .ok (1 - M) := by unfold Fx.add; rw [add_zero]; exact ok _ hMab
      have k3 : x.abs 0 = .ok 0 := hzero
      have k4 : x.gcd (1 - M) 1 = .ok 1 := by unfold Fx.gcd; rw [(hi _).1]; exact hone
      unfold Fx.surdAddInt Fx.forward Fx.coeffsAddInt Surd.coeffs
      dsimp only
      rw [k1, Surd.ok_bind, k2]
      show x.fromCoeffs cfg ⟨1 - M, 0, 1⟩ 0 = _
      unfold Fx.fromCoeffs Fx.reduce Fx.reduceSquare
      rw [if_neg (by norm_num), if_neg (by norm_num)]
      dsimp only
      rw [k3, Surd.ok_bind, s0, Surd.ok_bind, k1, Surd.ok_bind, if_pos rfl, if_neg (by norm_num), Surd.ok_bind, k2,
        Surd.ok_bind]
      show ((if (0 : ℤ) = 0 ∨ (0 : ℤ) = 0 then x.reduceRat ⟨1 - M, 0, 1, 0⟩ else _) >>= _) = _
      rw [if_pos (.inl rfl)]
      unfold Fx.reduceRat
      dsimp only
      rw [k4, Surd.ok_bind, hd1 _ hMab, Surd.ok_bind, hd1 _ ha1]
      rfl
    unfold Fx.toSurd
    rw [if_neg (by simp [CF.isRational]), hP, Surd.ok_bind]
    show (x.surdAddInt cfg ⟨1 - M, 0, 1, 0⟩ (castS x.w 0) >>= _) = _
    rw [c0, hA, hM]
    rfl
  refine ⟨hrel, ?_, hwf, hreads, ?_⟩
  · by_contra h
    have h1 := fixed_cf_to_surd_release (2 * j) cfg _ h
    rw [hrel] at h1
    obtain ⟨-, h2⟩ := fixed_cf_to_surd_value_partial ⟨2 * j, true⟩ rfl cfg _ hwf hreads _ h1.symm
    obtain ⟨ps, z, -, -, hz, hz1, -⟩ := periodSurd_spec cfg (p := [2 ^ j]) (by simp) hwf.2.2
    have h3 := valOf_cons (by simp [toInts]) hz1 (by linarith) 0
    obtain ⟨y, hy, e2⟩ := h2
    have h4 := valOf_unique hy h3
    have h5 : Surd.val ⟨1 - 2 ^ (j - 1), 0, 1, 0⟩ = y := e2
    have h6 : Surd.val ⟨1 - 2 ^ (j - 1), 0, 1, 0⟩ = 1 - (M : ℝ) := by simp [Surd.val, quadR, hM]
    have h7 : (4 : ℝ) ≤ M := by exact_mod_cast hM4
    have h8 : 0 < 1 / z := by positivity
    rw [h6, h4] at h5
    push_cast at h5
    linarith
  · obtain ⟨ps, z, -, -, hz, hz1, -⟩ := periodSurd_spec cfg (p := [2 ^ j]) (by simp) hwf.2.2
    have h1 := valOf_cons (by simp [toInts]) hz1 (by linarith) 0
    have h7 : 1 / z < 1 := by rw [div_lt_one (by linarith)]; exact hz
    refine ⟨1 / z, ⟨1 / z, ?_, rfl⟩, by positivity, h7⟩
    simpa [toInts] using h1

/-! ### C78: arithmetic of continued fractions -/

/-- **C78** with overflow checks an operation with a number panics with an overflow or does what it does for arbitrary
precision, if the integers read off the fraction fit the signed type (and the bound on the rounds of the model's loop is at
least the number of unsigned integers).  Missing: fractions where they do not, for which the claim is false
(`fixed_cf_arith_refuted`). -/
theorem fixed_cf_num_partial (x : Fx) (hw : 2 ≤ x.w) (hc : x.checks = true) (cfg : Cfg) (fuel : ℕ) (hf : 2 ^ x.w ≤ fuel)
    (c : CF) (h : c.Wf) (hr : c.Reads x.w) (o : NumOp) : RefinesO (o.runFx x cfg fuel c) (o.run cfg fuel c) := by
  cases o with
  | mulInt k => exact Fx.cfMulInt_ref hw hc cfg hf h hr k
  | divInt k => exact Fx.cfDivInt_ref hw hc cfg hf h hr k
  | addRat k => exact Fx.cfAddRat_ref hw hc cfg hf h hr k
  | subRat k => exact Fx.cfSubRat_ref hw hc cfg hf h hr k
  | mulRat k => exact Fx.cfMulRat_ref hw hc cfg hf h hr k
  | divRat k => exact Fx.cfDivRat_ref hw hc cfg hf h hr k

/-- **C78** the same for two continued fractions. -/
theorem fixed_cf_bin_partial (x : Fx) (hw : 2 ≤ x.w) (hc : x.checks = true) (cfg : Cfg) (fuel : ℕ) (hf : 2 ^ x.w ≤ fuel)
    (c e : CF) (h : c.Wf) (hr : c.Reads x.w) (he : e.Wf) (hre : e.Reads x.w) (o : BinOp) :
    RefinesO (o.runFx x cfg fuel c e) (o.run cfg fuel c e) := by
  cases o with
  | add => exact Fx.cfAdd_ref hw hc cfg hf h hr he hre
  | sub => exact Fx.cfSub_ref hw hc cfg hf h hr he hre
  | mul => exact Fx.cfMul_ref hw hc cfg hf h hr he hre
  | div => exact Fx.cfDiv_ref hw hc cfg hf h hr he hre

/-- **C78** the value of what is returned for rational fractions: the exact result. -/
theorem fixed_cf_num_value_partial (x : Fx) (hw : 2 ≤ x.w) (hc : x.checks = true) (cfg : Cfg) (fuel : ℕ)
    (hf : 2 ^ x.w ≤ fuel) (c : CF) (h : c.Wf) (hp : c.p = []) (hr : c.Reads x.w) (v : ℝ) (hv : c.HasVal v) (o : NumOp)
    (w : CF) (hw' : o.runFx x cfg fuel c = some (.ok w)) : o.Defined ∧ w.Canonical ∧ w.HasVal (o.real v) := by
  rcases fixed_cf_num_partial x hw hc cfg fuel hf c h hr o with e | e
  · rw [e] at hw'
    obtain ⟨h1, h2⟩ := cf_num_rational cfg fuel c h hp v hv o
    by_cases hd : o.Defined
    · obtain ⟨w', h3, h4⟩ := h1 hd
      rw [hw'] at h3; cases h3
      exact ⟨hd, h4⟩
    · rw [h2 hd] at hw'; cases hw'
  · rw [hw'] at e; cases e

/-- **C78** the same for two rational fractions. -/
theorem fixed_cf_bin_value_partial (x : Fx) (hw : 2 ≤ x.w) (hc : x.checks = true) (cfg : Cfg) (fuel : ℕ)
    (hf : 2 ^ x.w ≤ fuel) (c e : CF) (h : c.Wf) (hp : c.p = []) (hr : c.Reads x.w) (he : e.Wf) (hpe : e.p = [])
    (hre : e.Reads x.w) (v u : ℝ) (hv : c.HasVal v) (hu : e.HasVal u) (o : BinOp) (w : CF)
    (hw' : o.runFx x cfg fuel c e = some (.ok w)) : w.Canonical ∧ w.HasVal (o.real v u) := by
  rcases fixed_cf_bin_partial x hw hc cfg fuel hf c e h hr he hre o with k | k
  · rw [k] at hw'
    obtain ⟨h1, h2⟩ := cf_bin_rational cfg fuel c e h he hp hpe v u hv hu o
    by_cases hd : o = .div → u ≠ 0
    · obtain ⟨w', h3, h4⟩ := h1 hd
      rw [hw'] at h3; cases h3
      exact h4
    · push Not at hd
      rw [h2 hd] at hw'; cases hw'
  · rw [hw'] at k; cases k

/-- **C78** the value of what is returned for a periodic fraction, when the irrational part of the result has the sign of
the result. -/
theorem fixed_cf_periodic_value_partial (x : Fx) (hw : 2 ≤ x.w) (hc : x.checks = true) (cfg : Cfg) (fuel : ℕ)
    (hf : 2 ^ x.w ≤ fuel) (c : CF) (h : c.Wf) (hp : c.p ≠ []) (hr : c.Reads x.w) (v : ℝ) (hv : c.HasVal v) (o : NumOp)
    (hz : SameSign (o.real v)) (w : CF) (hw' : o.runFx x cfg fuel c = some (.ok w)) : w.Wf ∧ w.HasVal (o.real v) := by
  rcases fixed_cf_num_partial x hw hc cfg fuel hf c h hr o with e | e
  · rw [e] at hw'
    exact cf_num_periodic_value_partial cfg fuel c h hp v hv o hz w hw'
  · rw [hw'] at e; cases e

/-- **C78** the coefficients of the result fit, in both kinds of build and for arbitrary operands. -/
theorem fixed_cf_arith_fits (x : Fx) (cfg : Cfg) (fuel : ℕ) (c e w : CF) :
    (∀ o : NumOp, o.runFx x cfg fuel c = some (.ok w) → w.Fits x.w) ∧
    (∀ o : BinOp, o.runFx x cfg fuel c e = some (.ok w) → w.Fits x.w) := by
  constructor
  · intro o h
    cases o <;> exact Fx.opNumber_fits cfg fuel c _ _ w h
  · intro o h
    cases o <;> exact Fx.opCF_fits cfg fuel c e _ _ (fun q => Fx.opNumber_fits cfg fuel c _ _) w h

/-- **C78** without overflow checks the result is the checked one unless that is an overflow. -/
theorem fixed_cf_arith_release (w : ℕ) (cfg : Cfg) (fuel : ℕ) (c e : CF) :
    (∀ o : NumOp, o.runFx ⟨w, true⟩ cfg fuel c ≠ some (.error .overflow) →
      o.runFx ⟨w, false⟩ cfg fuel c = o.runFx ⟨w, true⟩ cfg fuel c) ∧
    (∀ o : BinOp, o.runFx ⟨w, true⟩ cfg fuel c e ≠ some (.error .overflow) →
      o.runFx ⟨w, false⟩ cfg fuel c e = o.runFx ⟨w, true⟩ cfg fuel c e) := by
  constructor
  · intro o h
    symm
    refine Or.resolve_right ?_ h
    cases o with
    | mulInt k => exact Fx.cfMulInt_rel (x := ⟨w, true⟩) rfl cfg fuel c k
    | divInt k => exact Fx.cfDivInt_rel (x := ⟨w, true⟩) rfl cfg fuel c k
    | addRat k => exact Fx.cfAddRat_rel (x := ⟨w, true⟩) rfl cfg fuel c _
    | subRat k => exact Fx.cfSubRat_rel (x := ⟨w, true⟩) rfl cfg fuel c _
    | mulRat k => exact Fx.cfMulRat_rel (x := ⟨w, true⟩) rfl cfg fuel c _
    | divRat k => exact Fx.cfDivRat_rel (x := ⟨w, true⟩) rfl cfg fuel c _
  · intro o h
    symm
    refine Or.resolve_right ?_ h
    cases o with
    | add => exact Fx.cfAdd_rel (x := ⟨w, true⟩) rfl cfg fuel c e
    | sub => exact Fx.cfSub_rel (x := ⟨w, true⟩) rfl cfg fuel c e
    | mul => exact Fx.cfMul_rel (x := ⟨w, true⟩) rfl cfg fuel c e
    | div => exact Fx.cfDiv_rel (x := ⟨w, true⟩) rfl cfg fuel c e

/-- `i16`: `√2 + 3/2`; `i8`: `5/4 · 101` overflows, `5/4 · 10` does not -/
example : (⟨16, true⟩ : Fx).cfAddRat ⟨false, true⟩ 100 ⟨[1], [2], false⟩ (.of (3 / 2)) =
      some (.ok ⟨[2], [1, 10, 1, 1], false⟩) ∧
    CF.Reads 8 ⟨[1, 4], [], false⟩ ∧
    (⟨8, true⟩ : Fx).cfMulInt ⟨false, true⟩ 256 ⟨[1, 4], [], false⟩ 101 = some (.error .overflow) ∧
    (⟨8, true⟩ : Fx).cfMulInt ⟨false, true⟩ 256 ⟨[1, 4], [], false⟩ 10 = some (.ok ⟨[12, 2], [], false⟩) := by
  refine ⟨by decide +kernel, ⟨5 / 4, by decide +kernel, by decide +kernel, by decide +kernel⟩, by decide +kernel,
    by decide +kernel⟩

/-- an operation with a number, when the intermediate rational number is known -/
private theorem opNumber_exact {x : Fx} (hw : 2 ≤ x.w) (cfg : Cfg) {fuel : ℕ} (hf : 2 ^ x.w ≤ fuel) {c : CF} (h : c.Wf)
    (hp : c.p = []) (hr : c.Reads x.w) {r : ℚ} (hv : c.valQ = some r) {f : Fx → Rt → Res Rt} {f' : ℚ → Res ℚ}
    (g g' : Surd → Res Surd) {K : ℤ} (hK : K < 2 ^ (x.w - 1)) (href : Refines (f ⟨x.w, true⟩ (.of r)) ((f' r).map Rt.of))
    (hrel : Refines (f ⟨x.w, true⟩ (.of r)) (f ⟨x.w, false⟩ (.of r)))
    (hs : Safe (f ⟨x.w, true⟩ (.of r)) (fun q => Fx.RBnd2 q K K)) :
    x.opNumber cfg fuel c (f x) g = CF.opNumber cfg fuel c f' g' := by
  unfold Fx.opNumber CF.opNumber
  rw [if_pos (by simp [CF.isRational, hp]), if_pos (by simp [CF.isRational, hp])]
  obtain ⟨r', h1, h2, h3, -⟩ := Fx.ratValue_exact h hp hr
  rw [hv] at h3; cases h3
  rw [h1, h2]
  have h4 := Fx.run_eq_at (x := x) (f := fun y => f y (.of r)) href hrel hs
  have h5 : f ⟨x.w, true⟩ (.of r) = (f' r).map Rt.of := href.eq_of_safe hs
  simp only [Surd.ok_bind, Approx.value]
  rw [h4]
  cases hq : f' r with
  | error e => rfl
  | ok q =>
    rw [hq] at h5
    have hb := hs.2 _ h5
    have hb1 : |q.num| ≤ K := hb.1
    have hb2 : |(q.den : ℤ)| ≤ K := hb.2
    have hd := abs_le.1 hb2
    have hn := abs_le.1 hb1
    have hp2 : (2 : ℤ) ^ x.w = 2 * 2 ^ (x.w - 1) := Prim.pow_split (by omega)
    have e : ((2 ^ x.w : ℕ) : ℤ) = 2 ^ x.w := by push_cast; rfl
    refine Fx.ofRat_exact hw ?_ ?_ ?_ ?_
    · unfold Fx.Holds; omega
    · unfold Fx.Holds; omega
    · omega
    · omega

private theorem rbnd {q : ℚ} {B : ℤ} (h : RatSmall B q) : Fx.RBnd2 (.of q) B B :=
  ⟨h.1, by show |(q.den : ℤ)| ≤ B; rw [abs_of_nonneg (by omega)]; exact h.2⟩

private theorem reads_of_small {c : CF} (hp : c.p = []) {r : ℚ} (hv : c.valQ = some r) {B : ℤ} (hB : 1 ≤ B) {w : ℕ}
    (hr : RatSmall B r) (h : 2 * B ^ 2 < 2 ^ (w - 1)) : c.Reads w := by
  obtain ⟨p1, -⟩ := Fx.pows hB
  have := abs_le.1 hr.1
  have h2 := hr.2
  unfold CF.Reads
  rw [if_pos hp]
  exact ⟨r, hv, by omega, by omega⟩

/-- **C78** the operations of a rational fraction with a number are exact in both kinds of build if both numbers have parts
of at most `B` and `2 B²` fits. -/
theorem fixed_cf_num_exact (x : Fx) (hw : 2 ≤ x.w) (cfg : Cfg) (fuel : ℕ) (hf : 2 ^ x.w ≤ fuel) (c : CF) (h : c.Wf)
    (hp : c.p = []) (r : ℚ) (hv : c.valQ = some r) (o : NumOp) (B : ℤ) (hr : RatSmall B r) (ho : o.Small B)
    (hB : 2 * B ^ 2 < 2 ^ (x.w - 1)) : o.runFx x cfg fuel c = o.run cfg fuel c := by
  have hB1 : 1 ≤ B := by have := r.den_pos; have := hr.2; omega
  have hre := reads_of_small hp hv hB1 hr hB
  have hL : 2 * B ^ 2 < 2 ^ ((⟨x.w, true⟩ : Fx).w - 1) := hB
  have hd : ∀ q : ℚ, 0 < (Rt.of q).den := fun q => by have := q.den_pos; show (0 : ℤ) < q.den; omega
  have hm : ∀ p q : Rt, Fx.RBnd2 p B B → Fx.RBnd2 q B B →
      Safe ((⟨x.w, true⟩ : Fx).rtMul p q) (fun q => Fx.RBnd2 q (2 * B ^ 2) (2 * B ^ 2)) := fun p q h1 h2 =>
    (Fx.rtMul_safe hL h1 h2 hB1 hB1 hB1 hB1 (by nlinarith) (by nlinarith)).mono fun u hu =>
      ⟨hu.1.trans (by nlinarith), hu.2.trans (by nlinarith)⟩
  cases o with
  | mulInt k =>
    exact opNumber_exact hw cfg hf h hp hre hv (f := fun y q => y.rtMulInt q k) (f' := fun q => .ok (q * k)) _ _ hB
      (Fx.rtMulInt_ref (x := ⟨x.w, true⟩) rfl r k) (Fx.rtMulInt_rel (x := ⟨x.w, true⟩) rfl _ k)
      (Fx.rtMulInt_safe hL hB1 le_rfl (rbnd hr) ho)
  | divInt k =>
    exact opNumber_exact hw cfg hf h hp hre hv (f := fun y q => y.rtDivInt q k) (f' := fun q => ratioDiv q k) _ _ hB
      (Fx.rtDivInt_refR (x := ⟨x.w, true⟩) rfl r k) (Fx.rtDivInt_rel (x := ⟨x.w, true⟩) rfl _ k)
      (Fx.rtDivInt_safe hL hB1 le_rfl (rbnd hr) ho)
  | addRat k =>
    exact opNumber_exact hw cfg hf h hp hre hv (f := fun y q => y.rtAdd q (.of k)) (f' := fun q => .ok (q + k)) _ _ hB
      (Fx.rtAdd_ref (x := ⟨x.w, true⟩) rfl r k) (Fx.rtAdd_rel (x := ⟨x.w, true⟩) rfl _ _)
      (Fx.rtAdd_safe hL hB1 le_rfl (rbnd hr) (rbnd ho) (hd r) (hd k))
  | subRat k =>
    exact opNumber_exact hw cfg hf h hp hre hv (f := fun y q => y.rtSub q (.of k)) (f' := fun q => .ok (q - k)) _ _ hB
      (Fx.rtSub_ref (x := ⟨x.w, true⟩) rfl r k) (Fx.rtSub_rel (x := ⟨x.w, true⟩) rfl _ _)
      (Fx.rtSub_safe hL hB1 le_rfl (rbnd hr) (rbnd ho) (hd r) (hd k))
  | mulRat k =>
    exact opNumber_exact hw cfg hf h hp hre hv (f := fun y q => y.rtMul q (.of k)) (f' := fun q => .ok (q * k)) _ _ hB
      (Fx.rtMul_ref (x := ⟨x.w, true⟩) rfl r k) (Fx.rtMul_rel (x := ⟨x.w, true⟩) rfl _ _)
      (hm _ _ (rbnd hr) (rbnd ho))
  | divRat k =>
    exact opNumber_exact hw cfg hf h hp hre hv (f := fun y q => y.rtDiv q (.of k)) (f' := fun q => ratioDiv q k) _ _ hB
      (Fx.rtDiv_refR (x := ⟨x.w, true⟩) rfl r k) (Fx.rtDiv_rel (x := ⟨x.w, true⟩) rfl _ _)
      (Fx.rtDiv_safe hL hB1 le_rfl (rbnd hr) (rbnd ho))

/-- **C78** the same for two rational fractions. -/
theorem fixed_cf_bin_exact (x : Fx) (hw : 2 ≤ x.w) (cfg : Cfg) (fuel : ℕ) (hf : 2 ^ x.w ≤ fuel) (c e : CF) (h : c.Wf)
    (hp : c.p = []) (he : e.Wf) (hpe : e.p = []) (r t : ℚ) (hv : c.valQ = some r) (ht : e.valQ = some t) (o : BinOp) (B : ℤ)
    (hr : RatSmall B r) (htB : RatSmall B t) (hB : 2 * B ^ 2 < 2 ^ (x.w - 1)) :
    o.runFx x cfg fuel c e = o.run cfg fuel c e := by
  have hB1 : 1 ≤ B := by have := r.den_pos; have := hr.2; omega
  have hre := reads_of_small hpe ht hB1 htB hB
  obtain ⟨t', h1, h2, h3, -⟩ := Fx.ratValue_exact he hpe hre
  rw [ht] at h3; cases h3
  have key := fun o' ho' => fixed_cf_num_exact x hw cfg fuel hf c h hp r hv o' B hr ho' hB
  have hir : e.isRational = true := by simp [CF.isRational, hpe]
  cases o with
  | add =>
    simp only [BinOp.runFx, BinOp.run, Fx.cfAdd, CF.add, Fx.opCF, CF.opCF, hir, if_true, h1, h2, Approx.value]
    exact key (.addRat t) htB
  | sub =>
    simp only [BinOp.runFx, BinOp.run, Fx.cfSub, CF.sub, Fx.opCF, CF.opCF, hir, if_true, h1, h2, Approx.value]
    exact key (.subRat t) htB
  | mul =>
    simp only [BinOp.runFx, BinOp.run, Fx.cfMul, CF.mul, Fx.opCF, CF.opCF, hir, if_true, h1, h2, Approx.value]
    exact key (.mulRat t) htB
  | div =>
    simp only [BinOp.runFx, BinOp.run, Fx.cfDiv, CF.div, Fx.opCF, CF.opCF, hir, if_true, h1, h2, Approx.value]
    exact key (.divRat t) htB

/-- `i8` in release: `5/4 + 7/3` with `B = 7` -/
example : RatSmall 7 (5 / 4) ∧ RatSmall 7 (7 / 3) ∧ (2 : ℤ) * 7 ^ 2 < 2 ^ (8 - 1) ∧
    (⟨8, false⟩ : Fx).cfAdd ⟨false, true⟩ 256 ⟨[1, 4], [], false⟩ ⟨[2, 3], [], false⟩ =
      some (.ok ⟨[3, 1, 1, 2, 2], [], false⟩) := by
  refine ⟨⟨by decide +kernel, by decide +kernel⟩, ⟨by decide +kernel, by decide +kernel⟩, by norm_num, by decide +kernel⟩

/-- **C78** the claim is false in both kinds of build if the integers read off the fraction do not fit: `[1; 1, 2ʷ - 1] · 1`
is `2`. -/
theorem fixed_cf_arith_refuted (x : Fx) (hw : 3 ≤ x.w) (cfg : Cfg) (fuel : ℕ) (hf : 2 ^ x.w ≤ fuel) :
    x.cfMulInt cfg fuel ⟨[1, 1, 2 ^ x.w - 1], [], false⟩ 1 = some (.ok ⟨[2], [], false⟩) ∧
    CF.Fits x.w ⟨[1, 1, 2 ^ x.w - 1], [], false⟩ ∧
    cfVal (toInts [1, 1, 2 ^ x.w - 1]) = some (2 - 1 / 2 ^ x.w) := by
  obtain ⟨h1, h2, h3⟩ := fixed_cf_to_rational_refuted x hw
  refine ⟨?_, h2, h3⟩
  have hp : (4 : ℤ) ≤ 2 ^ (x.w - 1) := by
    calc (4 : ℤ) = 2 ^ 2 := by norm_num
      _ ≤ 2 ^ (x.w - 1) := pow_le_pow_right₀ (by norm_num) (by omega)
  have hq : x.rtMulInt ⟨2, 1⟩ 1 = .ok ⟨2, 1⟩ := by
    have e : (⟨2, 1⟩ : Rt) = .of 2 := by decide +kernel
    rw [e]
    refine Fx.run_eq_at (f := fun y => y.rtMulInt (.of 2) 1) ?_ (Fx.rtMulInt_rel (x := ⟨x.w, true⟩) rfl _ _) ?_
      (Q := fun _ => True)
    · have := Fx.rtMulInt_ref (x := ⟨x.w, true⟩) rfl 2 1
      simpa using this
    · rw [← e]
      unfold Fx.rtMulInt
      have h1 : |(1 : ℤ)| ≤ 1 := by norm_num
      have h2' : |(2 : ℤ)| ≤ 2 := by norm_num
      have hL : (2 : ℤ) < 2 ^ ((⟨x.w, true⟩ : Fx).w - 1) := by show (2 : ℤ) < 2 ^ (x.w - 1); omega
      refine (Fx.gcd_safe hL h1 h1 (by norm_num) (by norm_num)).bind fun g _ => ?_
      refine (Fx.div_safe hL h1 (by norm_num)).bind fun t1 ht1 => ?_
      refine (Fx.mul_safe hL h2' ht1 (by norm_num)).bind fun n hn => ?_
      refine (Fx.div_safe hL h1 (by norm_num)).bind fun d hd => ?_
      exact (Fx.ratio_safe2 hL hn hd (by norm_num) (by norm_num) (by norm_num) (by norm_num)).mono fun _ _ => trivial
  unfold Fx.cfMulInt Fx.opNumber
  rw [if_pos (by simp [CF.isRational])]
  unfold Fx.ratValue
  rw [h1]
  show (match x.rtMulInt ⟨2, 1⟩ 1 with
    | .error e => some (Except.error e)
    | .ok q => x.ofRat fuel q) = _
  rw [hq]
  have e : (⟨2, 1⟩ : Rt) = .of 2 := by decide +kernel
  have h8 : 8 ≤ 2 ^ x.w := by
    calc 8 = 2 ^ 3 := rfl
      _ ≤ 2 ^ x.w := Nat.pow_le_pow_right (by norm_num) hw
  have hb : CF.ofRat 2 = ⟨[2], [], false⟩ := by decide +kernel
  show x.ofRat fuel ⟨2, 1⟩ = _
  rw [e, Fx.ofRat_exact (by omega) (q := 2) ?_ ?_ ?_ ?_, hb]
  · show x.Holds 2; unfold Fx.Holds; omega
  · show x.Holds ((1 : ℕ) : ℤ); unfold Fx.Holds; push_cast; omega
  · show (2 : ℤ) ≠ _; omega
  · show 2 + 1 < fuel; omega

/-- **C78** without overflow checks the claim is false for operands that fit: `2^(w-2) · 4` is `0`.  With overflow checks
it panics. -/
theorem fixed_cf_arith_release_refuted (w : ℕ) (hw : 4 ≤ w) (cfg : Cfg) (fuel : ℕ) :
    (⟨w, false⟩ : Fx).cfMulInt cfg fuel ⟨[2 ^ (w - 2)], [], false⟩ 4 = some (.ok ⟨[0], [], false⟩) ∧
    (⟨w, true⟩ : Fx).cfMulInt cfg fuel ⟨[2 ^ (w - 2)], [], false⟩ 4 = some (.error .overflow) ∧
    CF.Wf ⟨[2 ^ (w - 2)], [], false⟩ ∧ CF.Reads w ⟨[2 ^ (w - 2)], [], false⟩ := by
  obtain ⟨M, hM⟩ : ∃ M : ℤ, M = 2 ^ (w - 2) := ⟨_, rfl⟩
  have hM4 : 4 ≤ M := by
    rw [hM]
    calc (4 : ℤ) = 2 ^ 2 := by norm_num
      _ ≤ 2 ^ (w - 2) := pow_le_pow_right₀ (by norm_num) (by omega)
  have hw1 : (2 : ℤ) ^ (w - 1) = 2 * M := by rw [hM, ← pow_succ']; congr 1; omega
  have hw2 : (2 : ℤ) ^ w = 4 * M := by
    have := Prim.pow_split (w := w) (by omega)
    rw [this, hw1]; ring
  have en : ((2 ^ (w - 2) : ℕ) : ℤ) = M := by rw [hM]; push_cast; rfl
  have hwf : CF.Wf ⟨[2 ^ (w - 2)], [], false⟩ := ⟨by simp, by simp, by simp⟩
  have hval : CF.valQ ⟨[2 ^ (w - 2)], [], false⟩ = some (M : ℚ) := by
    simp [CF.valQ, toInts, cfVal, signed, hM]
  have hreads : CF.Reads w ⟨[2 ^ (w - 2)], [], false⟩ := by
    unfold CF.Reads
    rw [if_pos rfl]
    refine ⟨_, hval, ?_, ?_⟩
    · rw [hw1, Rat.num_intCast]; omega
    · rw [hw1, Rat.den_intCast]; push_cast; omega
  have hrv : ∀ b, (⟨w, b⟩ : Fx).ratValue ⟨[2 ^ (w - 2)], [], false⟩ = .ok ⟨M, 1⟩ := fun b => by
    obtain ⟨r, h1, -, h3, -⟩ := Fx.ratValue_exact (x := ⟨w, b⟩) hwf rfl hreads
    rw [hval] at h3; cases h3
    rw [h1]; unfold Rt.of; rw [Rat.num_intCast, Rat.den_intCast]; rfl
  have hi : igcd 1 4 = 1 := by decide
  have ok : ∀ b, ∀ v : ℤ, |v| ≤ M → (⟨w, b⟩ : Fx).ret v = .ok v := fun b v hv => by
    have := abs_le.1 hv
    refine Fx.ret_ok ?_
    unfold Fx.Holds
    show -2 ^ (w - 1) ≤ v ∧ v < 2 ^ (w - 1)
    rw [hw1]; constructor <;> omega
  have okd : ∀ b, ∀ a : ℤ, |a| ≤ M → (⟨w, b⟩ : Fx).div a 1 = .ok a := fun b a hv => by
    have := abs_le.1 hv
    unfold Fx.div
    rw [if_neg one_ne_zero, if_pos, Int.tdiv_one]
    unfold Fx.fits IntTy.signed
    simp only [hw1, Int.tdiv_one, Bool.and_eq_true, decide_eq_true_eq]
    omega
  have ha1 : |(1 : ℤ)| ≤ M := by rw [abs_one]; omega
  have ha4 : |(4 : ℤ)| ≤ M := by rw [abs_of_pos (by norm_num)]; exact hM4
  have hone := fun b => ok b 1 ha1
  have hmulF : (⟨w, false⟩ : Fx).mul M 4 = .ok 0 := by
    have hwf2 : 2 ≤ (⟨w, false⟩ : Fx).w := by show 2 ≤ w; omega
    rw [Fx.mul_wr hwf2 rfl]
    have : (⟨w, false⟩ : Fx).wr (M * 4) = (⟨w, false⟩ : Fx).wr 0 := Fx.wr_congr (by
      show _ ≡ _ [ZMOD 2 ^ w]
      rw [hw2]
      exact (Int.modEq_zero_iff_dvd).2 ⟨1, by ring⟩)
    rw [this, Fx.wr_of_holds hwf2 (Fx.holds_zero _)]
  have hmulT : (⟨w, true⟩ : Fx).mul M 4 = .error .overflow := by
    unfold Fx.mul Fx.ret
    rw [if_neg, if_pos rfl]
    unfold Fx.fits IntTy.signed
    simp only [hw1, Bool.and_eq_true, decide_eq_true_eq]
    omega
  have h0 : (⟨w, false⟩ : Fx).rtMulInt ⟨M, 1⟩ 4 = .ok ⟨0, 1⟩ := by
    unfold Fx.rtMulInt Fx.gcd
    simp only [hi, hone, Surd.ok_bind, okd _ _ ha4, hmulF, okd _ _ ha1]
    rfl
  have h1 : (⟨w, true⟩ : Fx).rtMulInt ⟨M, 1⟩ 4 = .error .overflow := by
    unfold Fx.rtMulInt Fx.gcd
    simp only [hi, hone, Surd.ok_bind, okd _ _ ha4, hmulT]
    rfl
  refine ⟨?_, ?_, hwf, hreads⟩
  · unfold Fx.cfMulInt Fx.opNumber
    rw [if_pos (by simp [CF.isRational]), hrv]
    show (match (⟨w, false⟩ : Fx).rtMulInt ⟨M, 1⟩ 4 with
      | .error e => some (Except.error e)
      | .ok q => (⟨w, false⟩ : Fx).ofRat fuel q) = _
    rw [h0]
    rfl
  · unfold Fx.cfMulInt Fx.opNumber
    rw [if_pos (by simp [CF.isRational]), hrv]
    show (match (⟨w, true⟩ : Fx).rtMulInt ⟨M, 1⟩ 4 with
      | .error e => some (Except.error e)
      | .ok q => (⟨w, true⟩ : Fx).ofRat fuel q) = _
    rw [h1]

end NumIrr
