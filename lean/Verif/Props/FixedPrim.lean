/-
C98: square roots of primitive integers, and conversions of surds to primitive integers.
-/
import Verif.Props.SurdRound
import Verif.Props.SurdSqrt
import Verif.Model.FixedSqrt
import Verif.Spec.Fixed
import Verif.Props.FixedSqrt

namespace NumIrr

private theorem ret_ok {x : Fx} {v : ℤ} (h : x.fits v = true) : x.ret v = .ok v := by simp [Fx.ret, h]

private theorem fits_iff {x : Fx} (v : ℤ) : x.fits v = true ↔ -2 ^ (x.w - 1) ≤ v ∧ v < 2 ^ (x.w - 1) := by
  simp [Fx.fits, IntTy.signed]

private theorem pow_le {w : ℕ} (hw : 2 ≤ w) : (2 : ℤ) ≤ 2 ^ (w - 1) := by
  calc (2 : ℤ) = 2 ^ 1 := by norm_num
    _ ≤ 2 ^ (w - 1) := pow_le_pow_right₀ (by norm_num) (by omega)

/-- **C98** `from_sqrt` of a primitive integer: refused exactly for negative integers without the feature `complex`; otherwise
the surd is the one of unbounded integers, in every kind of build, for every integer but the least.  The least one panics
(with `complex`), whose square root would be representable. -/
theorem fixed_sqrt_int (x : Fx) (hw : 2 ≤ x.w) (cfg : Cfg) (t : ℤ) (ht : x.Holds t) :
    (cfg.complex = false ∧ t < 0 → x.fromSqrtInt cfg t = .ok none) ∧
    (¬ (cfg.complex = false ∧ t < 0) → t ≠ -2 ^ (x.w - 1) →
      ∃ s, x.fromSqrtInt cfg t = .ok (some s) ∧ Surd.fromSqrtInt cfg t = .ok (.ok s) ∧ x.HoldsS s) ∧
    (cfg.complex = true → ∃ e, x.fromSqrtInt cfg (-2 ^ (x.w - 1)) = .error e) := by
  refine ⟨fun h => by simp [Fx.fromSqrtInt, h], fun h hm => ?_, fun hc => ?_⟩
  · have hp := pow_le hw
    have ha : |t| < 2 ^ (x.w - 1) := abs_lt.mpr ⟨lt_of_le_of_ne ht.1 (Ne.symm hm), ht.2⟩
    have hL : (2 ^ (x.w - 1) - 1 : ℤ) < 2 ^ ((⟨x.w, true⟩ : Fx).w - 1) := by show _ < (2 : ℤ) ^ (x.w - 1); linarith
    have hsafe := Fx.fromSqrtRat_safe (x := ⟨x.w, true⟩) (t := .of t) hL cfg (by linarith)
      (by show |t| ≤ _; linarith) (by show |((1 : ℕ) : ℤ)| ≤ _; simp; linarith)
      (fun _ => by show |t * ((1 : ℕ) : ℤ)| ≤ _; simp; linarith) (by show (((1 : ℕ) : ℤ) * ((1 : ℕ) : ℤ) : ℤ) ≤ _; simp; linarith)
    have hrun : x.fromSqrtRat cfg (.of t) = (Surd.fromSqrtRat cfg x.fits t).map sqrtRt :=
      Fx.run_eq_at (f := fun y => y.fromSqrtRat cfg (.of t))
        (Fx.fromSqrtRat_ref (x := ⟨x.w, true⟩) rfl cfg t) (Fx.fromSqrtRat_rel (x := ⟨x.w, true⟩) rfl cfg _) hsafe
    obtain ⟨s, h1, h2⟩ := (surd_fromSqrtInt cfg t).2 h
    have h3 : x.fromSqrtRat cfg (.of t) = .ok (.ok s) := by
      rw [hrun]
      unfold Surd.fromSqrtInt at h1
      unfold Surd.fromSqrtRat
      rw [if_neg h] at h1
      rw [if_neg (by simpa using h), if_pos (by simp)]
      simp only [Rat.num_intCast]
      cases hn : Surd.new cfg 0 1 1 t with
      | error e => rw [hn] at h1; cases h1
      | ok v => rw [hn] at h1; cases h1; rfl
    refine ⟨s, ?_, h1, ?_⟩
    · unfold Fx.fromSqrtRat at h3
      have hn : ¬ (cfg.complex = false ∧ Fx.rtIsNeg (.of (t : ℚ)) = true) := by
        intro ⟨a, b⟩
        refine h ⟨a, ?_⟩
        simpa [Fx.rtIsNeg, Rt.of] using b
      rw [if_neg hn, if_pos (by simp [Rt.of])] at h3
      unfold Fx.fromSqrtInt
      rw [if_neg h]
      have e : (Rt.of (t : ℚ)).num = t := by simp [Rt.of]
      rw [e] at h3
      cases hv : x.surdNew cfg 0 1 1 t with
      | error e => rw [hv] at h3; cases h3
      | ok v => rw [hv] at h3; cases h3; rfl
    · refine (fixed_sqrt_fits x hw cfg).1 t 1 ht ⟨by linarith, by linarith⟩ s ?_
      rw [← h3]; simp [Rt.of]
  · have hp := pow_le hw
    have e1 : ∃ e, x.reduceSquare ⟨0, 1, 1, -2 ^ (x.w - 1)⟩ = .error e := by
      have hab : ((-2 ^ (x.w - 1) : ℤ).natAbs : ℤ) = 2 ^ (x.w - 1) := by
        rw [Int.natAbs_neg, Int.natAbs_of_nonneg (by positivity)]
      have hf : x.fits (2 ^ (x.w - 1)) = false := by
        rw [Bool.eq_false_iff]; intro h; exact lt_irrefl _ ((fits_iff _).mp h).2
      unfold Fx.reduceSquare Fx.abs Fx.ret
      rw [hab, hf]
      by_cases hk : x.checks = true
      · exact ⟨.overflow, by simp [hk, bind, Except.bind]⟩
      · refine ⟨.sqrtNeg, ?_⟩
        have hwr : (IntTy.signed x.w).wrap (2 ^ (x.w - 1)) = -2 ^ (x.w - 1) := by
          have e2 : (2 : ℤ) ^ x.w = 2 * 2 ^ (x.w - 1) := by rw [← pow_succ']; congr 1; omega
          simp only [IntTy.signed, e2]
          generalize (2 : ℤ) ^ (x.w - 1) = P at *
          rw [← two_mul, Int.emod_self, zero_sub]
        simp only [hk, hwr, Bool.false_eq_true, if_false, bind, Except.bind]
        unfold sqrtR
        rw [if_pos (by linarith)]
    obtain ⟨e, he⟩ := e1
    refine ⟨e, ?_⟩
    simp [Fx.fromSqrtInt, Fx.surdNew, Fx.reduce, hc, he, bind, Except.bind]

/-- `i8`: `√72`, `√64 = 8`; `√-128` panics -/
example : (⟨8, true⟩ : Fx).fromSqrtInt ⟨true, true⟩ (-127) = .ok (some ⟨0, 1, 1, -127⟩) ∧
    (⟨8, false⟩ : Fx).fromSqrtInt ⟨false, true⟩ 64 = .ok (some ⟨8, 0, 1, 0⟩) ∧
    (⟨8, true⟩ : Fx).fromSqrtInt ⟨true, true⟩ (-128) = .error .overflow ∧
    Surd.fromSqrtInt ⟨true, true⟩ (-128) = .ok (.ok ⟨0, 1, 1, -128⟩) := by decide +kernel

/-- **C98** `to_i64` and `to_u64` never give a wrong number: `Some(v)` is returned exactly when the surd is `v` and `v` is in
the range of the target type, whatever overflows on the way. -/
theorem fixed_toPrim_partial (x : Fx) (cfg : Cfg) (inRange : ℤ → Bool) (s : Surd) (h : s.Ok cfg) (v : ℤ) :
    x.toPrim cfg inRange s = .ok (some v) ↔ s.valC = v ∧ inRange v = true := by
  obtain ⟨o, h1, h2⟩ := surd_toPrim cfg inRange s h
  rw [← h2, ← (show Surd.toPrim cfg inRange s = .ok (some v) ↔ o = some v by rw [h1]; simp)]
  unfold Fx.toPrim Surd.toPrim Fx.toInteger Surd.toInteger
  by_cases hr : s.r < 0
  · simp [hr]
  · simp only [hr, if_false]
    cases s.panicIfComplex cfg with
    | error e => simp [bind, Except.bind]
    | ok u =>
      by_cases hi : s.isInteger = true
      · simp only [hi, if_true, bind, Except.bind]
        exact Iff.rfl
      · simp only [hi, bind, Except.bind]
        cases x.trunc cfg s <;> cases s.trunc cfg <;> simp [pure, Except.pure]

/-- **C98** but they can panic instead of returning `None`, in every kind of build: for `2^(w/2-1)·√2`, whose square times two
is not representable. -/
theorem fixed_toPrim_refuted (cfg : Cfg) (inRange : ℤ → Bool) (w : ℕ) (hw : w = 8 ∨ w = 16 ∨ w = 32 ∨ w = 64 ∨ w = 128) (checks : Bool) :
    ∃ s e, (⟨w, checks⟩ : Fx).surdNew cfg 0 (2 ^ (w / 2 - 1)) 1 2 = .ok s ∧ Surd.toPrim cfg inRange s = .ok none ∧
      (⟨w, checks⟩ : Fx).toPrim cfg inRange s = .error e := by
  refine ⟨⟨0, 2 ^ (w / 2 - 1), 1, 2⟩, if checks then .overflow else .sqrtNeg, ?_, ?_, ?_⟩
  · obtain ⟨c, d⟩ := cfg
    rcases hw with rfl | rfl | rfl | rfl | rfl <;> revert c d checks <;> decide +kernel
  · obtain ⟨c, d⟩ := cfg
    rcases hw with rfl | rfl | rfl | rfl | rfl <;> cases c <;> cases d <;> rfl
  · obtain ⟨c, d⟩ := cfg
    rcases hw with rfl | rfl | rfl | rfl | rfl <;> cases c <;> cases d <;> cases checks <;> rfl

end NumIrr
