/-
C118: the laws of arithmetic for quadratic surds over the primitive integers.
-/
import Verif.Lemmas.FixedComm
import Verif.Lemmas.FixedRef
import Verif.Props.SurdLaws

namespace NumIrr
open Fx
open Surd (ok_bind)

variable {x : Fx}

/-! ### Commutativity: in every build, down to the panics -/

private theorem forward_swap (cfg : Cfg) {p q : Surd} (hr : p.r = q.r) {u v : Res Coeffs} (h : u = v) :
    x.forward cfg p u = x.forward cfg q v := by
  unfold Fx.forward; rw [hr, h]

private theorem rational_b {s : Surd} (hs : s.Normal) (h : s.isRational = true) : s.b = 0 ∧ s.r = 0 := by
  have : s.b = 0 ∨ s.r = 0 := by simpa [Surd.isRational] using h
  rcases this with h | h
  · exact ⟨h, hs.rational.1 h⟩
  · exact ⟨hs.rational.2 h, h⟩

private theorem one_holds (hw : 2 ≤ x.w) : x.Holds 1 ∧ x.Holds 0 := by
  have : (2 : Int) ^ 1 ≤ 2 ^ (x.w - 1) := pow_le_pow_right₀ (by norm_num) (by omega)
  constructor <;> constructor <;> omega

private theorem mul_zero_left (hw : 2 ≤ x.w) (v : Int) : x.mul 0 v = .ok 0 := by
  unfold Fx.mul Fx.ret
  rw [zero_mul, if_pos (holds_fits (one_holds hw).2)]

/-- `x + y` and `y + x` are the same run in every build, with overflow checks or without: the same fields, or the same
panic. -/
theorem fixed_surd_add_comm (x : Fx) (hw : 2 ≤ x.w) (cfg : Cfg) (u v : Surd) (hu : u.Normal) (hv : v.Normal)
    (hhu : x.HoldsS u) (hhv : x.HoldsS v) : x.surdAdd cfg u v = x.surdAdd cfg v u := by
  unfold surdAdd
  by_cases h1 : v.isRational = true <;> by_cases h2 : u.isRational = true
  · rw [if_pos h1, if_pos h2]
    obtain ⟨b1, r1⟩ := rational_b hv h1
    obtain ⟨b2, r2⟩ := rational_b hu h2
    rw [ratio_normal hw hv hhv b1, ratio_normal hw hu hhu b2]
    simp only [ok_bind]
    refine forward_swap cfg (by rw [r1, r2]) ?_
    unfold coeffsAddRat
    simp only [Surd.coeffs, b1, b2, mul_zero_left hw]
    by_cases hc : u.c = v.c
    · rw [if_pos hc, if_pos hc.symm, add_swap, hc]
    · rw [if_neg hc, if_neg (Ne.symm hc)]
      unfold Fx.mul
      rw [ret_swap (u.a * v.c)]
      refine bind_congr fun t2 => bind_congr fun t1 => ?_
      rw [add_swap, mul_comm u.c]
  · rw [if_pos h1, if_neg h2, if_pos h1]
  · rw [if_neg h1, if_pos h2, if_pos h2]
  · rw [if_neg h1, if_neg h2, if_neg h2, if_neg h1, reduceBinOpUnwrap_swap cfg u v]
    cases e : x.reduceBinOpUnwrap cfg u v with
    | error e => rfl
    | ok p => exact forward_swap cfg (reduceBinOpUnwrap_root cfg u v e) (coeffsAdd_swap _ _)

/-- `x * y` and `y * x` are the same run in every build. -/
theorem fixed_surd_mul_comm (x : Fx) (hw : 2 ≤ x.w) (cfg : Cfg) (u v : Surd) (hu : u.Normal) (hv : v.Normal)
    (hhu : x.HoldsS u) (hhv : x.HoldsS v) : x.surdMul cfg u v = x.surdMul cfg v u := by
  unfold surdMul
  by_cases h1 : v.isRational = true <;> by_cases h2 : u.isRational = true
  · rw [if_pos h1, if_pos h2]
    obtain ⟨b1, r1⟩ := rational_b hv h1
    obtain ⟨b2, r2⟩ := rational_b hu h2
    rw [ratio_normal hw hv hhv b1, ratio_normal hw hu hhu b2]
    simp only [ok_bind]
    refine forward_swap cfg (by rw [r1, r2]) ?_
    unfold coeffsMulRat
    simp only [Surd.coeffs, b1, b2, mul_zero_left hw]
    rw [Fx.mul_swap u.a, Fx.mul_swap u.c]
  · rw [if_pos h1, if_neg h2, if_pos h1]
  · rw [if_neg h1, if_pos h2, if_pos h2]
  · rw [if_neg h1, if_neg h2, if_neg h2, if_neg h1, Bool.and_comm]
    by_cases hp : (v.isPure && u.isPure) = true
    · rw [if_pos hp, if_pos hp, gcd_swap]
      refine bind_congr fun g => ?_
      rw [div_swap]
      refine bind_congr fun t2 => bind_congr fun t1 => ?_
      rw [Fx.mul_swap t1, Fx.mul_swap u.b, Fx.mul_swap u.c]
    · rw [if_neg hp, if_neg hp, reduceBinOpUnwrap_swap cfg u v]
      cases e : x.reduceBinOpUnwrap cfg u v with
      | error e => rfl
      | ok p =>
        have hr := reduceBinOpUnwrap_root cfg u v e
        refine forward_swap cfg hr ?_
        show _ = x.coeffsMul _ _ p.2.r
        rw [hr]; exact coeffsMul_swap _ _ _

/-- in `i8` without checks `(100 + √2) + (90 + 3√2)` is `-66 + 4√2` whichever comes first; with checks both orders panic -/
example : (Surd.mk 100 1 1 2).Normal ∧ (Surd.mk 90 3 1 2).Normal ∧
    (Fx.mk 8 false).surdAdd ⟨false, false⟩ ⟨100, 1, 1, 2⟩ ⟨90, 3, 1, 2⟩ = .ok ⟨-66, 4, 1, 2⟩ ∧
    (Fx.mk 8 true).surdAdd ⟨false, false⟩ ⟨100, 1, 1, 2⟩ ⟨90, 3, 1, 2⟩ = .error .overflow ∧
    (Fx.mk 8 false).surdMul ⟨false, false⟩ ⟨0, 9, 1, 6⟩ ⟨0, 5, 1, 10⟩ = .ok ⟨0, 90, 1, 15⟩ := by decide +kernel

/-! ### `x - x` -/

private theorem sub_self_ok (hw : 2 ≤ x.w) (v : Int) : x.sub v v = .ok 0 := by
  unfold Fx.sub Fx.ret
  rw [sub_self, if_pos (holds_fits (one_holds hw).2)]

/-- normalising a zero written with any denominator and any root other than the smallest integer -/
private theorem reduce_zero (hw : 2 ≤ x.w) {c r : Int} (hc : 0 < c) (hh : x.Holds c) (hr : x.Holds r)
    (hm : r ≠ -2 ^ (x.w - 1)) : x.reduce ⟨0, 0, c, r⟩ = .ok Surd.zero := by
  have ho := one_holds hw
  have habs : x.Holds (r.natAbs : Int) := by
    unfold Fx.Holds at *; omega
  have hsq : isqrt (r.natAbs : Int) * isqrt (r.natAbs : Int) ≤ r.natAbs := by
    unfold isqrt
    rw [Int.toNat_natCast]
    exact_mod_cast Nat.sqrt_le r.natAbs
  have hs0 : 0 ≤ isqrt (r.natAbs : Int) := by unfold isqrt; positivity
  have hret : ∀ v, x.Holds v → x.ret v = .ok v := fun v hv => by
    unfold Fx.ret; rw [if_pos (holds_fits hv)]
  have h1 : x.reduceSquare ⟨0, 0, c, r⟩ = .ok ⟨0, 0, c, r⟩ ∨ x.reduceSquare ⟨0, 0, c, r⟩ = .ok ⟨0, 0, c, 0⟩ := by
    unfold Fx.reduceSquare Fx.abs Fx.mul
    simp only [hret _ habs, ok_bind]
    unfold sqrtR
    rw [if_neg (by omega)]
    simp only [ok_bind]
    rw [hret _ ⟨by have := habs.2; nlinarith [ho.1.2], lt_of_le_of_lt hsq habs.2⟩]
    simp only [ok_bind]
    split
    · rename_i e
      rw [if_neg (by nlinarith)]
      right
      simp only [zero_mul, Fx.add, zero_add, hret _ ho.2, ok_bind]
      rfl
    · exact .inl rfl
  have h2 : ∀ r', x.reduceRat ⟨0, 0, c, r'⟩ = .ok ⟨0, 0, 1, 0⟩ := fun r' => by
    have e : igcd 0 c = c := by unfold igcd; rw [Int.gcd_zero_left]; omega
    unfold Fx.reduceRat Fx.gcd
    simp only [e, hret _ hh, ok_bind]
    have e1 : x.div 0 c = .ok 0 := by
      unfold Fx.div
      rw [if_neg hc.ne', Int.zero_tdiv, if_pos (holds_fits ho.2)]
    have e2 : x.div c c = .ok 1 := by
      unfold Fx.div
      rw [if_neg hc.ne', Int.tdiv_self hc.ne', if_pos (holds_fits ho.1)]
    rw [e1, e2]
    rfl
  have h3 : x.reduceSign ⟨0, 0, 1, 0⟩ = .ok ⟨0, 0, 1, 0⟩ := rfl
  unfold Fx.reduce
  rw [if_neg (by show c ≠ 0; omega)]
  rcases h1 with h1 | h1 <;>
  · rw [h1]
    simp only [ok_bind, true_or, if_true, h2, h3]
    rfl

/-- `x - x` returns zero in every build, for every representable number whose root is not the smallest integer. -/
theorem fixed_surd_sub_self (x : Fx) (hw : 2 ≤ x.w) (cfg : Cfg) (u : Surd) (hu : u.Ok cfg) (hh : x.HoldsS u)
    (hm : u.r ≠ -2 ^ (x.w - 1)) : x.surdSub cfg u u = .ok Surd.zero := by
  have hneg : ¬ (cfg.complex = false ∧ u.r < 0) := fun h => by have := hu.real h.1; omega
  unfold surdSub
  by_cases h1 : u.isRational = true
  · obtain ⟨b1, r1⟩ := rational_b hu.toNormal h1
    rw [if_pos h1, ratio_normal hw hu.toNormal hh b1]
    simp only [ok_bind]
    unfold surdSubRat Fx.forward coeffsSubRat
    rw [if_pos (show u.coeffs.c = u.c from rfl)]
    simp only [Surd.coeffs, sub_self_ok hw, ok_bind, b1]
    show x.fromCoeffs cfg ⟨0, 0, u.c⟩ u.r = _
    unfold Fx.fromCoeffs
    rw [if_neg hneg]
    exact reduce_zero hw hu.c_pos hh.2.2.1 hh.2.2.2 hm
  · rw [if_neg h1, if_neg h1]
    have hb : x.reduceBinOpUnwrap cfg u u = .ok (u, u) := by
      have hs : sameRoot (u, u) = some (u, u) := if_pos rfl
      have habs : x.abs u.r = .ok (u.r.natAbs : Int) := by
        unfold Fx.abs Fx.ret
        rw [if_pos (holds_fits (by have := hh.2.2.2; unfold Fx.Holds at *; omega))]
      unfold Fx.reduceBinOpUnwrap Fx.reduceBinOp
      have hr : u.r ≠ 0 := fun h => h1 (by simp [Surd.isRational, h])
      cases cfg.complex
      · simp only [Bool.false_eq_true, if_false]
        rw [if_neg (by tauto), if_neg (lt_irrefl _), if_neg (lt_irrefl _)]
        show ((.ok (sameRoot (u, u)) : Res (Option (Surd × Surd))) >>= _) = _
        rw [hs]; rfl
      · simp only [if_true, Bool.xor_self, Bool.false_eq_true, if_false, habs, ok_bind, gt_iff_lt, lt_irrefl, hs]
        rfl
    rw [hb]
    simp only [ok_bind]
    unfold Fx.forward coeffsSub
    rw [if_pos rfl]
    simp only [sub_self_ok hw, ok_bind]
    show x.fromCoeffs cfg ⟨0, 0, u.c⟩ u.r = _
    unfold Fx.fromCoeffs
    rw [if_neg hneg]
    exact reduce_zero hw hu.c_pos hh.2.2.1 hh.2.2.2 hm

/-- … and for a number with that root `x - x` panics: its absolute value is not representable. -/
theorem fixed_surd_sub_self_min (x : Fx) (hw : 2 ≤ x.w) (cfg : Cfg) (u : Surd) (hu : u.Ok cfg)
    (hm : u.r = -2 ^ (x.w - 1)) :
    x.surdSub cfg u u = .error (if x.checks then .overflow else .sqrtNeg) := by
  have hp : (0 : Int) < 2 ^ (x.w - 1) := by positivity
  have hx : cfg.complex = true := by
    by_contra h
    have := hu.real (by simpa using h)
    omega
  have h1 : ¬ u.isRational = true := fun h => by
    have := (rational_b hu.toNormal h).2
    omega
  have hnf : x.fits (u.r.natAbs : Int) = false := by
    rw [Bool.eq_false_iff]
    intro h
    have := (fits_holds h).2
    omega
  unfold surdSub Fx.reduceBinOpUnwrap Fx.reduceBinOp
  rw [if_neg h1, if_neg h1]
  simp only [hx, if_true, Bool.xor_self, Bool.false_eq_true, if_false]
  cases hc : x.checks
  · have ha : x.abs u.r = .ok u.r := by
      unfold Fx.abs
      rw [ret_wr hw hc]
      have : ((u.r.natAbs : Int)) ≡ u.r [ZMOD 2 ^ x.w] := by
        have hpw : (2 : Int) ^ x.w = 2 * 2 ^ (x.w - 1) := by
          rw [← pow_succ', Nat.sub_add_cancel (by omega)]
        refine Int.modEq_iff_dvd.2 ⟨-1, ?_⟩
        rw [hpw]; omega
      rw [wr_congr this, wr_of_holds hw ⟨by omega, by omega⟩]
    simp only [ha, ok_bind, gt_iff_lt, lt_irrefl, if_false, Bool.false_eq_true]
    have hs : sameRoot (u, u) = some (u, u) := if_pos rfl
    rw [hs]
    show x.forward cfg u (x.coeffsSub u.coeffs u.coeffs) = _
    unfold Fx.forward coeffsSub
    rw [if_pos rfl]
    simp only [sub_self_ok hw, ok_bind]
    show x.fromCoeffs cfg ⟨0, 0, u.c⟩ u.r = _
    unfold Fx.fromCoeffs
    rw [if_neg (by simp [hx])]
    unfold Fx.reduce
    rw [if_neg (by show u.c ≠ 0; have := hu.c_pos; omega)]
    unfold Fx.reduceSquare
    simp only [ha, ok_bind]
    unfold sqrtR
    rw [if_pos (by omega)]
    rfl
  · have ha : x.abs u.r = .error .overflow := by
      unfold Fx.abs Fx.ret
      rw [hnf, hc]; rfl
    rw [ha]
    rfl

example : (Surd.mk 1 2 3 (-2)).Ok ⟨true, false⟩ ∧
    (Fx.mk 8 false).surdSub ⟨true, false⟩ ⟨100, 120, 127, -2⟩ ⟨100, 120, 127, -2⟩ = .ok Surd.zero ∧
    (Surd.mk 1 1 1 (-128)).Ok ⟨true, false⟩ ∧
    (Fx.mk 8 true).surdSub ⟨true, false⟩ ⟨1, 1, 1, -128⟩ ⟨1, 1, 1, -128⟩ = .error .overflow ∧
    (Fx.mk 8 false).surdSub ⟨true, false⟩ ⟨1, 1, 1, -128⟩ ⟨1, 1, 1, -128⟩ = .error .sqrtNeg := by decide +kernel

/-! ### Associativity and distributivity -/

/-- C118, restricted: with overflow checks, associativity and distributivity hold for real numbers whenever every step
returns.  (Missing from the full claim: builds without the checks, where both are false, see `fixed_surd_assoc_refuted`
and `fixed_surd_distrib_refuted`.) -/
theorem fixed_surd_laws_partial (x : Fx) (hc : x.checks = true) (cfg : Cfg) (u v w : Surd) (hu : u.RealOk)
    (hv : v.RealOk) (hw : w.RealOk) :
    (∀ p q s t, x.surdAdd cfg u v = .ok p → x.surdAdd cfg p w = .ok s → x.surdAdd cfg v w = .ok q →
      x.surdAdd cfg u q = .ok t → s.val = t.val ∧ Surd.eq s t = true) ∧
    (∀ p q s t, x.surdMul cfg u v = .ok p → x.surdMul cfg p w = .ok s → x.surdMul cfg v w = .ok q →
      x.surdMul cfg u q = .ok t → s.val = t.val ∧ Surd.eq s t = true) ∧
    (∀ p q q' s t, x.surdAdd cfg v w = .ok p → x.surdMul cfg u p = .ok s → x.surdMul cfg u v = .ok q →
      x.surdMul cfg u w = .ok q' → x.surdAdd cfg q q' = .ok t → s.val = t.val ∧ Surd.eq s t = true) := by
  obtain ⟨l1, l2, l3⟩ := surd_laws_partial cfg u v w hu hv hw
  refine ⟨fun p q s t h1 h2 h3 h4 => ?_, fun p q s t h1 h2 h3 h4 => ?_, fun p q q' s t h1 h2 h3 h4 h5 => ?_⟩
  · exact l1 p q s t ((surdAdd_ref hc cfg _ _).returns h1) ((surdAdd_ref hc cfg _ _).returns h2)
      ((surdAdd_ref hc cfg _ _).returns h3) ((surdAdd_ref hc cfg _ _).returns h4)
  · exact l2 p q s t ((surdMul_ref hc cfg _ _).returns h1) ((surdMul_ref hc cfg _ _).returns h2)
      ((surdMul_ref hc cfg _ _).returns h3) ((surdMul_ref hc cfg _ _).returns h4)
  · exact l3 p q q' s t ((surdAdd_ref hc cfg _ _).returns h1) ((surdMul_ref hc cfg _ _).returns h2)
      ((surdMul_ref hc cfg _ _).returns h3) ((surdMul_ref hc cfg _ _).returns h4) ((surdAdd_ref hc cfg _ _).returns h5)

/-- in `i8`: `(√8 + √2) + (1 - √2)` and `√8 + (√2 + (1 - √2))`, both `1 + 2√2` -/
example : (Surd.mk 0 1 1 8).RealOk ∧ (Surd.mk 0 1 1 2).RealOk ∧ (Surd.mk 1 (-1) 1 2).RealOk ∧
    (Fx.mk 8 true).surdAdd ⟨false, true⟩ ⟨0, 1, 1, 8⟩ ⟨0, 1, 1, 2⟩ = .ok ⟨0, 3, 1, 2⟩ ∧
    (Fx.mk 8 true).surdAdd ⟨false, true⟩ ⟨0, 3, 1, 2⟩ ⟨1, -1, 1, 2⟩ = .ok ⟨1, 2, 1, 2⟩ ∧
    (Fx.mk 8 true).surdAdd ⟨false, true⟩ ⟨0, 1, 1, 2⟩ ⟨1, -1, 1, 2⟩ = .ok ⟨1, 0, 1, 0⟩ ∧
    (Fx.mk 8 true).surdAdd ⟨false, true⟩ ⟨0, 1, 1, 8⟩ ⟨1, 0, 1, 0⟩ = .ok ⟨1, 1, 1, 8⟩ ∧
    Surd.eq ⟨1, 2, 1, 2⟩ ⟨1, 1, 1, 8⟩ = true := by decide +kernel

private theorem reduce_frac (hw : 2 ≤ x.w) {n d : Int} (hd : d ≠ 0) (hn : x.Holds n) (hh : x.Holds d)
    (hg : Int.gcd n d = 1) : x.reduce ⟨n, 0, d, 0⟩ = x.reduceSign ⟨n, 0, d, 0⟩ := by
  have ho := one_holds hw
  have hret : ∀ v, x.Holds v → x.ret v = .ok v := fun v hv => by
    unfold Fx.ret; rw [if_pos (holds_fits hv)]
  have hdiv : ∀ v, x.Holds v → x.div v 1 = .ok v := fun v hv => by
    unfold Fx.div
    rw [if_neg (by decide), Int.tdiv_one, if_pos (holds_fits hv)]
  have h1 : x.reduceSquare ⟨n, 0, d, 0⟩ = .ok ⟨n, 0, d, 0⟩ := by
    unfold Fx.reduceSquare Fx.abs Fx.mul Fx.add
    simp only [Int.natAbs_zero, Nat.cast_zero, hret _ ho.2, ok_bind]
    show ((.ok 0 : Res Int) >>= _) = _
    simp only [ok_bind, zero_mul, hret _ ho.2, if_true, lt_irrefl, if_false, add_zero, hret _ hn]
    rfl
  have h2 : x.reduceRat ⟨n, 0, d, 0⟩ = .ok ⟨n, 0, d, 0⟩ := by
    unfold Fx.reduceRat Fx.gcd igcd
    simp only [hg, Nat.cast_one, hret _ ho.1, ok_bind, hdiv _ hn, hdiv _ hh]
    rfl
  unfold Fx.reduce
  rw [if_neg (show d ≠ 0 from hd), h1]
  simp only [ok_bind, true_or, if_true, h2]

/-- Without the checks associativity is false in every type: with `P = 2^(w-2)`, the sum `(1/P + 1/3) - 1/3` returns
`9/P`, and `1/P + (1/3 - 1/3)` returns `1/P`. -/
theorem fixed_surd_assoc_refuted (x : Fx) (hc : x.checks = false) (hw : 7 ≤ x.w) (cfg : Cfg) :
    let P : Int := 2 ^ (x.w - 2)
    x.surdAdd cfg ⟨1, 0, P, 0⟩ ⟨1, 0, 3, 0⟩ = .ok ⟨-(P + 3), 0, P, 0⟩ ∧
    x.surdAdd cfg ⟨-(P + 3), 0, P, 0⟩ ⟨-1, 0, 3, 0⟩ = .ok ⟨9, 0, P, 0⟩ ∧
    x.surdAdd cfg ⟨1, 0, 3, 0⟩ ⟨-1, 0, 3, 0⟩ = .ok Surd.zero ∧
    x.surdAdd cfg ⟨1, 0, P, 0⟩ Surd.zero = .ok ⟨1, 0, P, 0⟩ := by
  intro P
  have hw2 : 2 ≤ x.w := by omega
  have hP : (2 : Int) ^ (x.w - 1) = 2 * P := by
    rw [show x.w - 1 = (x.w - 2) + 1 by omega, pow_succ']
  have hP4 : (2 : Int) ^ x.w = 4 * P := by
    rw [show x.w = (x.w - 1) + 1 by omega, pow_succ', hP]; ring
  have hP32 : 32 ≤ P := by
    have : (2 : Int) ^ 5 ≤ 2 ^ (x.w - 2) := pow_le_pow_right₀ (by norm_num) (by omega)
    simpa using this
  have hwr : ∀ (v k m : Int), v = m + 4 * P * k → -(2 * P) ≤ m → m < 2 * P → x.wr v = m := fun v k m e h1 h2 => by
    rw [wr_congr (v := m), wr_of_holds hw2 ⟨by omega, by omega⟩]
    rw [hP4, e]
    exact Int.modEq_iff_dvd.2 ⟨-k, by ring⟩
  have hcop : ∀ n : Int, Int.gcd n 2 = 1 → Int.gcd n P = 1 := fun n h => by
    have := (Int.isCoprime_iff_gcd_eq_one.2 h).pow_right (n := x.w - 2)
    exact Int.isCoprime_iff_gcd_eq_one.1 this
  have odd : Int.gcd (P + 3) 2 = 1 := by
    have h8 : P = 2 * 2 ^ (x.w - 3) := by
      show (2 : Int) ^ (x.w - 2) = _
      rw [show x.w - 2 = (x.w - 3) + 1 by omega, pow_succ']
    have h9 : P + 3 = 2 * (2 ^ (x.w - 3) + 1) + 1 := by rw [h8]; ring
    rw [h9]
    exact Int.isCoprime_iff_gcd_eq_one.1 ⟨1, -(2 ^ (x.w - 3) + 1), by ring⟩
  have sub0 : ∀ v : Int, -(2 * P) ≤ -v → -v < 2 * P → x.sub 0 v = .ok (-v) := fun v h1 h2 => by
    rw [sub_wr hw2 hc, hwr (0 - v) 0 (-v) (by ring) h1 h2]
  have hsm : ∀ v : Int, -4 ≤ v → v ≤ 4 → x.Holds v := fun v h1 h2 => ⟨by omega, by omega⟩
  have r3 : x.ratio 1 3 = .ok ⟨1, 3⟩ :=
    ratio_normal hw2 (s := ⟨1, 0, 3, 0⟩) (by decide +kernel)
      ⟨hsm 1 (by decide) (by decide), hsm 0 (by decide) (by decide), hsm 3 (by decide) (by decide),
        hsm 0 (by decide) (by decide)⟩ rfl
  have r3' : x.ratio (-1) 3 = .ok ⟨-1, 3⟩ :=
    ratio_normal hw2 (s := ⟨-1, 0, 3, 0⟩) (by decide +kernel)
      ⟨hsm (-1) (by decide) (by decide), hsm 0 (by decide) (by decide), hsm 3 (by decide) (by decide),
        hsm 0 (by decide) (by decide)⟩ rfl
  have key : ∀ a c n d m : Int, ∀ q : Rt, x.ratio n d = .ok q → c ≠ q.den →
      x.wr (x.wr (a * q.den) + x.wr (q.num * c)) = m →
      x.surdAdd cfg ⟨a, 0, c, 0⟩ ⟨n, 0, d, 0⟩ = x.reduce ⟨m, 0, x.wr (c * q.den), 0⟩ := fun a c n d m q hq hne hm => by
    unfold surdAdd
    rw [if_pos (by simp [Surd.isRational])]
    show (x.ratio n d >>= _) = _
    rw [hq]
    simp only [ok_bind]
    unfold surdAddRat Fx.forward coeffsAddRat
    rw [if_neg (show (Surd.coeffs ⟨a, 0, c, 0⟩).c ≠ q.den from hne)]
    simp only [Surd.coeffs, mul_wr hw2 hc, add_wr hw2 hc, ok_bind, hm, zero_mul]
    rw [wr_of_holds hw2 (one_holds hw2).2]
    show x.fromCoeffs cfg _ 0 = _
    unfold Fx.fromCoeffs
    rw [if_neg (by simp)]
  refine ⟨?_, ?_, ?_, ?_⟩
  · rw [key 1 P 1 3 (P + 3) ⟨1, 3⟩ r3 (by show P ≠ 3; omega) (by
      rw [wr_add_left, wr_add_right]; exact hwr _ 0 _ (by ring) (by omega) (by omega))]
    rw [hwr (P * 3) 1 (-P) (by ring) (by omega) (by omega)]
    rw [reduce_frac hw2 (by omega) ⟨by omega, by omega⟩ ⟨by omega, by omega⟩ (by rw [Int.gcd_neg]; exact hcop _ odd)]
    unfold Fx.reduceSign
    rw [if_pos (show -P < 0 by omega)]
    simp only [sub0 (P + 3) (by omega) (by omega), sub0 0 (by omega) (by omega), sub0 (-P) (by omega) (by omega), ok_bind,
      neg_neg, neg_zero]
    rfl
  · rw [key (-(P + 3)) P (-1) 3 (-9) ⟨-1, 3⟩ r3' (by show P ≠ 3; omega) (by
      rw [wr_add_left, wr_add_right]; exact hwr _ (-1) _ (by ring) (by omega) (by omega))]
    rw [hwr (P * 3) 1 (-P) (by ring) (by omega) (by omega)]
    rw [reduce_frac hw2 (by omega) ⟨by omega, by omega⟩ ⟨by omega, by omega⟩ (by
      rw [Int.gcd_neg]; exact hcop _ (by decide))]
    unfold Fx.reduceSign
    rw [if_pos (show -P < 0 by omega)]
    simp only [sub0 (-9) (by omega) (by omega), sub0 0 (by omega) (by omega), sub0 (-P) (by omega) (by omega), ok_bind,
      neg_neg, neg_zero]
    rfl
  · unfold surdAdd
    rw [if_pos (by decide)]
    show (x.ratio (-1) 3 >>= _) = _
    rw [r3']
    simp only [ok_bind]
    unfold surdAddRat Fx.forward coeffsAddRat
    rw [if_pos (by decide)]
    simp only [Surd.coeffs, add_wr hw2 hc, ok_bind]
    rw [hwr (1 + -1) 0 0 (by ring) (by omega) (by omega)]
    show x.fromCoeffs cfg ⟨0, 0, 3⟩ 0 = _
    unfold Fx.fromCoeffs
    rw [if_neg (by simp)]
    exact reduce_zero hw2 (by norm_num) (hsm 3 (by decide) (by decide)) (one_holds hw2).2 (by omega)
  · have r1 : x.ratio 0 1 = .ok ⟨0, 1⟩ := rfl
    show x.surdAdd cfg ⟨1, 0, P, 0⟩ ⟨0, 0, 1, 0⟩ = _
    rw [key 1 P 0 1 1 ⟨0, 1⟩ r1 (by show P ≠ 1; omega) (by
      rw [wr_add_left, wr_add_right]; exact hwr _ 0 _ (by ring) (by omega) (by omega))]
    rw [hwr (P * 1) 0 P (by ring) (by omega) (by omega)]
    rw [reduce_frac hw2 (by omega) ⟨by omega, by omega⟩ ⟨by omega, by omega⟩ (hcop _ (by decide))]
    unfold Fx.reduceSign
    rw [if_neg (show ¬ P < 0 by omega)]
    rfl

/-- … and so are the associativity of the product, `(1/P · 1/3)·3 = -3/P` but `1/P·(1/3 · 3) = 1/P`, and
distributivity: `1/3·(1/P + 1)` returns `-(P+1)/P`, and `1/3·1/P + 1/3·1` returns `-(P-3)/P`. -/
theorem fixed_surd_distrib_refuted (x : Fx) (hc : x.checks = false) (hw : 7 ≤ x.w) (cfg : Cfg) :
    let P : Int := 2 ^ (x.w - 2)
    (x.surdMul cfg ⟨1, 0, P, 0⟩ ⟨1, 0, 3, 0⟩ = .ok ⟨-1, 0, P, 0⟩ ∧
      x.surdMul cfg ⟨-1, 0, P, 0⟩ ⟨3, 0, 1, 0⟩ = .ok ⟨-3, 0, P, 0⟩ ∧
      x.surdMul cfg ⟨1, 0, 3, 0⟩ ⟨3, 0, 1, 0⟩ = .ok Surd.one ∧
      x.surdMul cfg ⟨1, 0, P, 0⟩ Surd.one = .ok ⟨1, 0, P, 0⟩) ∧
    (x.surdAdd cfg ⟨1, 0, P, 0⟩ Surd.one = .ok ⟨P + 1, 0, P, 0⟩ ∧
      x.surdMul cfg ⟨1, 0, 3, 0⟩ ⟨P + 1, 0, P, 0⟩ = .ok ⟨-(P + 1), 0, P, 0⟩ ∧
      x.surdMul cfg ⟨1, 0, 3, 0⟩ ⟨1, 0, P, 0⟩ = .ok ⟨-1, 0, P, 0⟩ ∧
      x.surdMul cfg ⟨1, 0, 3, 0⟩ Surd.one = .ok ⟨1, 0, 3, 0⟩ ∧
      x.surdAdd cfg ⟨-1, 0, P, 0⟩ ⟨1, 0, 3, 0⟩ = .ok ⟨-(P - 3), 0, P, 0⟩) := by
  intro P
  have hw2 : 2 ≤ x.w := by omega
  have hP : (2 : Int) ^ (x.w - 1) = 2 * P := by
    rw [show x.w - 1 = (x.w - 2) + 1 by omega, pow_succ']
  have hP4 : (2 : Int) ^ x.w = 4 * P := by
    rw [show x.w = (x.w - 1) + 1 by omega, pow_succ', hP]; ring
  have hP32 : 32 ≤ P := by
    have : (2 : Int) ^ 5 ≤ 2 ^ (x.w - 2) := pow_le_pow_right₀ (by norm_num) (by omega)
    simpa using this
  have hwr : ∀ (v k m : Int), v = m + 4 * P * k → -(2 * P) ≤ m → m < 2 * P → x.wr v = m := fun v k m e h1 h2 => by
    rw [wr_congr (v := m), wr_of_holds hw2 ⟨by omega, by omega⟩]
    rw [hP4, e]
    exact Int.modEq_iff_dvd.2 ⟨-k, by ring⟩
  have hcop : ∀ n : Int, Int.gcd n 2 = 1 → Int.gcd n P = 1 := fun n h => by
    have := (Int.isCoprime_iff_gcd_eq_one.2 h).pow_right (n := x.w - 2)
    exact Int.isCoprime_iff_gcd_eq_one.1 this
  have odd : Int.gcd (P + 3) 2 = 1 := by
    have h8 : P = 2 * 2 ^ (x.w - 3) := by
      show (2 : Int) ^ (x.w - 2) = _
      rw [show x.w - 2 = (x.w - 3) + 1 by omega, pow_succ']
    have h9 : P + 3 = 2 * (2 ^ (x.w - 3) + 1) + 1 := by rw [h8]; ring
    rw [h9]
    exact Int.isCoprime_iff_gcd_eq_one.1 ⟨1, -(2 ^ (x.w - 3) + 1), by ring⟩
  have sub0 : ∀ v : Int, -(2 * P) ≤ -v → -v < 2 * P → x.sub 0 v = .ok (-v) := fun v h1 h2 => by
    rw [sub_wr hw2 hc, hwr (0 - v) 0 (-v) (by ring) h1 h2]
  have hsm : ∀ v : Int, -4 ≤ v → v ≤ 4 → x.Holds v := fun v h1 h2 => ⟨by omega, by omega⟩
  have r3 : x.ratio 1 3 = .ok ⟨1, 3⟩ :=
    ratio_normal hw2 (s := ⟨1, 0, 3, 0⟩) (by decide +kernel)
      ⟨hsm 1 (by decide) (by decide), hsm 0 (by decide) (by decide), hsm 3 (by decide) (by decide),
        hsm 0 (by decide) (by decide)⟩ rfl
  have key : ∀ a c n d m : Int, ∀ q : Rt, x.ratio n d = .ok q → c ≠ q.den →
      x.wr (x.wr (a * q.den) + x.wr (q.num * c)) = m →
      x.surdAdd cfg ⟨a, 0, c, 0⟩ ⟨n, 0, d, 0⟩ = x.reduce ⟨m, 0, x.wr (c * q.den), 0⟩ := fun a c n d m q hq hne hm => by
    unfold surdAdd
    rw [if_pos (by simp [Surd.isRational])]
    show (x.ratio n d >>= _) = _
    rw [hq]
    simp only [ok_bind]
    unfold surdAddRat Fx.forward coeffsAddRat
    rw [if_neg (show (Surd.coeffs ⟨a, 0, c, 0⟩).c ≠ q.den from hne)]
    simp only [Surd.coeffs, mul_wr hw2 hc, add_wr hw2 hc, ok_bind, hm, zero_mul]
    rw [wr_of_holds hw2 (one_holds hw2).2]
    show x.fromCoeffs cfg _ 0 = _
    unfold Fx.fromCoeffs
    rw [if_neg (by simp)]
  have keyM : ∀ a c n d m e : Int, ∀ q : Rt, x.ratio n d = .ok q → x.wr (a * q.num) = m → x.wr (c * q.den) = e →
      x.surdMul cfg ⟨a, 0, c, 0⟩ ⟨n, 0, d, 0⟩ = x.reduce ⟨m, 0, e, 0⟩ := fun a c n d m e q hq hm he => by
    unfold surdMul
    rw [if_pos (by simp [Surd.isRational])]
    show (x.ratio n d >>= _) = _
    rw [hq]
    simp only [ok_bind]
    unfold surdMulRat Fx.forward coeffsMulRat
    simp only [Surd.coeffs, mul_wr hw2 hc, ok_bind, hm, he, zero_mul]
    rw [wr_of_holds hw2 (one_holds hw2).2]
    show x.fromCoeffs cfg _ 0 = _
    unfold Fx.fromCoeffs
    rw [if_neg (by simp)]
  have r31 : x.ratio 3 1 = .ok ⟨3, 1⟩ :=
    ratio_normal hw2 (s := ⟨3, 0, 1, 0⟩) (by decide +kernel)
      ⟨hsm 3 (by decide) (by decide), hsm 0 (by decide) (by decide), hsm 1 (by decide) (by decide),
        hsm 0 (by decide) (by decide)⟩ rfl
  have r11 : x.ratio 1 1 = .ok ⟨1, 1⟩ := rfl
  have odd1 : Int.gcd (P + 1) P = 1 := Int.isCoprime_iff_gcd_eq_one.1 ⟨1, -1, by ring⟩
  have odd3 : Int.gcd (P - 3) P = 1 := by
    have h3 : Int.gcd (P + 3) P = 1 := hcop _ odd
    have := Int.isCoprime_iff_gcd_eq_one.2 h3
    obtain ⟨u, v, e⟩ := this
    exact Int.isCoprime_iff_gcd_eq_one.1 ⟨-u, v + 2 * u, by linear_combination e⟩
  have rP : ∀ n, x.Holds n → Int.gcd n P = 1 → x.ratio n P = .ok ⟨n, P⟩ := fun n hn hg =>
    ratio_normal hw2 (s := ⟨n, 0, P, 0⟩)
      ⟨by show 0 < P; omega, fun d h1 _ h3 => by
        have : d ∣ (1 : Int) := by
          have h : d ∣ ((Int.gcd n P : Nat) : Int) := Int.dvd_coe_gcd h1 h3
          rw [hg] at h
          exact_mod_cast h
        exact isUnit_of_dvd_one this, by simp, fun h => absurd rfl h⟩
      ⟨hn, hsm 0 (by decide) (by decide), ⟨by show _ ≤ P; omega, by show P < _; omega⟩, hsm 0 (by decide) (by decide)⟩ rfl
  have fin : ∀ n m : Int, x.Holds n → Int.gcd n P = 1 → -n = m → -(2 * P) ≤ m → m < 2 * P →
      x.reduce ⟨n, 0, -P, 0⟩ = .ok ⟨m, 0, P, 0⟩ := fun n m hn hg e h1 h2 => by
    rw [reduce_frac hw2 (by omega) hn ⟨by omega, by omega⟩ (by rw [Int.gcd_neg]; exact hg)]
    unfold Fx.reduceSign
    rw [if_pos (show -P < 0 by omega)]
    simp only [sub0 n (by omega) (by omega), sub0 0 (by omega) (by omega), sub0 (-P) (by omega) (by omega), ok_bind,
      neg_neg, neg_zero, e]
    rfl
  have fin' : ∀ n d : Int, x.Holds n → x.Holds d → 0 < d → Int.gcd n d = 1 →
      x.reduce ⟨n, 0, d, 0⟩ = .ok ⟨n, 0, d, 0⟩ := fun n d hn hd h0 hg => by
    rw [reduce_frac hw2 (by omega) hn hd hg]
    unfold Fx.reduceSign
    rw [if_neg (show ¬ d < 0 by omega)]
    rfl
  have w3P : x.wr (P * 3) = -P := hwr (P * 3) 1 (-P) (by ring) (by omega) (by omega)
  have w3P' : x.wr (3 * P) = -P := hwr (3 * P) 1 (-P) (by ring) (by omega) (by omega)
  have wP1 : x.wr (P * 1) = P := hwr (P * 1) 0 P (by ring) (by omega) (by omega)
  have hPh : x.Holds P := ⟨by omega, by omega⟩
  have ws : ∀ v : Int, -4 ≤ v → v ≤ 4 → x.wr v = v := fun v h1 h2 => wr_of_holds hw2 (hsm v h1 h2)
  have g1 : Int.gcd 1 P = 1 := Int.one_gcd
  refine ⟨⟨?_, ?_, ?_, ?_⟩, ?_, ?_, ?_, ?_, ?_⟩
  · rw [keyM 1 P 1 3 1 (-P) ⟨1, 3⟩ r3 (ws _ (by decide) (by decide)) w3P]
    exact fin 1 (-1) (hsm 1 (by decide) (by decide)) g1 rfl (by omega) (by omega)
  · rw [keyM (-1) P 3 1 (-3) P ⟨3, 1⟩ r31 (ws _ (by decide) (by decide)) wP1]
    exact fin' (-3) P (hsm (-3) (by decide) (by decide)) hPh (by omega) (hcop _ (by decide))
  · rw [keyM 1 3 3 1 3 3 ⟨3, 1⟩ r31 (ws _ (by decide) (by decide)) (ws _ (by decide) (by decide))]
    have hret : ∀ v, x.Holds v → x.ret v = .ok v := fun v hv => by
      unfold Fx.ret; rw [if_pos (holds_fits hv)]
    have h0 := hsm 0 (by decide) (by decide)
    have h1 := hsm 1 (by decide) (by decide)
    have h3 := hsm 3 (by decide) (by decide)
    have e1 : x.reduceSquare ⟨3, 0, 3, 0⟩ = .ok ⟨3, 0, 3, 0⟩ := by
      unfold Fx.reduceSquare Fx.abs Fx.mul Fx.add
      simp only [Int.natAbs_zero, Nat.cast_zero, hret _ h0, ok_bind]
      show ((.ok 0 : Res Int) >>= _) = _
      simp only [ok_bind, zero_mul, hret _ h0, if_true, lt_irrefl, if_false, add_zero, hret _ h3]
      rfl
    have e2 : x.reduceRat ⟨3, 0, 3, 0⟩ = .ok ⟨1, 0, 1, 0⟩ := by
      have e : igcd 3 3 = 3 := by decide
      have e' : x.div 3 3 = .ok 1 := by
        unfold Fx.div
        rw [if_neg (by decide), if_pos (show x.fits (Int.tdiv 3 3) = true from holds_fits h1)]
        rfl
      unfold Fx.reduceRat Fx.gcd
      simp only [e, hret _ h3, ok_bind, e']
      rfl
    unfold Fx.reduce
    rw [if_neg (by decide), e1]
    simp only [ok_bind, true_or, if_true, e2]
    rfl
  · show x.surdMul cfg ⟨1, 0, P, 0⟩ ⟨1, 0, 1, 0⟩ = _
    rw [keyM 1 P 1 1 1 P ⟨1, 1⟩ r11 (ws _ (by decide) (by decide)) wP1]
    exact fin' 1 P (hsm 1 (by decide) (by decide)) hPh (by omega) g1
  · show x.surdAdd cfg ⟨1, 0, P, 0⟩ ⟨1, 0, 1, 0⟩ = _
    rw [key 1 P 1 1 (P + 1) ⟨1, 1⟩ r11 (by show P ≠ 1; omega) (by
      rw [wr_add_left, wr_add_right]; exact hwr _ 0 _ (by ring) (by omega) (by omega)), wP1]
    exact fin' (P + 1) P ⟨by omega, by omega⟩ hPh (by omega) odd1
  · rw [keyM 1 3 (P + 1) P (P + 1) (-P) ⟨P + 1, P⟩ (rP _ ⟨by omega, by omega⟩ odd1)
      (hwr _ 0 _ (by ring) (by omega) (by omega)) w3P']
    exact fin (P + 1) _ ⟨by omega, by omega⟩ odd1 rfl (by omega) (by omega)
  · rw [keyM 1 3 1 P 1 (-P) ⟨1, P⟩ (rP _ (hsm 1 (by decide) (by decide)) g1) (ws 1 (by decide) (by decide)) w3P']
    exact fin 1 (-1) (hsm 1 (by decide) (by decide)) g1 rfl (by omega) (by omega)
  · show x.surdMul cfg ⟨1, 0, 3, 0⟩ ⟨1, 0, 1, 0⟩ = _
    rw [keyM 1 3 1 1 1 3 ⟨1, 1⟩ r11 (ws _ (by decide) (by decide)) (ws _ (by decide) (by decide))]
    exact fin' 1 3 (hsm 1 (by decide) (by decide)) (hsm 3 (by decide) (by decide)) (by decide) (by decide)
  · rw [key (-1) P 1 3 (P - 3) ⟨1, 3⟩ r3 (by show P ≠ 3; omega) (by
      rw [wr_add_left, wr_add_right]; exact hwr _ 0 _ (by ring) (by omega) (by omega)), w3P]
    exact fin (P - 3) _ ⟨by omega, by omega⟩ odd3 rfl (by omega) (by omega)

/-- in `i8`: `(1/64 + 1/3) - 1/3 = 9/64` -/
example : (Fx.mk 8 false).surdAdd ⟨false, true⟩ ⟨-67, 0, 64, 0⟩ ⟨-1, 0, 3, 0⟩ = .ok ⟨9, 0, 64, 0⟩ ∧
    (Fx.mk 8 true).surdAdd ⟨false, true⟩ ⟨1, 0, 64, 0⟩ ⟨1, 0, 3, 0⟩ = .error .overflow := by decide +kernel

end NumIrr
