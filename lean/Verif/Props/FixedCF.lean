/-
C69: `ContinuedFraction::new` over primitive integers.  C70: conversions from integers and ratios.
C71: integer shifts.  C72: coefficient iterators.  C73: convergents, `to_integer` and `to_rational`.

All over integers of `w` bits, with overflow checks (`checks = true`) and without.
-/
import Verif.Lemmas.FixedCFIter

namespace NumIrr
open CF

/-! ### C69 `new` -/

/-- **C69** with overflow checks `new` panics with an overflow or does what it does over arbitrary-precision integers,
provided that the periodic coefficients are not negative.  Missing: negative periodic coefficients, where the claim is
false (`fixed_cf_new_period_refuted`). -/
theorem fixed_cf_new_partial (t : Prim) (hw : 2 ≤ t.w) (hc : t.checks = true) (debug : Bool) (a p : List Int) (n : Bool)
    (ha : ∀ v ∈ a, t.Holds v) (hp : ∀ v ∈ p, t.Holds v) (hp0 : ∀ v ∈ p, 0 ≤ v) :
    Refines (t.new debug a p n) (CF.new debug a p n) :=
  Prim.new_ref ⟨by omega, fun _ => hw⟩ hc debug a p n ha hp hp0
example : (∀ v ∈ [200, 0, 55], (⟨8, false, true⟩ : Prim).Holds v) ∧
    (⟨8, false, true⟩ : Prim).new true [200, 0, 55] [7] false = .ok ⟨[255], [7], false⟩ := by
  unfold Prim.Holds; decide +kernel

/-- **C69** the stored coefficients fit, whatever the input. -/
theorem fixed_cf_new_fits (t : Prim) (debug : Bool) (a p : List Int) (n : Bool) (c : CF)
    (h : t.new debug a p n = .ok c) : c.Fits t.w := Prim.new_holds t debug a p n c h

/-- **C69** `new` is exact in both kinds of build when the sum of the absolute values of the aperiodic part fits the
signed type. -/
theorem fixed_cf_new_exact (x : Fx) (hw : 2 ≤ x.w) (debug : Bool) (a p : List Int) (n : Bool)
    (ha : absSum a < 2 ^ (x.w - 1)) (hp : ∀ v ∈ p, 0 ≤ v ∧ v < 2 ^ (x.w - 1)) :
    x.prim.new debug a p n = CF.new debug a p n :=
  Prim.new_exact (Fx.prim_ok hw) (Fx.prim_wide x) debug a p n (by omega)
    (fun v hv => by
      have := hp v hv
      have h2 := Prim.two_pow_pos (x.w - 1)
      rw [Fx.prim_holds]; unfold Fx.Holds; omega) (fun v hv => (hp v hv).1)

/-- **C69** over the unsigned type, without the sign flag, it is exact when the sum fits that type. -/
theorem fixed_cf_new_unsigned (x : Fx) (hw : 2 ≤ x.w) (debug : Bool) (a p : List Int) (ha0 : ∀ v ∈ a, 0 ≤ v)
    (ha : absSum a < 2 ^ x.w) (hp : ∀ v ∈ p, 0 ≤ v ∧ v < 2 ^ x.w) :
    x.uns.new debug a p false = CF.new debug a p false :=
  Prim.new_nonneg (S := 2 ^ x.w - 1) (Fx.uns_ok hw) (fun v h0 h1 => Fx.uns_holds.2 ⟨h0, by omega⟩) debug a p ha0
    (by omega) (fun v hv => Fx.uns_holds.2 (hp v hv)) (fun v hv => (hp v hv).1)

/-- `i8`: a sum of 127 is exact, one more panics; `u8` goes up to 255 -/
example : absSum [100, 0, 20, -7] = 127 ∧ (⟨8, true, true⟩ : Prim).new true [100, 0, 20, -7] [] false =
      .ok ⟨[119, 1, 6], [], false⟩ ∧
    CF.new true [100, 0, 20, -7] [] false = .ok ⟨[119, 1, 6], [], false⟩ ∧
    (⟨8, true, true⟩ : Prim).new true [127, 0, 1] [] false = .error .overflow ∧
    (⟨8, false, true⟩ : Prim).new true [200, 0, 55] [7] false = .ok ⟨[255], [7], false⟩ ∧
    (⟨8, false, true⟩ : Prim).new true [200, 0, 56] [7] false = .error .overflow := by
  refine ⟨by decide, by decide +kernel, by decide +kernel, by decide +kernel, by decide +kernel, by decide +kernel⟩

/-- **C69** the bound is sharp for every width: `[2^(w-1) - 1, 0, 1]` panics with overflow checks. -/
theorem fixed_cf_new_sharp (x : Fx) (hw : 2 ≤ x.w) (hc : x.checks = true) (debug : Bool) :
    x.prim.new debug [2 ^ (x.w - 1) - 1, 0, 1] [] false = .error .overflow ∧
    absSum [2 ^ (x.w - 1) - 1, 0, 1] = 2 ^ (x.w - 1) := by
  have hp : (2 : Int) ≤ 2 ^ (x.w - 1) := by
    calc (2 : Int) = 2 ^ 1 := by norm_num
      _ ≤ 2 ^ (x.w - 1) := pow_le_pow_right₀ (by norm_num) (by omega)
  have hadd : x.prim.add (2 ^ (x.w - 1) - 1) 1 = .error .overflow := by
    unfold Prim.add Prim.ret
    rw [if_neg, if_pos (show x.prim.checks = true from hc)]
    intro h
    have := Fx.prim_holds.1 (Prim.fits_iff.1 h)
    unfold Fx.Holds at this; omega
  constructor
  · have h1 : ¬ ((2 : Int) ^ (x.w - 1) - 1 < 0) := by omega
    have h2 : ¬ ((2 : Int) ^ (x.w - 1) - 1 = 0) := by omega
    simp only [Prim.new, Prim.newLoop, Prim.newStep, Prim.applyNegate, Prim.newPush, h1, h2, if_false, if_true,
      Bool.false_eq_true, List.length_cons, Nat.add_eq_zero_iff, and_false, false_and, bind, Except.bind, hadd,
      one_ne_zero, show ¬ ((1 : Int) < 0) by decide]
  · simp only [absSum, List.map_cons, List.map_nil, List.sum_cons, List.sum_nil, abs_zero, abs_one]
    rw [abs_of_nonneg (by omega)]; omega

/-- **C69** refuted in release builds for every width: `new([MIN], [], true)` should be `2^(w-1)`, which the unsigned
coefficients can hold, and gives `-2^(w-1)`. -/
theorem fixed_cf_new_refuted (x : Fx) (hw : 2 ≤ x.w) (hc : x.checks = false) (debug : Bool) :
    x.prim.new debug [-2 ^ (x.w - 1)] [] true = .ok ⟨[2 ^ (x.w - 1)], [], true⟩ ∧
    CF.new debug [-2 ^ (x.w - 1)] [] true = .ok ⟨[2 ^ (x.w - 1)], [], false⟩ := by
  have hp := Prim.two_pow_pos (x.w - 1)
  have hs := Fx.sub_min hw hc
  have h1 : (-2 ^ (x.w - 1) : Int) < 0 := by omega
  constructor
  · simp [Prim.new, Prim.newLoop, Prim.newStep, Prim.applyNegate, Prim.newPush, hs, bind, Except.bind,
      Prim.finish, Prim.cleanup, pure, Except.pure, finalSign]
    exact Fx.castU_min hw
  · have h2 : ¬ (2 : Int) ^ (x.w - 1) < 0 := by omega
    simp [CF.new, CF.newLoop, CF.newStep, bind, Except.bind, CF.cleanup, pure, Except.pure, finalSign,
      toUnsignedAll, toUnsigned, h2]
    have e : ((2 ^ (x.w - 1) : Nat) : Int) = 2 ^ (x.w - 1) := by push_cast; rfl
    omega

/-- **C69** refuted over unsigned integers with the sign flag: `new([a], [], true)` should be `-a`; with overflow checks
it panics for every `a ≥ 1`, without it gives the positive number `2^w - a`. -/
theorem fixed_cf_new_unsigned_refuted (x : Fx) (debug : Bool) (a : Nat) (h1 : 1 ≤ a) (h2 : a < 2 ^ x.w) :
    CF.new debug [(a : Int)] [] true = .ok ⟨[a], [], true⟩ ∧
    x.uns.new debug [(a : Int)] [] true = (if x.checks then .error .overflow else .ok ⟨[2 ^ x.w - a], [], false⟩) := by
  have e : ((2 ^ x.w : Nat) : Int) = 2 ^ x.w := by push_cast; rfl
  constructor
  · have h3 : 0 < a := h1
    have h4 : ¬ (a : Int) < 0 := by omega
    simp [CF.new, CF.newLoop, CF.newStep, bind, Except.bind, CF.cleanup, pure, Except.pure, finalSign,
      toUnsignedAll, toUnsigned, h3, h3.ne', h4]
  · have hf : ¬ x.uns.ty.fits (0 - (a : Int)) = true := by
      intro h
      have := Fx.uns_holds.1 (Prim.fits_iff.1 h)
      omega
    have hsub : x.uns.sub 0 a = if x.checks then .error .overflow else .ok (2 ^ x.w - a) := by
      unfold Prim.sub Prim.ret
      rw [if_neg hf]
      show (if x.checks = true then _ else _) = _
      split
      · rfl
      · have : x.uns.ty.wrap (0 - (a : Int)) = 2 ^ x.w - a := by
          show (0 - (a : Int)) % 2 ^ x.w = _
          rw [← Int.add_emod_right, Int.emod_eq_of_lt (by omega) (by omega)]
          omega
        rw [this]
    cases hc : x.checks
    · rw [hc] at hsub
      simp only [Bool.false_eq_true, if_false] at hsub
      have h3 : ¬ ((2 : Int) ^ x.w - a < 0) := by omega
      have h4 : ¬ ((2 : Int) ^ x.w - a = 0) := by omega
      have h5 : castU x.w (2 ^ x.w - a) = 2 ^ x.w - a := by
        unfold castU
        rw [Int.emod_eq_of_lt (by omega) (by omega)]
        omega
      simp [Prim.new, Prim.newLoop, Prim.newStep, Prim.applyNegate, Prim.newPush, hsub, bind, Except.bind,
        Prim.finish, Prim.cleanup, pure, Except.pure, finalSign, h3, h4]
      exact h5
    · rw [hc] at hsub
      simp [Prim.new, Prim.newLoop, Prim.newStep, Prim.applyNegate, hsub, bind, Except.bind]

example : (⟨8, false, false⟩ : Prim).new false [3, 7] [] true = .ok ⟨[253, 249], [], false⟩ ∧
    CF.new false [3, 7] [] true = .ok ⟨[3, 7], [], true⟩ := by decide +kernel

/-- **C69** refuted in both kinds of build for every width: a negative periodic coefficient is stored as a huge positive
one, while over arbitrary-precision integers it panics. -/
theorem fixed_cf_new_period_refuted (x : Fx) (hw : 2 ≤ x.w) (debug : Bool) :
    x.prim.new debug [1] [-2] false = .ok ⟨[1], [2 ^ x.w - 2], false⟩ ∧
    CF.new debug [1] [-2] false = .error .unwrapNone := by
  have hp : (4 : Int) ≤ 2 ^ x.w := by
    calc (4 : Int) = 2 ^ 2 := by norm_num
      _ ≤ 2 ^ x.w := pow_le_pow_right₀ (by norm_num) hw
  have e : ((2 ^ x.w : Nat) : Int) = 2 ^ x.w := by push_cast; rfl
  have h1 : castU x.w 1 = 1 := by
    unfold castU; rw [Int.emod_eq_of_lt (by omega) (by omega)]; rfl
  have h2 : castU x.w (-2) = 2 ^ x.w - 2 := by
    unfold castU
    rw [← Int.add_emod_right, Int.emod_eq_of_lt (by omega) (by omega)]
    omega
  constructor
  · simp [Prim.new, Prim.newLoop, Prim.newStep, Prim.applyNegate, Prim.newPush, bind, Except.bind,
      Prim.finish, pure, Except.pure, finalSign]
    exact ⟨h1, h2⟩
  · simp [CF.new, CF.newLoop, CF.newStep, bind, Except.bind, pure, Except.pure, finalSign,
      toUnsignedAll, toUnsigned]

/-- **C69** what holds without overflow checks: whenever the checked build does not report an overflow, the unchecked
one gives the same, and it is right if the periodic coefficients are not negative.  Missing: inputs on which the checked
build overflows, where the claim is false (`fixed_cf_new_refuted`, `fixed_cf_new_unsigned_refuted`). -/
theorem fixed_cf_new_release_partial (w : Nat) (sg : Bool) (hw : 2 ≤ w) (debug : Bool) (a p : List Int) (n : Bool)
    (ha : ∀ v ∈ a, (⟨w, sg, false⟩ : Prim).Holds v) (hp : ∀ v ∈ p, (⟨w, sg, false⟩ : Prim).Holds v)
    (hp0 : ∀ v ∈ p, 0 ≤ v) (h : (⟨w, sg, true⟩ : Prim).new debug a p n ≠ .error .overflow) :
    (⟨w, sg, false⟩ : Prim).new debug a p n = CF.new debug a p n := by
  have h1 := (Prim.new_rel (t := ⟨w, sg, true⟩) rfl debug a p n).resolve_right h
  have h2 := (fixed_cf_new_partial ⟨w, sg, true⟩ hw rfl debug a p n ha hp hp0).resolve_right h
  rw [h1] at h2
  exact h2

example : (⟨8, true, true⟩ : Prim).new true [-100, 27, 0, -3] [5] false ≠ .error .overflow ∧
    (⟨8, true, false⟩ : Prim).new true [-100, 27, 0, -3] [5] false = .ok ⟨[99, 1, 23], [5], true⟩ := by decide +kernel

/-! ### C70 conversions from integers and ratios -/

/-- **C70** `From<T>` over the signed type: exact in release builds, and with overflow checks unless the number is the
smallest one. -/
theorem fixed_cf_ofInt_partial (x : Fx) (hw : 2 ≤ x.w) (v : Int) (hv : x.Holds v)
    (hm : x.checks = true → v ≠ -2 ^ (x.w - 1)) : x.prim.ofInt v = .ok (CF.ofInt v) := by
  unfold Prim.ofInt CF.ofInt
  by_cases h : v < 0
  · rw [if_pos h]
    obtain ⟨m, h1, h2⟩ := Fx.neg_cast hw hv h hm
    have h3 : x.prim.sub 0 v = .ok m := by
      rw [← h1]; unfold Prim.sub; rw [zero_sub]; rfl
    rw [h3]
    show Except.ok (CF.mk [castU x.w m] [] true) = _
    rw [h2, if_pos h, show (0 - v).toNat = v.natAbs by omega]
  · rw [if_neg h, if_neg h]
    show Except.ok (CF.mk [castU x.w v] [] false) = _
    rw [Fx.castU_of_nonneg hw hv (by omega), show v.toNat = v.natAbs by omega]
example : (⟨8, true⟩ : Fx).Holds (-127) ∧ (⟨8, true⟩ : Fx).prim.ofInt (-127) = .ok ⟨[127], [], true⟩ ∧
    (⟨8, true⟩ : Fx).prim.ofInt (-128) = .error .overflow := by unfold Fx.Holds; decide +kernel

/-- **C70** `From<T>` over the unsigned type is exact. -/
theorem fixed_cf_ofInt_unsigned (x : Fx) (n : Nat) (h : n < 2 ^ x.w) : x.uns.ofInt n = .ok (CF.ofInt n) := by
  unfold Prim.ofInt CF.ofInt
  rw [if_neg (by omega), if_neg (by omega)]
  show Except.ok (CF.mk [castU x.w n] [] false) = _
  rw [Fx.castU_natCast h, Int.toNat_natCast]

/-- **C70** refuted: with overflow checks the smallest number cannot be converted, although the result is
representable. -/
theorem fixed_cf_ofInt_refuted (x : Fx) (hw : 2 ≤ x.w) (hc : x.checks = true) :
    x.prim.ofInt (-2 ^ (x.w - 1)) = .error .overflow ∧ (CF.ofInt (-2 ^ (x.w - 1))).Fits x.w := by
  have hp := Prim.two_pow_pos (x.w - 1)
  have e : ((2 ^ (x.w - 1) : Nat) : Int) = 2 ^ (x.w - 1) := by push_cast; rfl
  constructor
  · unfold Prim.ofInt
    rw [if_pos (by omega)]
    have : x.prim.sub 0 (-2 ^ (x.w - 1)) = .error .overflow := by
      have := Fx.neg_min hc
      unfold Prim.sub; rw [zero_sub]; exact this
    rw [this]; rfl
  · intro v hv
    unfold CF.ofInt at hv
    rw [if_pos (by omega)] at hv
    simp only [List.append_nil, List.mem_singleton] at hv
    have e2 : 2 ^ x.w = 2 * 2 ^ (x.w - 1) := by rw [← pow_succ', Nat.sub_add_cancel (by omega)]
    omega

/-- **C70** `From<Ratio<T>>` terminates and is exact in both kinds of build, unless the numerator is the smallest
number. -/
theorem fixed_cf_ofRat_partial (x : Fx) (hw : 2 ≤ x.w) (q : Rat) (hn : x.Holds q.num) (hd : x.Holds q.den)
    (hm : q.num ≠ -2 ^ (x.w - 1)) (fuel : Nat) (hf : q.num.natAbs + q.den < fuel) :
    x.ofRat fuel (.of q) = some (.ok (CF.ofRat q)) := Fx.ofRat_exact hw hn hd hm hf

example : (⟨8, true⟩ : Fx).Holds (-127 / 100 : Rat).num ∧ (⟨8, true⟩ : Fx).Holds (-127 / 100 : Rat).den ∧
    (⟨8, true⟩ : Fx).ofRat 300 (.of (-127 / 100)) = some (.ok ⟨[1, 3, 1, 2, 2, 1, 2], [], true⟩) := by
  refine ⟨by unfold Fx.Holds; decide +kernel, by unfold Fx.Holds; decide +kernel, by decide +kernel⟩

/-- **C70** refuted with overflow checks: a ratio whose numerator is the smallest number cannot be converted. -/
theorem fixed_cf_ofRat_min (x : Fx) (hc : x.checks = true) (d : Int) (fuel : Nat) :
    x.ofRat fuel ⟨-2 ^ (x.w - 1), d⟩ = some (.error .overflow) := by
  have hp := Prim.two_pow_pos (x.w - 1)
  unfold Fx.ofRat
  simp only
  rw [if_neg (by omega), if_pos (by omega)]
  have : x.sub 0 (-2 ^ (x.w - 1)) = .error .overflow := by
    have := Fx.neg_min hc
    unfold Fx.sub; rw [zero_sub]; exact this
  rw [this]

/-- **C70** refuted in release builds for every width: the ratio `-2^(w-1) / (2^(w-1) - 1)`, which is close to `-1`,
becomes `-[0; 0, 2^w - 1, 2^(w-1) + 1]`, a number below `-(2^w - 1)` in a form that is not canonical; and the integer
`-2^(w-1)` becomes `-[0; 0, 2^(w-1)]`, the right number but not recognised as an integer. -/
theorem fixed_cf_ofRat_refuted (x : Fx) (hw : 3 ≤ x.w) (hc : x.checks = false) (fuel : Nat) (hf : 4 ≤ fuel) :
    x.ofRat fuel ⟨-2 ^ (x.w - 1), 2 ^ (x.w - 1) - 1⟩ = some (.ok ⟨[0, 0, 2 ^ x.w - 1, 2 ^ (x.w - 1) + 1], [], true⟩) ∧
    cfVal [0, 0, 2 ^ x.w - 1, 2 ^ (x.w - 1) + 1] = some ((2 ^ x.w - 1 : ℚ) + 1 / (2 ^ (x.w - 1) + 1)) ∧
    x.ofRat fuel ⟨-2 ^ (x.w - 1), 1⟩ = some (.ok ⟨[0, 0, 2 ^ (x.w - 1)], [], true⟩) ∧
    CF.isInteger ⟨[0, 0, 2 ^ (x.w - 1)], [], true⟩ = false := by
  have hpw : (2 : Int) ^ x.w = 2 * 2 ^ (x.w - 1) := Prim.pow_split (by omega)
  have hp : (4 : Int) ≤ 2 ^ (x.w - 1) := by
    calc (4 : Int) = 2 ^ 2 := by norm_num
      _ ≤ 2 ^ (x.w - 1) := pow_le_pow_right₀ (by norm_num) (by omega)
  have e : ((2 ^ x.w : Nat) : Int) = 2 ^ x.w := by push_cast; rfl
  have e' : ((2 ^ (x.w - 1) : Nat) : Int) = 2 ^ (x.w - 1) := by push_cast; rfl
  obtain ⟨fuel, rfl⟩ : ∃ f, fuel = f + 4 := ⟨fuel - 4, by omega⟩
  have hs : x.sub 0 (-2 ^ (x.w - 1)) = .ok (-2 ^ (x.w - 1)) := Fx.sub_min (by omega) hc
  have hu1 : castU x.w (-1) = 2 ^ x.w - 1 := by
    unfold castU; rw [← Int.add_emod_right, Int.emod_eq_of_lt (by omega) (by omega)]; omega
  generalize hM : (2 : Int) ^ (x.w - 1) = M at *
  have step : ∀ (fuel : Nat) (n d q r : Int) (acc : List Nat), d ≠ 0 → n.tdiv d = q → n.tmod d = r → -M ≤ q → q < M →
      x.euclid (fuel + 1) n d acc = x.euclid fuel d r (castU x.w q :: acc) := by
    intro fuel n d q r acc hd hq hr h1 h2
    have hh : x.Holds (n.tdiv d) := by unfold Fx.Holds; rw [hq, hM]; exact ⟨h1, h2⟩
    have d1 : x.div n d = .ok q := by rw [Fx.div_ok hd hh, hq]
    have d2 : x.rem n d = .ok r := by
      unfold Fx.rem
      rw [if_neg hd, if_pos (show x.fits _ = true from Prim.fits_iff (t := x.prim) |>.2 hh), hr]
    rw [Fx.euclid, if_neg hd, d1, d2]
    rfl
  have last : ∀ (fuel : Nat) (n : Int) (acc : List Nat), x.euclid (fuel + 1) n 0 acc = some (.ok acc.reverse) := by
    intro fuel n acc; rw [Fx.euclid, if_pos rfl]
  have hu0 : castU x.w 0 = 0 := by unfold castU; simp
  have huM : castU x.w (-M) = 2 ^ (x.w - 1) := by
    unfold castU; rw [← Int.add_emod_right, Int.emod_eq_of_lt (by omega) (by omega)]; omega
  have huM' : castU x.w (-(M - 1)) = 2 ^ (x.w - 1) + 1 := by
    unfold castU; rw [← Int.add_emod_right, Int.emod_eq_of_lt (by omega) (by omega)]; omega
  have small : ∀ v : Int, 0 ≤ v → v < M → v.tdiv (-M) = 0 ∧ v.tmod (-M) = v := by
    intro v h0 h1
    constructor
    · rw [Int.tdiv_neg, Int.tdiv_eq_zero_of_lt h0 h1]; rfl
    · rw [Int.tmod_neg, Int.tmod_eq_of_lt h0 h1]
  refine ⟨?_, ?_, ?_, ?_⟩
  · unfold Fx.ofRat
    simp only
    rw [if_neg (by omega), if_pos (by omega), hs, decide_eq_true (by omega)]
    simp only
    rw [if_pos (by omega)]
    have q2 : (-M).tdiv (M - 1) = -1 ∧ (-M).tmod (M - 1) = -1 := by
      have h1 : M.tdiv (M - 1) = 1 := by
        rw [Int.tdiv_eq_ediv_of_nonneg (by omega)]
        exact (Int.ediv_eq_iff_of_pos (by omega)).2 ⟨by omega, by omega⟩
      have h2 := Int.tmod_add_mul_tdiv M (M - 1)
      rw [h1] at h2
      constructor
      · rw [Int.neg_tdiv, h1]
      · rw [Int.neg_tmod]; omega
    rw [step _ _ _ 0 (M - 1) _ (by omega) (small _ (by omega) (by omega)).1 (small _ (by omega) (by omega)).2 (by omega) (by omega),
      step _ _ _ (-1) (-1) _ (by omega) q2.1 q2.2 (by omega) (by omega),
      step _ _ _ (-(M - 1)) 0 _ (by omega) (by rw [Int.tdiv_neg, Int.tdiv_one]) (by rw [Int.tmod_neg, Int.tmod_one]) (by omega) (by omega),
      last, hu0, hu1, huM']
    rfl
  · have h1 : ((2 : ℚ) ^ (x.w - 1) + 1) ≠ 0 := by positivity
    have hM' : ((M : Int) : ℚ) = 2 ^ (x.w - 1) := by rw [← hM]; push_cast; rfl
    have h3 : (0 : ℚ) < 2 ^ x.w - 1 + 1 / (2 ^ (x.w - 1) + 1) := by
      have : (1 : ℚ) ≤ 2 ^ x.w := one_le_pow₀ (by norm_num)
      have : (0 : ℚ) < 1 / (2 ^ (x.w - 1) + 1) := by positivity
      linarith
    have h4 : (1 : ℚ) / (2 ^ x.w - 1 + 1 / (2 ^ (x.w - 1) + 1)) ≠ 0 := by positivity
    simp only [cfVal]
    push_cast
    rw [hM', if_neg h1]
    simp only
    rw [if_neg h3.ne']
    simp only
    rw [if_neg (by simpa using h3.ne')]
    simp
  · unfold Fx.ofRat
    simp only
    rw [if_neg (by omega), if_pos (by omega), hs, decide_eq_true (by omega)]
    simp only
    rw [if_pos (by omega)]
    rw [step _ _ _ 0 1 _ (by omega) (small _ (by omega) (by omega)).1 (small _ (by omega) (by omega)).2 (by omega) (by omega),
      step _ _ _ (-M) 0 _ (by omega) (by rw [Int.tdiv_one]) (by rw [Int.tmod_one]) (by omega) (by omega),
      last, hu0, huM]
    rfl
  · simp [CF.isInteger]

/-! ### C71 integer shifts -/

/-- **C71** with overflow checks `Add<T>` and `Sub<T>` panic with an overflow or do what they do over
arbitrary-precision integers, provided that the coefficients after the first one fit the signed type.  Missing: larger
coefficients, where the claim is false (`fixed_cf_add_refuted`). -/
theorem fixed_cf_add_partial (x : Fx) (hw : 2 ≤ x.w) (hc : x.checks = true) (debug : Bool) (c : CF) (hf : c.Fits x.w)
    (rhs : Int) (hr : x.Holds rhs) (hsm : ∀ v ∈ c.a.tail ++ c.p, ((v : Nat) : Int) < 2 ^ (x.w - 1)) :
    Refines (x.addInt debug c rhs) (c.addInt debug rhs) ∧ Refines (x.subInt debug c rhs) (c.subInt debug rhs) := by
  refine ⟨Fx.addInt_ref hw hc debug hf hr hsm, ?_⟩
  unfold Fx.subInt CF.subInt
  by_cases hm : rhs = -2 ^ (x.w - 1)
  · rw [hm, Fx.neg_min hc]; exact Or.inr rfl
  · have hh : x.Holds (-rhs) := by unfold Fx.Holds at *; omega
    have : x.neg rhs = .ok (-rhs) := Fx.ret_ok hh
    rw [this]
    exact Fx.addInt_ref hw hc debug hf hh hsm
example : CF.Fits 8 ⟨[200, 100], [], false⟩ ∧ (⟨8, true⟩ : Fx).Holds (-100) ∧
    (⟨8, true⟩ : Fx).subInt true ⟨[200, 100], [], false⟩ 100 = .ok ⟨[100, 100], [], false⟩ := by
  unfold CF.Fits Fx.Holds; decide +kernel

/-- **C71** they are exact in both kinds of build when the coefficients and the integer are small together. -/
theorem fixed_cf_add_exact (x : Fx) (hw : 2 ≤ x.w) (debug : Bool) (c : CF) (rhs : Int)
    (hsum : ((c.a.sum : Nat) : Int) + |rhs| < 2 ^ (x.w - 1)) (hp : ∀ v ∈ c.p, ((v : Nat) : Int) < 2 ^ (x.w - 1)) :
    x.addInt debug c rhs = c.addInt debug rhs ∧ x.subInt debug c rhs = c.subInt debug rhs := by
  refine ⟨Fx.addInt_exact hw debug hsum hp, ?_⟩
  unfold Fx.subInt CF.subInt
  have h1 := (abs_le.1 (le_refl |rhs|))
  have hh : x.Holds (-rhs) := by unfold Fx.Holds; omega
  have : x.neg rhs = .ok (-rhs) := Fx.ret_ok hh
  rw [this]
  exact Fx.addInt_exact hw debug (by rw [abs_neg]; exact hsum) hp
example : (((CF.mk [2, 3] [4] true).a.sum : Nat) : Int) + |10| < 2 ^ (8 - 1) ∧
    (⟨8, true⟩ : Fx).addInt true ⟨[2, 3], [4], true⟩ 10 = .ok ⟨[7, 1, 2], [4], false⟩ := by decide +kernel

/-- **C71** when the sign does not change, only the first coefficient matters: it is enough that the new one fits the
unsigned type. -/
theorem fixed_cf_add_same_sign (x : Fx) (hw : 2 ≤ x.w) (debug : Bool) (c : CF) (i : Nat) (rest : List Nat)
    (ha : c.a = i :: rest) (hi : i < 2 ^ x.w) (rhs : Int) (hr : x.Holds rhs)
    (hm : x.checks = true → rhs ≠ -2 ^ (x.w - 1))
    (h : (c.neg = decide (rhs < 0) ∧ i + rhs.natAbs < 2 ^ x.w) ∨ (c.neg ≠ decide (rhs < 0) ∧ rhs.natAbs ≤ i)) :
    x.addInt debug c rhs = c.addInt debug rhs := by
  rw [Fx.addInt_eq debug ha, Fx.cf_addInt_eq debug ha,
    Fx.shiftFirst_exact hw hi hr c.neg hm (fun h' => by
      rcases h with h | h
      · exact h.2
      · exact absurd h' h.1)]
  show x.shiftEnd _ _ _ _ = _
  have hfl : (Fx.bigShift c.neg i rhs).2 = false := by
    unfold Fx.bigShift
    rcases h with ⟨h1, -⟩ | ⟨h1, h2⟩
    · rw [h1]; cases decide (rhs < 0) <;> rfl
    · cases hn : c.neg <;> cases hd : decide (rhs < 0) <;> rw [hn, hd] at h1 <;> simp only
      all_goals first | rfl | rw [if_neg (by omega)]
  unfold Fx.shiftEnd Fx.bigShiftEnd
  rw [if_neg (by rw [hfl]; simp), if_neg (by rw [hfl]; simp)]
  rfl

/-- **C71** the stored coefficients fit. -/
theorem fixed_cf_add_fits (x : Fx) (hw : 2 ≤ x.w) (debug : Bool) (c : CF) (hf : c.Fits x.w) (rhs : Int) (z : CF)
    (h : x.addInt debug c rhs = .ok z ∨ x.subInt debug c rhs = .ok z) : z.Fits x.w := by
  rcases h with h | h
  · exact Fx.addInt_holds hw debug hf rhs z h
  · exact Ens.bind (P := fun _ => True) Ens.triv (fun m _ => Fx.addInt_holds hw debug hf m) z h

/-- **C71** without overflow checks the result is the checked one unless that is an overflow. -/
theorem fixed_cf_add_release (w : Nat) (debug : Bool) (c : CF) (rhs : Int)
    (h : (⟨w, true⟩ : Fx).addInt debug c rhs ≠ .error .overflow) :
    (⟨w, false⟩ : Fx).addInt debug c rhs = (⟨w, true⟩ : Fx).addInt debug c rhs :=
  ((Fx.addInt_rel (x := ⟨w, true⟩) rfl debug c rhs).resolve_right h).symm

/-- `i8`: -[2; 3, (4)] + 10 changes the sign; 200 + 55 fits -/
example : (⟨8, true⟩ : Fx).addInt true ⟨[2, 3], [4], true⟩ 10 = .ok ⟨[7, 1, 2], [4], false⟩ ∧
    (⟨8, true⟩ : Fx).addInt true ⟨[200, 250], [], false⟩ 55 = .ok ⟨[255, 250], [], false⟩ ∧
    (⟨8, true⟩ : Fx).addInt true ⟨[200, 250], [], false⟩ 56 = .error .overflow ∧
    (⟨8, false⟩ : Fx).addInt true ⟨[200, 250], [], false⟩ 56 = .ok ⟨[0, 250], [], false⟩ := by decide +kernel

/-- **C71** refuted in both kinds of build for every width: `[1; 2^w - 2] - 3` lies between `-2` and `-1`, but the
result is `-[2; 2] = -5/2`. -/
theorem fixed_cf_add_refuted (x : Fx) (hw : 4 ≤ x.w) (debug : Bool) :
    x.addInt debug ⟨[1, 2 ^ x.w - 2], [], false⟩ (-3) = .ok ⟨[2, 2], [], true⟩ ∧
    CF.addInt debug ⟨[1, 2 ^ x.w - 2], [], false⟩ (-3) = .ok ⟨[1, 1, 2 ^ x.w - 3], [], true⟩ ∧
    CF.Fits x.w ⟨[1, 2 ^ x.w - 2], [], false⟩ ∧ CF.Fits x.w ⟨[1, 1, 2 ^ x.w - 3], [], true⟩ := by
  have hpw : (2 : Int) ^ x.w = 2 * 2 ^ (x.w - 1) := Prim.pow_split (by omega)
  have hp : (8 : Int) ≤ 2 ^ (x.w - 1) := by
    calc (8 : Int) = 2 ^ 3 := by norm_num
      _ ≤ 2 ^ (x.w - 1) := pow_le_pow_right₀ (by norm_num) (by omega)
  have e : ((2 ^ x.w : Nat) : Int) = 2 ^ x.w := by push_cast; rfl
  have c1 : castS x.w 2 = 2 := by unfold castS; rw [if_pos (by omega)]; rfl
  have c2 : castS x.w (2 ^ x.w - 2) = -2 := by unfold castS; rw [if_neg (by omega)]; omega
  have hh : ∀ v : Int, -4 ≤ v → v < 4 → x.prim.ret v = .ok v := fun v h1 h2 =>
    Prim.ret_ok (Fx.prim_holds.2 (by unfold Fx.Holds; omega))
  have hu : ∀ v : Int, 0 ≤ v → v < 4 → castU x.w v = v.toNat := fun v h1 h2 => by
    unfold castU; rw [Int.emod_eq_of_lt (by omega) (by omega)]
  refine ⟨?_, ?_, ?_, ?_⟩
  · rw [Fx.addInt_eq debug rfl, Fx.shiftFirst_exact (by omega) (by omega) (by unfold Fx.Holds; omega) _
      (fun _ => by omega) (fun h => by simp at h)]
    show x.shiftEnd _ _ _ (2, true) = _
    unfold Fx.shiftEnd
    simp only [if_true]
    have hn : x.neg (castS x.w 2) = .ok (-2) := by rw [c1]; exact hh (-2) (by omega) (by omega)
    rw [hn]
    show x.prim.new debug [-2, castS x.w (2 ^ x.w - 2)] [] false = _
    rw [c2, fixed_cf_new_exact x (by omega) debug _ _ _ (by simp [absSum]; omega) (fun v hv => by cases hv)]
    cases debug <;> decide +kernel
  · rw [Fx.cf_addInt_eq debug rfl]
    show CF.new debug [-2, ((2 ^ x.w - 2 : Nat) : Int)] [] false = _
    obtain ⟨k, hk⟩ : ∃ k : Nat, 2 ^ x.w = k + 6 := ⟨2 ^ x.w - 6, by omega⟩
    rw [hk]
    show CF.new debug [-2, ((k + 4 : Nat) : Int)] [] false = .ok ⟨[1, 1, k + 3], [], true⟩
    have h1 : (0 - ((k + 4 : Nat) : Int)) < 0 := by omega
    have h2 : ¬ (0 - ((k + 4 : Nat) : Int)) = 0 := by omega
    have h3 : (-(0 - ((k + 4 : Nat) : Int)) - 1) = ((k + 3 : Nat) : Int) := by omega
    have h4 : CF.newLoop debug ⟨[], none, false⟩ [-2, ((k + 4 : Nat) : Int)] =
        .ok ⟨[((k + 3 : Nat) : Int), 1, 1], some true, false⟩ := by
      have g1 : CF.newStep debug ⟨[], none, false⟩ (-2) = .ok ⟨[2], some true, true⟩ := by
        cases debug <;> decide
      have g2 : CF.newStep debug ⟨[2], some true, true⟩ ((k + 4 : Nat) : Int) =
          .ok ⟨[((k + 3 : Nat) : Int), 1, 1], some true, false⟩ := by
        unfold CF.newStep
        simp only [if_true]
        rw [if_neg h2, if_pos h1, CF.propagate, h3]
        cases debug <;> simp
      rw [CF.newLoop, g1]
      show CF.newLoop debug ⟨[2], some true, true⟩ _ = _
      rw [CF.newLoop, g2]
      rfl
    unfold CF.new
    rw [if_neg (by simp), h4]
    have h5 : ¬ ((k + 3 : Nat) : Int) = 0 := by omega
    have h6 : ¬ ((k + 3 : Nat) : Int) = 1 := by omega
    have h7 : CF.cleanup 3 [((k + 3 : Nat) : Int), 1, 1] = [((k + 3 : Nat) : Int), 1, 1] := by
      rw [CF.cleanup, if_neg h5, if_neg h6]
    have h8 : toUnsigned ((k + 3 : Nat) : Int) = .ok (k + 3) := by
      unfold toUnsigned; rw [if_neg (by omega), Int.toNat_natCast]
    simp only [bind, Except.bind, List.length_cons, List.length_nil, if_true, Nat.zero_add, Nat.reduceAdd, h7, finalSign, List.reverse_cons, List.reverse_nil,
      List.nil_append, List.cons_append, toUnsignedAll, h8, pure, Except.pure]
    simp [toUnsigned]
  · intro v hv
    simp at hv
    omega
  · intro v hv
    simp at hv
    omega

/-- **C71** refuted in release builds for every width: `0 - MIN` should be `2^(w-1)`, which fits, and gives
`-2^(w-1)`; with overflow checks it panics. -/
theorem fixed_cf_sub_refuted (x : Fx) (hw : 2 ≤ x.w) (debug : Bool) :
    x.subInt debug ⟨[0], [], false⟩ (-2 ^ (x.w - 1)) =
      (if x.checks then .error .overflow else .ok ⟨[2 ^ (x.w - 1)], [], true⟩) ∧
    CF.subInt debug ⟨[0], [], false⟩ (-2 ^ (x.w - 1)) = .ok ⟨[2 ^ (x.w - 1)], [], false⟩ := by
  have hpw : (2 : Int) ^ x.w = 2 * 2 ^ (x.w - 1) := Prim.pow_split (by omega)
  have hp := Prim.two_pow_pos (x.w - 1)
  have e : ((2 ^ x.w : Nat) : Int) = 2 ^ x.w := by push_cast; rfl
  have e' : ((2 ^ (x.w - 1) : Nat) : Int) = 2 ^ (x.w - 1) := by push_cast; rfl
  constructor
  · unfold Fx.subInt
    cases hc : x.checks
    · have hn : x.neg (-2 ^ (x.w - 1)) = .ok (-2 ^ (x.w - 1)) := by
        have := Fx.ret_min hw hc
        unfold Fx.neg; rw [neg_neg]; exact this
      rw [hn]
      show x.addInt debug ⟨[0], [], false⟩ (-2 ^ (x.w - 1)) = _
      rw [Fx.addInt_eq debug rfl, Fx.shiftFirst_exact hw (by omega) (by unfold Fx.Holds; omega) _
        (fun h => by rw [hc] at h; cases h) (fun h => by
          rw [decide_eq_true (by omega)] at h; cases h)]
      have hb : Fx.bigShift false 0 (-2 ^ (x.w - 1)) = (2 ^ (x.w - 1), true) := by
        unfold Fx.bigShift
        have : (-2 ^ (x.w - 1) : Int).natAbs = 2 ^ (x.w - 1) := by omega
        rw [decide_eq_true (by omega), this]
        simp only
        rw [if_pos (by omega), Nat.sub_zero]
      show x.shiftEnd debug ⟨[0], [], false⟩ [] (Fx.bigShift false 0 (-2 ^ (x.w - 1))) = _
      rw [hb]
      unfold Fx.shiftEnd
      simp only [if_true]
      have hs : castS x.w (2 ^ (x.w - 1)) = -2 ^ (x.w - 1) := by
        unfold castS; rw [if_neg (by omega)]; omega
      rw [hs, hn]
      show x.prim.new debug [-2 ^ (x.w - 1)] [] false = _
      have hsub := Fx.sub_min hw hc
      simp [Prim.new, Prim.newLoop, Prim.newStep, Prim.applyNegate, Prim.newPush, hsub, bind, Except.bind,
        Prim.finish, Prim.cleanup, pure, Except.pure, finalSign]
      exact Fx.castU_min hw
    · rw [Fx.neg_min hc]; rfl
  · unfold CF.subInt
    rw [neg_neg, Fx.cf_addInt_eq debug rfl]
    have hb : Fx.bigShift false 0 (2 ^ (x.w - 1)) = (2 ^ (x.w - 1), false) := by
      unfold Fx.bigShift
      have : (2 ^ (x.w - 1) : Int).natAbs = 2 ^ (x.w - 1) := by omega
      rw [decide_eq_false (by omega), this]
      simp
    show Fx.bigShiftEnd debug ⟨[0], [], false⟩ [] (Fx.bigShift false 0 (2 ^ (x.w - 1))) = _
    rw [hb]
    simp [Fx.bigShiftEnd]

/-! ### C72 coefficient iterators -/

/-- **C72** `coeffs`, `generalized` and `into_coeffs` yield, in both kinds of build, what they yield over
arbitrary-precision integers at every index whose coefficient fits the signed type.  Missing: larger coefficients, where
the claim is false (`fixed_cf_coeffs_refuted`). -/
theorem fixed_cf_coeffs_partial (x : Fx) (c : CF) (n : Nat) :
    (((coeffAt c.a c.p n : Nat) : Int) < 2 ^ (x.w - 1) →
      itemAt x.signedNext n c.coeffs = .ok (itemAt SignedIter.next n c.coeffs) ∧
      itemAt x.generalNext n c.generalized = .ok (itemAt SignedIter.nextGeneral n c.generalized)) ∧
    (((coeffAt c.a (c.p.take 1) n : Nat) : Int) < 2 ^ (x.w - 1) →
      itemAt x.ownedNext n c.intoCoeffs = itemAt OwnedIter.next n c.intoCoeffs) := by
  refine ⟨fun h => ⟨?_, ?_⟩, fun h => ?_⟩
  · unfold itemAt
    rw [Fx.run_signedNext, Fx.signedNext_state, run_signed, SignedIter.next, iterState_next, Fx.signedCoeff_small _ h]
    by_cases hn : c.HasCoeff n
    · simp only [if_pos hn]; rfl
    · simp only [if_neg hn]; rfl
  · unfold itemAt
    rw [Fx.run_generalNext, Fx.generalNext_state, run_general, SignedIter.nextGeneral, iterState_next,
      Fx.signedCoeff_small _ h]
    by_cases hn : c.HasCoeff n
    · simp only [if_pos hn]; rfl
    · simp only [if_neg hn]; rfl
  · unfold itemAt
    rw [Fx.run_ownedNext, Fx.ownedNext_state, run_owned, ownState_next, Fx.signedCoeff_small _ h]
    by_cases hn : c.HasCoeff n
    · simp only [if_pos hn]; rfl
    · simp only [if_neg hn]

example : itemAt (⟨8, true⟩ : Fx).signedNext 3 (coeffs ⟨[1, 100], [127, 2], true⟩) = .ok (some (-2)) ∧
    ((coeffAt [1, 100] [127, 2] 3 : Nat) : Int) < 2 ^ (8 - 1) := by decide +kernel

/-- **C72** refuted at every other coefficient `v`, in both kinds of build: a positive fraction yields the negative number
`v - 2^w`; a negative one yields the positive number `2^w - v`, except that `v = 2^(w-1)` gives the right number in release
builds and a panic with overflow checks. -/
theorem fixed_cf_coeffs_refuted (x : Fx) (hw : 2 ≤ x.w) (c : CF) (hf : c.Fits x.w) (n : Nat) (hn : c.HasCoeff n)
    (h : (2 : Int) ^ (x.w - 1) ≤ ((coeffAt c.a c.p n : Nat) : Int)) :
    (c.neg = false → itemAt x.signedNext n c.coeffs = .ok (some (((coeffAt c.a c.p n : Nat) : Int) - 2 ^ x.w)) ∧
      ((coeffAt c.a c.p n : Nat) : Int) - 2 ^ x.w < 0) ∧
    (c.neg = true → (2 : Int) ^ (x.w - 1) < ((coeffAt c.a c.p n : Nat) : Int) →
      itemAt x.signedNext n c.coeffs = .ok (some (2 ^ x.w - ((coeffAt c.a c.p n : Nat) : Int))) ∧
      0 < 2 ^ x.w - ((coeffAt c.a c.p n : Nat) : Int)) ∧
    (c.neg = true → ((coeffAt c.a c.p n : Nat) : Int) = 2 ^ (x.w - 1) →
      itemAt x.signedNext n c.coeffs = if x.checks then .error .overflow else .ok (some (-2 ^ (x.w - 1)))) := by
  have hpw : (2 : Int) ^ x.w = 2 * 2 ^ (x.w - 1) := Prim.pow_split (by omega)
  have hp := Prim.two_pow_pos (x.w - 1)
  have e : ((2 ^ x.w : Nat) : Int) = 2 ^ x.w := by push_cast; rfl
  have hv : coeffAt c.a c.p n < 2 ^ x.w := by
    rcases Nat.lt_or_ge n c.a.length with h' | h'
    · rw [coeffAt_lt _ _ h']; exact hf _ (by simp)
    · rcases hn with hn | hn
      · exact hf _ (List.mem_append_right _ (coeffAt_mem c.a c.p hn h'))
      · omega
  have hitem : itemAt x.signedNext n c.coeffs = (x.signedCoeff c.neg (coeffAt c.a c.p n)).map some := by
    unfold itemAt
    rw [Fx.run_signedNext, Fx.signedNext_state, if_pos hn]
  rw [hitem]
  generalize coeffAt c.a c.p n = v at *
  have hs : castS x.w v = (v : Int) - 2 ^ x.w := by unfold castS; rw [if_neg (by omega)]
  unfold Fx.signedCoeff
  rw [hs]
  refine ⟨fun hneg => ?_, fun hneg hlt => ?_, fun hneg heq => ?_⟩
  · rw [hneg]; exact ⟨rfl, by omega⟩
  · rw [hneg]
    have : x.neg ((v : Int) - 2 ^ x.w) = .ok (-((v : Int) - 2 ^ x.w)) := Fx.ret_ok (by unfold Fx.Holds; omega)
    simp only [if_true]
    rw [this, neg_sub]
    exact ⟨rfl, by omega⟩
  · rw [hneg]
    simp only [if_true]
    rw [show (v : Int) - 2 ^ x.w = -2 ^ (x.w - 1) by omega]
    cases hc : x.checks
    · have hn' : x.neg (-2 ^ (x.w - 1)) = .ok (-2 ^ (x.w - 1)) := by
        have := Fx.ret_min hw hc
        unfold Fx.neg; rw [neg_neg]; exact this
      rw [hn']; rfl
    · rw [Fx.neg_min hc]; rfl

example : itemAt (⟨8, true⟩ : Fx).signedNext 1 (coeffs ⟨[1, 200], [], false⟩) = .ok (some (-56)) ∧
    itemAt (⟨8, true⟩ : Fx).signedNext 1 (coeffs ⟨[1, 200], [], true⟩) = .ok (some 56) := by decide +kernel

/-! ### C73 convergents, `to_integer`, `to_rational` -/

/-- **C73** with overflow checks every item of `convergents()`, and `nth`, is the one of the model with exact ratios
(C29) in lowest terms, or a panic; so C29 holds of the code. -/
theorem fixed_cf_conv_refines (x : Fx) (hc : x.checks = true) (c : CF) (n : Nat) :
    Refines (itemAt x.convNext n c.convergents)
      ((itemAt (ConvIter.next (.prim x.w)) n c.convergents).map fun o => o.map Rt.of) ∧
    Refines (x.convNth n c.convergents) ((ConvIter.nth (.prim x.w) n c.convergents).map fun o => o.map Rt.of) := by
  refine ⟨?_, Fx.convNth_ref hc n _⟩
  unfold itemAt
  rw [Fx.run_convNext]
  exact Fx.convNext_ref hc _

/-- **C73** a convergent is exact in both kinds of build if it fits the signed type: the earlier ones need not be
assumed to fit.  Missing: convergents that do not, where the claim is false (`fixed_cf_to_rational_refuted`). -/
theorem fixed_cf_conv_partial (x : Fx) (c : CF) (h : c.Wf) (n : Nat) (hn : c.HasCoeff n) (r : Rat)
    (hr : c.conv n = some r) (hb : (r.num.natAbs : Int) < 2 ^ (x.w - 1) ∧ (r.den : Int) < 2 ^ (x.w - 1)) :
    x.convNth n c.convergents = .ok (some (.of r)) := by
  obtain ⟨h1, h2⟩ := Fx.conv_bounds h hn hr hb
  rw [← convState_zero, Fx.convNth_exact h 0 n (by rw [Nat.zero_add]; exact hn)
    (fun i hi => by rw [Nat.zero_add]; exact h2 i hi), Nat.zero_add, h1]

example : conv ⟨[1], [2], true⟩ 4 = some (-41 / 29) ∧
    (⟨8, false⟩ : Fx).convNth 4 (convergents ⟨[1], [2], true⟩) = .ok (some ⟨-41, 29⟩) := by decide +kernel

/-- **C73** `to_rational` of a finite fraction is exact in both kinds of build if the number fits the signed type; of a
periodic one, if the convergent it returns fits. -/
theorem fixed_cf_to_rational_partial (x : Fx) (c : CF) (h : c.Wf) (r : Rat)
    (hb : (r.num.natAbs : Int) < 2 ^ (x.w - 1) ∧ (r.den : Int) < 2 ^ (x.w - 1)) :
    (c.p = [] → c.conv (c.a.length - 1) = some r → x.cfToRational c = .ok (.exact (.of r))) ∧
    (c.p ≠ [] → c.conv (c.a.length + c.p.length) = some r → x.cfToRational c = .ok (.approximated (.of r))) := by
  have hl : 0 < c.a.length := List.length_pos_iff.2 h.1
  constructor
  · intro hp hr
    have hn : c.HasCoeff (c.a.length - 1) := .inr (by omega)
    obtain ⟨h1, h2⟩ := Fx.conv_bounds h hn hr hb
    have h3 := Fx.convLast_exact (x := x) h hp (c.a.length + 1) 0 none hl (by omega) (fun i hi => h2 i (by omega))
    rw [h1, convState_zero] at h3
    unfold Fx.cfToRational CF.isRational Fx.lastConvergent
    rw [hp, h3]
    rfl
  · intro hp hr
    have h3 := fixed_cf_conv_partial x c h (c.a.length + c.p.length) (.inl hp) r hr hb
    unfold Fx.cfToRational CF.isRational
    rw [if_neg (by simpa using hp), h3]

example : (⟨8, true⟩ : Fx).cfToRational ⟨[1, 2, 3], [], true⟩ = .ok (.exact ⟨-10, 7⟩) ∧
    conv ⟨[1, 2, 3], [], true⟩ 2 = some (-10 / 7) ∧
    (⟨8, true⟩ : Fx).cfToRational ⟨[1], [2, 3], false⟩ = .ok (.approximated ⟨23, 16⟩) ∧
    conv ⟨[1], [2, 3], false⟩ 3 = some (23 / 16) := by
  refine ⟨by decide +kernel, by decide +kernel, by decide +kernel, by decide +kernel⟩

/-- **C73** refuted in both kinds of build for every width: `to_rational` of `[1; 1, 2^w - 1]` stops at the convergent
that overflows and returns the integer `2` marked as exact; the number is less than `2`. -/
theorem fixed_cf_to_rational_refuted (x : Fx) (hw : 3 ≤ x.w) :
    x.cfToRational ⟨[1, 1, 2 ^ x.w - 1], [], false⟩ = .ok (.exact ⟨2, 1⟩) ∧
    CF.Fits x.w ⟨[1, 1, 2 ^ x.w - 1], [], false⟩ ∧
    cfVal (toInts [1, 1, 2 ^ x.w - 1]) = some (2 - 1 / 2 ^ x.w) := by
  have hpw : (2 : Int) ^ x.w = 2 * 2 ^ (x.w - 1) := Prim.pow_split (by omega)
  have hp : (4 : Int) ≤ 2 ^ (x.w - 1) := by
    calc (4 : Int) = 2 ^ 2 := by norm_num
      _ ≤ 2 ^ (x.w - 1) := pow_le_pow_right₀ (by norm_num) (by omega)
  have e : ((2 ^ x.w : Nat) : Int) = 2 ^ x.w := by push_cast; rfl
  have e1 : ((2 ^ x.w - 1 : Nat) : Int) = 2 ^ x.w - 1 := by omega
  refine ⟨?_, ?_, ?_⟩
  · generalize hc : (⟨[1, 1, 2 ^ x.w - 1], [], false⟩ : CF) = c
    have hwf : c.Wf := by rw [← hc]; simp [Wf]; omega
    have h0 : c.HasCoeff 0 := .inr (by rw [← hc]; simp)
    have h1 : c.HasCoeff 1 := .inr (by rw [← hc]; simp)
    have h2 : c.HasCoeff 2 := .inr (by rw [← hc]; simp)
    have n0 : c.num 0 = 1 ∧ c.den 0 = 1 := by
      rw [← hc]; simp [num, den, trunc, truncTo, coeffAt, toInts, cfP, act]
    have n1 : c.num 1 = 2 ∧ c.den 1 = 1 := by
      rw [← hc]; simp [num, den, trunc, truncTo, coeffAt, toInts, cfP, act, List.range_succ]
    have n2 : c.num 2 = 2 * 2 ^ x.w - 1 := by
      rw [← hc]; simp [num, trunc, truncTo, coeffAt, toInts, cfP, act, List.range_succ]; omega
    have s0 := Fx.convNext_exact (x := x) hwf h0 (by omega) (by omega)
    have s1 := Fx.convNext_exact (x := x) hwf h1 (by omega) (by omega)
    have s2 := Fx.convNext_stop (x := x) hwf h2 (by omega)
    have hlast : x.convLast 4 none c.convergents = some (.ok (some (Rt.of (signed c.neg ((c.num 1 : Rat) / c.den 1))))) := by
      rw [← convState_zero, Fx.convLast, s0]
      simp only
      rw [Fx.convLast, s1]
      simp only
      rw [Fx.convLast, s2]
    unfold Fx.cfToRational CF.isRational Fx.lastConvergent
    have hl : c.a.length + 1 = 4 := by rw [← hc]; rfl
    have hpl : c.p.length = 0 := by rw [← hc]; rfl
    have hng : c.neg = false := by rw [← hc]
    rw [hl, hlast, n1.1, n1.2, hpl, hng]
    have : Rt.of (signed false (((2 : Int) : Rat) / ((1 : Int) : Rat))) = ⟨2, 1⟩ := by decide +kernel
    rw [this]
    rfl
  · intro v hv
    simp at hv
    omega
  · have h3 : ((2 ^ x.w - 1 : Nat) : Int) ≠ 0 := by omega
    have h4 : (1 : ℚ) ≤ 2 ^ x.w - 1 := by
      have : (2 : ℚ) ≤ 2 ^ x.w := by
        calc (2 : ℚ) = 2 ^ 1 := by norm_num
          _ ≤ 2 ^ x.w := pow_le_pow_right₀ (by norm_num) (by omega)
      linarith
    have e2 : (((2 ^ x.w - 1 : Nat) : Int) : ℚ) = 2 ^ x.w - 1 := by rw [e1]; push_cast; rfl
    have h5 : (1 : ℚ) + 1 / (2 ^ x.w - 1) ≠ 0 := by
      have : (0 : ℚ) < 1 / (2 ^ x.w - 1) := by positivity
      linarith
    simp only [toInts, List.map_cons, List.map_nil, cfVal, e2]
    rw [if_neg (by linarith)]
    simp only [Nat.cast_one, Int.cast_one]
    rw [if_neg h5]
    congr 1
    have : (2 : ℚ) ^ x.w - 1 ≠ 0 := by linarith
    have : (2 : ℚ) ^ x.w ≠ 0 := by positivity
    field_simp
    ring

/-- **C73** denominators equal to `2^(w-1)`: with overflow checks the conversion panics; without, the resulting ratio has
a negative denominator, which `Ratio` forbids. -/
theorem fixed_cf_conv_den_min (x : Fx) (hw : 3 ≤ x.w) :
    x.cfToRational ⟨[0, 2 ^ (x.w - 1)], [], false⟩ =
      if x.checks then .error .overflow else .ok (.exact ⟨-1, -2 ^ (x.w - 1)⟩) := by
  have hpw : (2 : Int) ^ x.w = 2 * 2 ^ (x.w - 1) := Prim.pow_split (by omega)
  have hp : (4 : Int) ≤ 2 ^ (x.w - 1) := by
    calc (4 : Int) = 2 ^ 2 := by norm_num
      _ ≤ 2 ^ (x.w - 1) := pow_le_pow_right₀ (by norm_num) (by omega)
  have e : ((2 ^ (x.w - 1) : Nat) : Int) = 2 ^ (x.w - 1) := by push_cast; rfl
  generalize hc : (⟨[0, 2 ^ (x.w - 1)], [], false⟩ : CF) = c
  have hwf : c.Wf := by rw [← hc]; simp [Wf]; omega
  have h0 : c.HasCoeff 0 := .inr (by rw [← hc]; simp)
  have h1 : c.HasCoeff 1 := .inr (by rw [← hc]; simp)
  have h2 : ¬ c.HasCoeff 2 := by rw [← hc]; simp [HasCoeff]
  have n0 : c.num 0 = 0 ∧ c.den 0 = 1 := by
    rw [← hc]; simp [num, den, trunc, truncTo, coeffAt, toInts, cfP, act]
  have n1 : c.num 1 = 1 ∧ c.den 1 = 2 ^ (x.w - 1) := by
    rw [← hc]; simp [num, den, trunc, truncTo, coeffAt, toInts, cfP, act, List.range_succ]
  have hl : c.a.length + 1 = 3 := by rw [← hc]; rfl
  have hpl : c.p.length = 0 := by rw [← hc]; rfl
  have hng : c.neg = false := by rw [← hc]
  have s0 := Fx.convNext_exact (x := x) hwf h0 (by omega) (by omega)
  have s1 := Fx.convNext_fit (x := x) hwf h1 (by omega) (by omega)
  have s2 : x.convNext (convState c 2) = (.ok none, { convState c 2 with coeffs := iterState c 3 }) := by
    unfold Fx.convNext convState
    rw [iterState_next, if_neg h2]
  have hitem : x.convItem false 1 (2 ^ (x.w - 1)) =
      if x.checks then .error .overflow else .ok ⟨-1, -2 ^ (x.w - 1)⟩ := by
    have c1 : castS x.w (1 : Int).toNat = 1 := by
      unfold castS; rw [if_pos (by show (1 : Int) < _; omega)]; rfl
    have c2 : castS x.w ((2 : Int) ^ (x.w - 1)).toNat = -2 ^ (x.w - 1) := by
      unfold castS; rw [if_neg (by omega)]; omega
    have hg : igcd 1 (-2 ^ (x.w - 1)) = 1 := by unfold igcd; rw [Int.gcd_comm, Int.gcd_one]; rfl
    have r1 : ∀ v : Int, -2 ^ (x.w - 1) ≤ v → v < 2 ^ (x.w - 1) → x.ret v = .ok v := fun v h1 h2 => Fx.ret_ok ⟨h1, h2⟩
    unfold Fx.convItem Fx.ratio
    rw [c1, c2, if_neg (by omega), if_neg (by omega), if_neg (by omega)]
    have g1 : x.gcd 1 (-2 ^ (x.w - 1)) = .ok 1 := by unfold Fx.gcd; rw [hg]; exact r1 1 (by omega) (by omega)
    have g2 : x.div 1 1 = .ok 1 := by
      rw [Fx.div_ok (by omega) (by unfold Fx.Holds; rw [Int.tdiv_one]; omega), Int.tdiv_one]
    have g3 : x.div (-2 ^ (x.w - 1)) 1 = .ok (-2 ^ (x.w - 1)) := by
      rw [Fx.div_ok (by omega) (by unfold Fx.Holds; rw [Int.tdiv_one]; omega), Int.tdiv_one]
    have g4 : x.sub 0 1 = .ok (-1) := r1 (0 - 1) (by omega) (by omega)
    simp only [g1, g2, g3, bind, Except.bind, if_pos (show (-2 ^ (x.w - 1) : Int) < 0 by omega), g4]
    cases hk : x.checks
    · have : x.sub 0 (-2 ^ (x.w - 1)) = .ok (-2 ^ (x.w - 1)) := Fx.sub_min (by omega) hk
      rw [this]; rfl
    · have : x.sub 0 (-2 ^ (x.w - 1)) = .error .overflow := by
        have := Fx.neg_min hk
        unfold Fx.sub; rw [zero_sub]; exact this
      rw [this]; rfl
  rw [n1.1, n1.2, hng, hitem] at s1
  unfold Fx.cfToRational CF.isRational Fx.lastConvergent
  rw [hl, hpl, ← convState_zero, Fx.convLast, s0]
  simp only
  rw [Fx.convLast, s1]
  cases hk : x.checks
  · simp only [Bool.false_eq_true, if_false, Except.map]
    rw [Fx.convLast, s2]
    rfl
  · rfl

/-- **C73** `to_integer` is exact in both kinds of build if the first coefficient fits the signed type. -/
theorem fixed_cf_to_integer_partial (x : Fx) (c : CF) (i : Nat) (rest : List Nat) (ha : c.a = i :: rest)
    (h : (i : Int) < 2 ^ (x.w - 1)) : x.cfToInteger c = CF.toInteger .big c := by
  unfold Fx.cfToInteger CF.toInteger
  rw [ha]
  simp only
  rw [Fx.signedCoeff_small _ h]
  show (if c.isInteger = true then _ else _) = _
  split
  · rfl
  · rfl
example : (⟨8, true⟩ : Fx).cfToInteger ⟨[127, 200], [], true⟩ = .ok (.approximated (-127)) ∧
    (⟨8, true⟩ : Fx).cfToInteger ⟨[128, 200], [], false⟩ ≠ CF.toInteger .big ⟨[128, 200], [], false⟩ := by decide +kernel

/-- **C73** otherwise refuted in both kinds of build: the integer `2^w - 1` becomes `-1`, marked as exact. -/
theorem fixed_cf_to_integer_refuted (x : Fx) (hw : 2 ≤ x.w) :
    x.cfToInteger ⟨[2 ^ x.w - 1], [], false⟩ = .ok (.exact (-1)) ∧
    CF.toInteger .big ⟨[2 ^ x.w - 1], [], false⟩ = .ok (.exact (2 ^ x.w - 1)) := by
  have hpw : (2 : Int) ^ x.w = 2 * 2 ^ (x.w - 1) := Prim.pow_split (by omega)
  have hp := Prim.two_pow_pos (x.w - 1)
  have e : ((2 ^ x.w : Nat) : Int) = 2 ^ x.w := by push_cast; rfl
  have e1 : ((2 ^ x.w - 1 : Nat) : Int) = 2 ^ x.w - 1 := by omega
  constructor
  · have : castS x.w (2 ^ x.w - 1) = -1 := by unfold castS; rw [if_neg (by omega)]; omega
    unfold Fx.cfToInteger Fx.signedCoeff
    simp only [Bool.false_eq_true, if_false]
    rw [this]
    rfl
  · unfold CF.toInteger
    simp only [Bool.false_eq_true, if_false]
    show (if _ then _ else _) = _
    rw [if_pos (by simp [CF.isInteger])]
    show Except.ok (Approx.exact ((2 ^ x.w - 1 : Nat) : Int)) = _
    rw [e1]

end NumIrr
