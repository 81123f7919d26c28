/-
C137: the powers of the golden ratio and its convergents are made of Fibonacci numbers, in every representation of it, and
how far each of them goes over a primitive integer.
-/
import Verif.Props.PellPow
import Verif.Props.CFConvExact
import Verif.Props.StoredForm
import Verif.Lemmas.Formula
import Verif.Lemmas.FixedCFIter
import Verif.Model.FixedQInt
import Mathlib.Data.Nat.Fib.Basic

namespace NumIrr

/-- `x`, `x * x`, `x * x * x`, … for quadratic integers -/
def QInt.powers (cfg : Cfg) (x : QInt) : ℕ → Res QInt
  | 0 => pure x
  | k + 1 => do QInt.mul cfg (← QInt.powers cfg x k) x

/-- the same over primitive integers -/
def Fx.qPowers (x : Fx) (cfg : Cfg) (u : QInt) : ℕ → Res QInt
  | 0 => pure u
  | k + 1 => do x.qMul cfg (← Fx.qPowers x cfg u k) u

/-! ### quadratic integers -/

private theorem fib_succ_ne (k : ℕ) : (Nat.fib (k + 1) : ℤ) ≠ 0 := by
  have := Nat.fib_pos.2 (Nat.succ_pos k)
  have : 0 < Nat.fib (k + 1) := this
  omega

/-- **C137** the `(k+1)`-th power of `ω = (1+√5)/2` is `F(k) + F(k+1)ω`. -/
theorem qint_fib (cfg : Cfg) (k : ℕ) :
    QInt.powers cfg ⟨0, 1, 5⟩ k = .ok ⟨Nat.fib k, Nat.fib (k + 1), 5⟩ := by
  induction k with
  | zero => rfl
  | succ k ih =>
    have hb := fib_succ_ne k
    have h5 : isqrt 5 = 2 := by decide +kernel
    have hm : mod4d2 5 = 0 := by decide +kernel
    have hf : (Nat.fib (k + 2) : ℤ) = Nat.fib k + Nat.fib (k + 1) := by rw [Nat.fib_add_two]; push_cast; ring
    have hb2 := fib_succ_ne (k + 1)
    have e1 : QInt.reduceBinOpUnwrap cfg ⟨Nat.fib k, Nat.fib (k + 1), 5⟩ ⟨0, 1, 5⟩ =
        .ok (⟨Nat.fib k, Nat.fib (k + 1), 5⟩, ⟨0, 1, 5⟩) := by
      unfold QInt.reduceBinOpUnwrap QInt.reduceBinOp
      obtain ⟨c, d⟩ := cfg
      cases c <;> simp <;> rfl
    unfold QInt.powers
    rw [ih]
    rw [Surd.ok_bind]
    unfold QInt.mul
    rw [if_neg (by simp [QInt.isRational]), if_neg (by simp [QInt.isRational]), e1]
    show (do let c ← QCoeffs.mul _ _ 5; QInt.fromCoeffs cfg c 5) = _
    have e2 : QCoeffs.mul (QInt.coeffs ⟨Nat.fib k, Nat.fib (k + 1), 5⟩) (QInt.coeffs ⟨0, 1, 5⟩) 5 =
        .ok ⟨Nat.fib (k + 1), Nat.fib (k + 2)⟩ := by
      unfold QCoeffs.mul
      rw [hm]
      simp [QInt.coeffs, hf]
    rw [e2]
    show QInt.fromCoeffs cfg _ 5 = _
    rw [QInt.fromCoeffs_eq (by omega) (by omega) (by decide +kernel)]
    rw [if_neg hb2]

example : QInt.powers ⟨false, true⟩ ⟨0, 1, 5⟩ 11 = .ok ⟨89, 144, 5⟩ := by decide +kernel

/-! ### surds -/

private theorem sqf5 : Squarefree (5 : ℤ) := (Int.prime_iff_natAbs_prime.2 (by show Nat.Prime 5; decide)).squarefree

private theorem phi_ok (cfg : Cfg) : (Surd.mk 1 1 2 5).Ok cfg := by
  have : (Surd.mk 1 1 2 5).RealOk := by decide +kernel
  exact this.toOk cfg

private theorem powers_val (cfg : Cfg) (k : ℕ) : ∃ s, Surd.powers cfg ⟨1, 1, 2, 5⟩ k = .ok s ∧ s.Ok cfg ∧ Surd.InF 5 s ∧
    s.valC = quadC (2 * Nat.fib (k + 2) - Nat.fib (k + 1)) (Nat.fib (k + 1)) 2 5 := by
  induction k with
  | zero => exact ⟨_, rfl, phi_ok cfg, .inr rfl, by simp [Surd.valC]⟩
  | succ k ih =>
    obtain ⟨s, h1, h2, h3, h4⟩ := ih
    have hphi : Surd.InF 5 ⟨1, 1, 2, 5⟩ := .inr rfl
    have hc := h3.compat hphi
    obtain ⟨z, hz, -, -⟩ := (Surd.mul_spec h2 (phi_ok cfg)).1 (by tauto)
    obtain ⟨h5, h6⟩ := surd_mul_value_partial cfg s _ z h2 (phi_ok cfg) (by simp) hz
    refine ⟨z, ?_, h6, Surd.mul_root sqf5 h3 hphi hz, ?_⟩
    · unfold Surd.powers
      rw [h1]
      exact hz
    · rw [h5, h4]
      have hr := rootC_mul_self 5
      have hf : (Nat.fib (k + 1 + 2) : ℂ) = Nat.fib (k + 1) + Nat.fib (k + 2) := by
        rw [Nat.fib_add_two]; push_cast; ring
      simp only [Surd.valC, quadC]
      push_cast
      rw [hf]
      push_cast at hr
      linear_combination ((Nat.fib (k + 1) : ℂ) / 4) * hr

/-- **C137** the `(k+1)`-th power of the surd `(1+√5)/2` is stored as `(L + F√5)/2` in lowest terms, with
`F = F(k+1)` and the Lucas number `L = 2F(k+2) − F(k+1)`. -/
theorem surd_fib (cfg : Cfg) (k : ℕ) :
    Surd.powers cfg ⟨1, 1, 2, 5⟩ k = Surd.new cfg (2 * Nat.fib (k + 2) - Nat.fib (k + 1)) (Nat.fib (k + 1)) 2 5 := by
  obtain ⟨s, h1, h2, h3, h4⟩ := powers_val cfg k
  obtain ⟨t, e, h5, h6, -, -⟩ := Surd.new_spec (cfg := cfg) (a := 2 * Nat.fib (k + 2) - Nat.fib (k + 1))
    (b := Nat.fib (k + 1)) (c := 2) (r := 5) (by omega) (by omega)
  have h7 := Surd.new_root sqf5 (.inr (.inl rfl)) e
  rw [h1, e]
  congr 1
  refine Surd.stored_unique s t h2.toNormal h6.toNormal (.inr ⟨?_, ?_⟩) (by rw [h4, h5])
  · rcases h3 with h | h
    · exact .inl h
    · exact .inr (h ▸ sqf5)
  · rcases h7 with h | h
    · exact .inl h
    · exact .inr (h ▸ sqf5)

example : Surd.powers ⟨false, true⟩ ⟨1, 1, 2, 5⟩ 11 = .ok ⟨161, 72, 1, 5⟩ ∧
    Surd.powers ⟨false, true⟩ ⟨1, 1, 2, 5⟩ 9 = .ok ⟨123, 55, 2, 5⟩ := by decide +kernel

/-! ### convergents -/

private theorem golden_wf : CF.Wf ⟨[1], [1], false⟩ := by simp [CF.Wf]
private theorem golden_has (m : ℕ) : CF.HasCoeff ⟨[1], [1], false⟩ m := .inl (by simp)
private theorem golden_coeff (m : ℕ) : coeffAt [1] [1] m = 1 := by
  unfold coeffAt
  split
  · rename_i h
    have : m = 0 := by simpa using h
    subst this; rfl
  · simp [Nat.mod_one]

private theorem golden_block (m : ℕ) : CF.blockOf (CF.trunc ⟨[1], [1], false⟩ (m + 1)) =
    ⟨Nat.fib (m + 2), Nat.fib (m + 1), Nat.fib (m + 1), Nat.fib m⟩ := by
  induction m with
  | zero => decide +kernel
  | succ m ih =>
    rw [CF.block_succ, CF.num_eq, CF.den_eq, ih]
    simp only [golden_coeff, Block.update]
    rw [Nat.fib_add_two (n := m + 1), Nat.fib_add_two (n := m)]
    push_cast
    simp only [Block.mk.injEq]
    refine ⟨by ring, trivial, by ring, trivial⟩

private theorem golden_num (m : ℕ) : CF.num ⟨[1], [1], false⟩ m = Nat.fib (m + 2) ∧
    CF.den ⟨[1], [1], false⟩ m = Nat.fib (m + 1) := by
  have h1 := CF.block_succ ⟨[1], [1], false⟩ m
  rw [golden_block] at h1
  exact ⟨(congrArg Block.pm1 h1).symm, (congrArg Block.qm1 h1).symm⟩

private theorem golden_conv (m : ℕ) : ∃ r : ℚ, CF.conv ⟨[1], [1], false⟩ m = some r ∧ r = (Nat.fib (m + 2) : ℚ) / Nat.fib (m + 1) ∧
    r.num = Nat.fib (m + 2) ∧ r.den = Nat.fib (m + 1) := by
  obtain ⟨q, h1, h2, h3, h4⟩ := Fx.conv_fields golden_wf (golden_has m)
  obtain ⟨e1, e2⟩ := golden_num m
  rw [e1, e2] at h2
  rw [e2] at h3
  rw [e1] at h4
  refine ⟨q, by simpa [signed] using h1, by rw [h2]; push_cast; rfl, h4, by exact_mod_cast h3⟩

/-- **C137** the convergents of the golden ratio are the ratios of consecutive Fibonacci numbers. -/
theorem cf_fib (n : ℕ) : CF.ConvIter.nth .big n (CF.convergents ⟨[1], [1], false⟩) =
    .ok (some ((Nat.fib (n + 2) : ℚ) / Nat.fib (n + 1))) := by
  obtain ⟨r, h1, h2, -, -⟩ := golden_conv n
  rw [CF.cf_convergents_nth _ golden_wf, if_pos (golden_has n), h1, h2]

example : CF.ConvIter.nth .big 5 (CF.convergents ⟨[1], [1], false⟩) = .ok (some (13 / 8)) := by decide +kernel

/-- **C137** over a primitive type of `w` bits an item is right exactly while its numerator fits the signed type. -/
theorem cf_fib_prim (w n : ℕ) (hw : 2 ≤ w) :
    CF.ConvIter.nth (.prim w) n (CF.convergents ⟨[1], [1], false⟩) = .ok (some ((Nat.fib (n + 2) : ℚ) / Nat.fib (n + 1))) ↔
      Nat.fib (n + 2) < 2 ^ (w - 1) := by
  obtain ⟨r, h1, h2, h3, h4⟩ := golden_conv n
  have hmono : ∀ i ≤ n, Nat.fib (i + 2) ≤ Nat.fib (n + 2) := fun i hi => Nat.fib_mono (by omega)
  have hle : ∀ i, Nat.fib (i + 1) ≤ Nat.fib (i + 2) := fun i => Nat.fib_mono (by omega)
  by_cases hfit : Nat.fib (n + 2) < 2 ^ w
  · have hfit' : (Nat.fib (n + 2) : ℤ) < 2 ^ w := by exact_mod_cast hfit
    have key := CF.cf_conv_prim_right_iff _ golden_wf w n hw r h1 (by
      intro i hi q hq
      obtain ⟨r', k1, -, k3, k4⟩ := golden_conv i
      rw [k1] at hq
      cases hq
      rw [k3, k4]
      have a1 := hmono i hi
      have a2 := hle i
      simp only [Int.natAbs_natCast]
      omega) (golden_has n)
    rw [← h2, key, h3, h4]
    simp only [Int.natAbs_natCast]
    have a2 := hle n
    constructor
    · intro h; exact_mod_cast h.1
    · intro h
      have : (Nat.fib (n + 2) : ℤ) < 2 ^ (w - 1) := by exact_mod_cast h
      exact ⟨this, by omega⟩
  · have hpow : 2 ^ (w - 1) ≤ 2 ^ w := Nat.pow_le_pow_right (by omega) (by omega)
    have hstop := CF.cf_conv_prim_stops _ golden_wf w n (.inr ⟨n, le_rfl, r, h1, .inl (by
      rw [h3]
      simp only [Int.natAbs_natCast]
      exact_mod_cast not_lt.1 hfit)⟩)
    rw [hstop]
    constructor
    · intro h; cases h
    · intro h; omega

/-- **C137** and there are no more items once the numerator does not fit the unsigned type; in between wrong items are
returned. -/
theorem cf_fib_prim_stops (w n : ℕ) (hn : 2 ^ w ≤ Nat.fib (n + 2)) :
    CF.ConvIter.nth (.prim w) n (CF.convergents ⟨[1], [1], false⟩) = .ok none := by
  obtain ⟨r, h1, h2, h3, h4⟩ := golden_conv n
  refine CF.cf_conv_prim_stops _ golden_wf w n (.inr ⟨n, le_rfl, r, h1, .inl ?_⟩)
  rw [h3]
  simp only [Int.natAbs_natCast]
  exact_mod_cast hn

/-- **C137** refuted: over `i8` the twelfth convergent of the golden ratio comes out as a wrong fraction. -/
theorem cf_fib_prim_refuted : CF.ConvIter.nth (.prim 8) 11 (CF.convergents ⟨[1], [1], false⟩) ≠
    .ok (some ((Nat.fib 13 : ℚ) / Nat.fib 12)) ∧
    CF.ConvIter.nth (.prim 8) 11 (CF.convergents ⟨[1], [1], false⟩) ≠ .ok none := by
  constructor
  · rw [Ne, cf_fib_prim 8 11 (by omega)]
    decide +kernel
  · decide +kernel

/-! ### powers over primitive integers -/

private theorem Fx.ret_fit {x : Fx} {v : ℤ} (h0 : 0 ≤ v) (h1 : v < 2 ^ (x.w - 1)) : x.ret v = .ok v := by
  unfold Fx.ret
  rw [if_pos]
  unfold Fx.fits
  simp only [IntTy.signed, decide_eq_true_eq, Bool.and_eq_true]
  constructor <;> omega

private theorem Fx.ret_over {x : Fx} (hc : x.checks = true) {v : ℤ} (h1 : 2 ^ (x.w - 1) ≤ v) : x.ret v = .error .overflow := by
  unfold Fx.ret
  rw [if_neg, if_pos hc]
  unfold Fx.fits
  simp only [IntTy.signed, decide_eq_true_eq, Bool.and_eq_true]
  omega

/-- **C137** over a primitive type with overflow checks the powers of `ω` are right as long as their second coefficient
fits, and the next multiplication reports the overflow. -/
theorem fixed_qint_fib (x : Fx) (hc : x.checks = true) (hw : 4 ≤ x.w) (cfg : Cfg) (k : ℕ) :
    x.qPowers cfg ⟨0, 1, 5⟩ k = if Nat.fib (k + 1) < 2 ^ (x.w - 1) then .ok ⟨Nat.fib k, Nat.fib (k + 1), 5⟩
      else .error .overflow := by
  have h8 : (8 : ℤ) ≤ 2 ^ (x.w - 1) := by
    calc (8 : ℤ) = 2 ^ 3 := by norm_num
      _ ≤ 2 ^ (x.w - 1) := pow_le_pow_right₀ (by norm_num) (by omega)
  have hcast : ∀ n : ℕ, n < 2 ^ (x.w - 1) ↔ (n : ℤ) < 2 ^ (x.w - 1) := fun n => by
    constructor <;> intro h <;> exact_mod_cast h
  induction k with
  | zero =>
    rw [if_pos ((hcast _).2 (by simp; omega))]
    rfl
  | succ k ih =>
    unfold Fx.qPowers
    rw [ih]
    have hle : Nat.fib (k + 1) ≤ Nat.fib (k + 2) := Nat.fib_mono (by omega)
    have hle' : Nat.fib k ≤ Nat.fib (k + 2) := Nat.fib_mono (by omega)
    have hle'' : Nat.fib k ≤ Nat.fib (k + 1) := Nat.fib_mono (by omega)
    split
    · next hk =>
      have hk' := (hcast _).1 hk
      have hb := fib_succ_ne k
      have hb2 := fib_succ_ne (k + 1)
      have h5 : sqrtR 5 = .ok 2 := by decide +kernel
      have hm : mod4d2 5 = 0 := by decide +kernel
      have hf : (Nat.fib (k + 2) : ℤ) = Nat.fib k + Nat.fib (k + 1) := by rw [Nat.fib_add_two]; push_cast; ring
      have ret5 : x.ret 5 = .ok 5 := Fx.ret_fit (by omega) (by omega)
      have ret4 : x.ret 4 = .ok 4 := Fx.ret_fit (by omega) (by omega)
      have ret1 : x.ret 1 = .ok 1 := Fx.ret_fit (by omega) (by omega)
      have ret0 : x.ret 0 = .ok 0 := Fx.ret_fit (by omega) (by omega)
      have retk : x.ret (Nat.fib k) = .ok (Nat.fib k : ℤ) := Fx.ret_fit (by omega) (by omega)
      have retk1 : x.ret (Nat.fib (k + 1)) = .ok (Nat.fib (k + 1) : ℤ) := Fx.ret_fit (by omega) (by omega)
      have e1 : x.qReduceBinOpUnwrap cfg ⟨Nat.fib k, Nat.fib (k + 1), 5⟩ ⟨0, 1, 5⟩ =
          .ok (⟨Nat.fib k, Nat.fib (k + 1), 5⟩, ⟨0, 1, 5⟩) := by
        unfold Fx.qReduceBinOpUnwrap Fx.qReduceBinOp
        obtain ⟨c, d⟩ := cfg
        cases c <;> simp [Fx.abs, ret5, Fx.qMatch] <;> rfl
      have ret1' : x.fits 1 = true := by
        by_contra h
        unfold Fx.ret at ret1
        rw [if_neg h, if_pos hc] at ret1
        cases ret1
      have ediv : x.div 4 4 = .ok 1 := by
        simp [Fx.div]
        exact ret1'
      have e2 : x.qcMul (QInt.coeffs ⟨Nat.fib k, Nat.fib (k + 1), 5⟩) (QInt.coeffs ⟨0, 1, 5⟩) 5 =
          (do let b ← x.ret (Nat.fib (k + 2)); return ⟨Nat.fib (k + 1), b⟩) := by
        unfold Fx.qcMul
        rw [hm]
        simp only [QInt.coeffs, Fx.mul, Fx.add, Fx.sub, mul_zero, mul_one, zero_add, ret0, retk, retk1, Surd.ok_bind, ret1,
          show (5 : ℤ) - 1 = 4 by norm_num, ret4, ediv, ← hf]
      rw [Surd.ok_bind]
      unfold Fx.qMul
      rw [if_neg (by simp [QInt.isRational]), if_neg (by simp [QInt.isRational]), e1]
      show (do let c ← x.qcMul _ _ 5; x.qFromCoeffs cfg c 5) = _
      rw [e2]
      by_cases hk2 : Nat.fib (k + 2) < 2 ^ (x.w - 1)
      · rw [if_pos hk2, Fx.ret_fit (by omega) ((hcast _).1 hk2)]
        show x.qFromCoeffs cfg _ 5 = _
        unfold Fx.qFromCoeffs
        rw [if_neg (by omega), if_neg (by decide)]
        have e3 : x.qSquare ⟨Nat.fib (k + 1), Nat.fib (k + 2)⟩ 5 = .ok (Nat.fib (k + 1), Nat.fib (k + 2), 5) := by
          unfold Fx.qSquare
          have : x.abs 5 = .ok 5 := by simp [Fx.abs, ret5]
          rw [this, Surd.ok_bind, h5, Surd.ok_bind, Fx.mul, show (2 : ℤ) * 2 = 4 by norm_num, ret4, Surd.ok_bind, if_neg (by omega)]
          rfl
        rw [e3, Surd.ok_bind, if_neg (by simp)]
        rfl
      · rw [if_neg hk2, Fx.ret_over hc (by rw [hcast] at hk2; omega)]
        rfl
    · next hk =>
      rw [if_neg (by show ¬ Nat.fib (k + 2) < _; omega)]
      rfl

/-- over `i8` up to the eleventh power, over `i64` up to the ninety-second -/
example : Fx.qPowers ⟨8, true⟩ ⟨false, true⟩ ⟨0, 1, 5⟩ 10 = .ok ⟨55, 89, 5⟩ ∧
    Fx.qPowers ⟨8, true⟩ ⟨false, true⟩ ⟨0, 1, 5⟩ 11 = .error .overflow ∧
    (Fx.qPowers ⟨64, true⟩ ⟨false, true⟩ ⟨0, 1, 5⟩ 91).isOk = true ∧
    Fx.qPowers ⟨64, true⟩ ⟨false, true⟩ ⟨0, 1, 5⟩ 92 = .error .overflow := by decide +kernel

end NumIrr
