/-
C119: commutativity of `+` and `*` for quadratic and Gaussian integers over the primitive integers, panics included.
-/
import Verif.Lemmas.FixedQComm

namespace NumIrr
open Fx
open Surd (ok_bind)

variable {x : Fx}

private theorem rat_eq {u : QInt} (h : u.isRational = true) (hd : u.b = 0 → u.d = 0) : u = ⟨u.a, 0, 0⟩ := by
  have hb : u.b = 0 := by simpa [QInt.isRational] using h
  obtain ⟨a, b, d⟩ := u
  simp only at hb hd
  subst hb
  rw [hd rfl]

/-- `x + y` and `y + x` are the same run in every build: the same fields, or the same panic. -/
theorem fixed_qint_add_comm (x : Fx) (cfg : Cfg) (u v : QInt) (hu : u.b = 0 → u.d = 0) (hv : v.b = 0 → v.d = 0) :
    x.qAdd cfg u v = x.qAdd cfg v u := by
  unfold qAdd
  by_cases h1 : v.isRational = true <;> by_cases h2 : u.isRational = true
  · rw [if_pos h1, if_pos h2, rat_eq h1 hv, rat_eq h2 hu]
    unfold qAddInt qcAddInt
    simp only [QInt.coeffs]
    rw [add_swap]
  · rw [if_pos h1, if_neg h2, if_pos h1]
  · rw [if_neg h1, if_pos h2, if_pos h2]
  · rw [if_neg h1, if_neg h2, if_neg h2, if_neg h1, qReduceBinOpUnwrap_swap cfg u v]
    cases e : x.qReduceBinOpUnwrap cfg u v with
    | error e => rfl
    | ok p =>
      show (x.qcAdd p.1.coeffs p.2.coeffs >>= fun c => x.qFromCoeffs cfg c p.2.d) =
        (x.qcAdd p.2.coeffs p.1.coeffs >>= fun c => x.qFromCoeffs cfg c p.1.d)
      rw [qcAdd_swap, (qReduceBinOpUnwrap_root cfg u v e).1]

private theorem mul_of (cfg : Cfg) {u v : QInt} (hu : u.b = 0 → u.d = 0) (hv : v.b = 0 → v.d = 0)
    (h : ∀ d, (d = u.d ∨ d = v.d) → ∀ p q, x.qcMul p q d = x.qcMul q p d) :
    x.qMul cfg u v = x.qMul cfg v u := by
  unfold qMul
  by_cases h1 : v.isRational = true <;> by_cases h2 : u.isRational = true
  · rw [if_pos h1, if_pos h2, rat_eq h1 hv, rat_eq h2 hu]
    have zz : x.ret 0 = .ok 0 := ret_ok (holds_zero x)
    unfold qMulInt qcMulInt Fx.mul
    simp only [QInt.coeffs, zero_mul, zz, ok_bind]
    by_cases a1 : v.a = 0 <;> by_cases a2 : u.a = 0
    · rw [if_pos a1, if_pos a2]
    · rw [if_pos a1, if_neg a2, a1, zero_mul, zz]; rfl
    · rw [if_neg a1, if_pos a2, a2, zero_mul, zz]; rfl
    · rw [if_neg a1, if_neg a2, mul_comm]
  · rw [if_pos h1, if_neg h2, if_pos h1]
  · rw [if_neg h1, if_pos h2, if_pos h2]
  · rw [if_neg h1, if_neg h2, if_neg h2, if_neg h1, qReduceBinOpUnwrap_swap cfg u v]
    cases e : x.qReduceBinOpUnwrap cfg u v with
    | error e => rfl
    | ok p =>
      obtain ⟨k1, k2⟩ := qReduceBinOpUnwrap_root cfg u v e
      show (x.qcMul p.1.coeffs p.2.coeffs p.1.d >>= fun c => x.qFromCoeffs cfg c p.2.d) =
        (x.qcMul p.2.coeffs p.1.coeffs p.2.d >>= fun c => x.qFromCoeffs cfg c p.1.d)
      rw [h p.1.d (by
        rcases k2 with k2 | k2
        · exact .inl (by rw [k2])
        · exact .inr (by rw [k1, k2])), k1]

/-- `x * y` and `y * x` are the same run without overflow checks, for all discriminants. -/
theorem fixed_qint_mul_comm (x : Fx) (hw : 3 ≤ x.w) (hx : x.checks = false) (cfg : Cfg) (u v : QInt)
    (hu : u.b = 0 → u.d = 0) (hv : v.b = 0 → v.d = 0) (hdu : x.Holds u.d) (hdv : x.Holds v.d) :
    x.qMul cfg u v = x.qMul cfg v u :=
  mul_of cfg hu hv fun d hd p q => qcMul_swap_wr hw hx p q (by rcases hd with h | h <;> rw [h] <;> assumption)

/-- C119, restricted: in every build, `x * y` and `y * x` are the same run when the discriminants are not 1 modulo 4.
(Missing from the full claim: those discriminants in builds with overflow checks, see `fixed_qint_mul_comm_refuted`.) -/
theorem fixed_qint_mul_comm_partial (x : Fx) (cfg : Cfg) (u v : QInt)
    (hu : u.b = 0 → u.d = 0) (hv : v.b = 0 → v.d = 0) (hdu : u.d % 4 ≠ 1) (hdv : v.d % 4 ≠ 1) :
    x.qMul cfg u v = x.qMul cfg v u :=
  mul_of cfg hu hv fun d hd p q => qcMul_swap p q fun h => by
    have := mod4d2_zero h
    rcases hd with h | h <;> omega

/-- With overflow checks the order of the factors decides about the panic, in every type: with `M` the largest integer and
`w = (1+√5)/2`, the product `(-1 + w)·(M + Mw)` panics and `(M + Mw)·(-1 + w)` returns `Mw`. -/
theorem fixed_qint_mul_comm_refuted (x : Fx) (hw : 4 ≤ x.w) (hx : x.checks = true) (cfg : Cfg) :
    let M : Int := 2 ^ (x.w - 1) - 1
    (QInt.mk (-1) 1 5).Ok cfg ∧ (QInt.mk M M 5).Ok cfg ∧ x.HoldsQ ⟨-1, 1, 5⟩ ∧ x.HoldsQ ⟨M, M, 5⟩ ∧
    x.qMul cfg ⟨-1, 1, 5⟩ ⟨M, M, 5⟩ = .error .overflow ∧
    x.qMul cfg ⟨M, M, 5⟩ ⟨-1, 1, 5⟩ = .ok ⟨0, M, 5⟩ := by
  intro M
  have hM : (2 : Int) ^ (x.w - 1) = M + 1 := by show _ = (2 ^ (x.w - 1) - 1) + 1; ring
  have hM7 : 7 ≤ M := by
    have : (2 : Int) ^ 3 ≤ 2 ^ (x.w - 1) := pow_le_pow_right₀ (by norm_num) (by omega)
    omega
  have hold : ∀ n : Int, -M ≤ n → n ≤ M → x.Holds n := fun n h1 h2 => ⟨by omega, by omega⟩
  have ret : ∀ v n : Int, v = n → -M ≤ n → n ≤ M → x.ret v = .ok n := fun v n e h1 h2 => by
    rw [e]; exact ret_ok (hold n h1 h2)
  have h5 : ¬ IsSquare (5 : Int) := by
    rintro ⟨r, hr⟩
    have : r < 3 := by nlinarith
    have : -3 < r := by nlinarith
    interval_cases r <;> omega
  have ok : ∀ a b : Int, (QInt.mk a b 5).Ok cfg := fun a b =>
    ⟨fun h => absurd h (show ¬ (5 : Int) = 0 by decide), fun _ => show (5 : Int) % 4 ≠ 0 by decide, fun _ => h5,
      fun _ => show (0 : Int) ≤ 5 by decide⟩
  have H5 : x.Holds 5 := hold 5 (by omega) (by omega)
  have t3 : x.sub 5 1 = .ok 4 := ret _ _ (by ring) (by omega) (by omega)
  have t4 : x.div 4 4 = .ok 1 := by
    rw [div_ok (by decide) (show x.Holds (Int.tdiv 4 4) from hold 1 (by omega) (by omega))]; rfl
  have m5 : mod4d2 5 = 0 := by decide
  have irr : ∀ a b : Int, b ≠ 0 → ¬ (QInt.mk a b 5).isRational = true := fun a b h => by
    simpa [QInt.isRational] using h
  have red : ∀ u v : QInt, u.d = 5 → v.d = 5 → x.qReduceBinOpUnwrap cfg u v = .ok (u, v) := fun u v h1 h2 =>
    (qReduceBinOpUnwrap_same (by omega) cfg u v (by rw [h2]; exact H5) (by rw [h1, h2]) (by rw [h2]; decide)).1
  refine ⟨ok _ _, ok _ _, ⟨hold (-1) (by omega) (by omega), hold 1 (by omega) (by omega), H5⟩,
    ⟨hold M (by omega) (by omega), hold M (by omega) (by omega), H5⟩, ?_, ?_⟩
  · unfold qMul
    rw [if_neg (irr _ _ (by omega)), if_neg (irr _ _ (by decide)), red _ _ rfl rfl]
    show (x.qcMul ⟨-1, 1⟩ ⟨M, M⟩ 5 >>= fun c => x.qFromCoeffs cfg c 5) = _
    unfold qcMul
    rw [m5]
    have e7 : x.add M M = .error .overflow := by
      unfold Fx.add Fx.ret
      rw [if_neg (fun h => by have := (fits_holds h).2; omega), hx]; rfl
    simp only [t3, t4, ok_bind, show x.mul (-1) M = .ok (-M) from ret _ _ (by ring) (by omega) (by omega),
      show x.mul 1 M = .ok M from ret _ _ (by ring) (by omega) (by omega),
      show x.mul M 1 = .ok M from ret _ _ (by ring) (by omega) (by omega),
      show x.add (-M) M = .ok 0 from ret _ _ (by ring) (by omega) (by omega), e7]
    rfl
  · unfold qMul
    rw [if_neg (irr _ _ (by decide)), if_neg (irr _ _ (by omega)), red _ _ rfl rfl]
    show (x.qcMul ⟨M, M⟩ ⟨-1, 1⟩ 5 >>= fun c => x.qFromCoeffs cfg c 5) = _
    unfold qcMul
    rw [m5]
    simp only [t3, t4, ok_bind, show x.mul M (-1) = .ok (-M) from ret _ _ (by ring) (by omega) (by omega),
      show x.mul M 1 = .ok M from ret _ _ (by ring) (by omega) (by omega),
      show x.mul M 0 = .ok 0 from ret _ _ (by ring) (by omega) (by omega),
      show x.add (-1) 1 = .ok 0 from ret _ _ (by ring) (by omega) (by omega),
      show x.add M 0 = .ok M from ret _ _ (by ring) (by omega) (by omega),
      show x.add (-M) M = .ok 0 from ret _ _ (by ring) (by omega) (by omega)]
    show x.qFromCoeffs cfg ⟨0, M⟩ 5 = _
    rw [qFromCoeffs_ok (by omega) cfg _ H5 (by decide) h5 (fun _ => by decide), if_neg (by show M ≠ 0; omega)]

/-- in `i8`, `(-1 + w)·(127 + 127w)` -/
example : (Fx.mk 8 true).qMul ⟨false, true⟩ ⟨-1, 1, 5⟩ ⟨127, 127, 5⟩ = .error .overflow ∧
    (Fx.mk 8 false).qMul ⟨false, true⟩ ⟨-1, 1, 5⟩ ⟨127, 127, 5⟩ = .ok ⟨0, 127, 5⟩ ∧
    (Fx.mk 8 true).qMul ⟨false, true⟩ ⟨1, 1, 18⟩ ⟨5, 2, 2⟩ = (Fx.mk 8 true).qMul ⟨false, true⟩ ⟨5, 2, 2⟩ ⟨1, 1, 18⟩ ∧
    (Fx.mk 8 true).qMul ⟨false, true⟩ ⟨1, 1, 18⟩ ⟨5, 2, 2⟩ = .ok ⟨17, 17, 2⟩ := by decide +kernel

/-- Sums and products of Gaussian integers are the same run in both orders in every build. -/
theorem fixed_gint_comm (x : Fx) (hw : 2 ≤ x.w) (u v : GInt) :
    x.gAdd u v = x.gAdd v u ∧ x.gMul u v = x.gMul v u := by
  constructor
  · unfold gAdd; rw [qcAdd_swap]
  · unfold gMul
    have : x.neg 1 = .ok (-1) := ret_ok ⟨by
      have : (2 : Int) ^ 1 ≤ 2 ^ (x.w - 1) := pow_le_pow_right₀ (by norm_num) (by omega)
      omega, by
      have : (2 : Int) ^ 1 ≤ 2 ^ (x.w - 1) := pow_le_pow_right₀ (by norm_num) (by omega)
      omega⟩
    rw [this]
    simp only [ok_bind]
    rw [qcMul_swap _ _ (by decide)]

example : (Fx.mk 8 true).gMul ⟨100, 1⟩ ⟨1, 2⟩ = .error .overflow ∧ (Fx.mk 8 true).gMul ⟨1, 2⟩ ⟨100, 1⟩ = .error .overflow ∧
    (Fx.mk 8 true).gMul ⟨10, 1⟩ ⟨1, 2⟩ = .ok ⟨8, 21⟩ := by decide +kernel

end NumIrr
