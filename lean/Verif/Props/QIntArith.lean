/-
C50 (ring operations), C51 (division), C52 (Euclidean property) of quadratic integers.
-/
import Verif.Props.QIntNew

namespace NumIrr
open QInt

/-! ### C50 -/

/-- **C50** negation and the operations with an integer operand are exact, and total. -/
theorem qint_int_ops (x : QInt) (k : ℤ) :
    x.neg.valC = -x.valC ∧ (x.addInt k).valC = x.valC + k ∧ (x.subInt k).valC = x.valC - k ∧
      (x.mulInt k).valC = x.valC * k := by
  refine ⟨?_, ?_, ?_, ?_⟩
  · simp only [QInt.neg, valC]; push_cast; ring
  · simp only [QInt.addInt, QCoeffs.addInt, mk', coeffs, valC]; push_cast; ring
  · simp only [QInt.subInt, QCoeffs.subInt, mk', coeffs, valC]; push_cast; ring
  · unfold QInt.mulInt
    split
    · next h => subst h; simp [valC, zero]
    · simp only [QCoeffs.mulInt, mk', coeffs, valC]; push_cast; ring
example : (QInt.mk 1 2 5).mulInt (-3) = ⟨-3, -6, 5⟩ ∧ (QInt.mk 1 2 5).addInt 4 = ⟨5, 2, 5⟩ := by decide +kernel

/-- when both operands are rational, or their discriminants differ by a square factor -/
private theorem compat_cases {cfg : Cfg} {x y : QInt} (hx : x.Ok cfg) (hy : y.Ok cfg)
    {f : QInt → QInt → Res QInt}
    (hyr : y.b = 0 → ∃ t, f x y = .ok t)
    (hxr : x.b = 0 → y.b ≠ 0 → ∃ t, f x y = .ok t)
    (hc : ∀ p, x.b ≠ 0 → y.b ≠ 0 → reduceBinOpUnwrap cfg x y = .ok p → Matched cfg x y p →
      ∃ t, f x y = .ok t)
    (hn : x.b ≠ 0 → y.b ≠ 0 → reduceBinOpUnwrap cfg x y = .error .incompatible →
      f x y = .error .incompatible) :
    (∃ t, f x y = .ok t) ↔ (∃ q : ℚ, x.valC = q) ∨ (∃ q : ℚ, y.valC = q) ∨ x.Compatible y := by
  rw [← qint_isRational cfg x hx, ← qint_isRational cfg y hy, isRational_iff, isRational_iff]
  by_cases h1 : y.b = 0
  · simp [hyr h1, h1]
  by_cases h2 : x.b = 0
  · simp [hxr h2 h1, h2]
  obtain ⟨c1, c2⟩ := reduceBinOpUnwrap_spec hx hy h2 h1
  by_cases h3 : x.Compatible y
  · obtain ⟨p, hp, M⟩ := c1 h3
    simp [hc p h2 h1 hp M, h3]
  · rw [hn h2 h1 (c2 h3)]
    simp [h1, h2, h3]

/-- facts about matched operands -/
private theorem matched_facts {cfg : Cfg} {x y : QInt} {p : QInt × QInt} (M : Matched cfg x y p) :
    p.2.d ≠ 0 ∧ p.2.d % 4 ≠ 0 ∧ ¬ IsSquare p.2.d ∧ (cfg.complex = false → 0 ≤ p.2.d) ∧
      p.1.coeffs.cval p.2.d = x.valC ∧ p.2.coeffs.cval p.2.d = y.valC := by
  have hd0 : p.2.d ≠ 0 := fun e => M.b2 (M.ok2.rational e)
  refine ⟨hd0, M.ok2.mod4 hd0, M.ok2.irrational hd0, M.ok2.real, ?_, M.v2⟩
  rw [← M.d12]; exact M.v1

/-- **C50** `+` returns exactly when an operand is rational or one discriminant is a square multiple of the
other. -/
theorem qint_add_returns_iff (cfg : Cfg) (x y : QInt) (hx : x.Ok cfg) (hy : y.Ok cfg) :
    (∃ t, QInt.add cfg x y = .ok t) ↔
      (∃ q : ℚ, x.valC = q) ∨ (∃ q : ℚ, y.valC = q) ∨ x.Compatible y := by
  apply compat_cases hx hy (f := QInt.add cfg)
  · intro h; unfold QInt.add; rw [if_pos ((isRational_iff y).mpr h)]; exact ⟨_, rfl⟩
  · intro h h'
    unfold QInt.add
    rw [if_neg (by rwa [isRational_iff]), if_pos ((isRational_iff x).mpr h)]; exact ⟨_, rfl⟩
  · intro p hx' hy' hp M
    obtain ⟨h0, h4, hs, hr, -⟩ := matched_facts M
    unfold QInt.add
    rw [if_neg (by rwa [isRational_iff]), if_neg (by rwa [isRational_iff]), hp]
    exact ⟨_, fromCoeffs_eq hr h4 hs⟩
  · intro hx' hy' hp
    unfold QInt.add
    rw [if_neg (by rwa [isRational_iff]), if_neg (by rwa [isRational_iff]), hp]; rfl
example : QInt.add ⟨false, true⟩ ⟨1, 2, 18⟩ ⟨3, 5, 2⟩ = .ok ⟨4, 11, 2⟩ ∧
    QInt.add ⟨false, true⟩ ⟨1, 2, 18⟩ ⟨3, 5, 3⟩ = .error .incompatible ∧
    QInt.Compatible ⟨1, 2, 18⟩ ⟨3, 5, 2⟩ := ⟨by decide +kernel, by decide +kernel, 3, .inl rfl⟩

/-- **C50** the same for `-`. -/
theorem qint_sub_returns_iff (cfg : Cfg) (x y : QInt) (hx : x.Ok cfg) (hy : y.Ok cfg) :
    (∃ t, QInt.sub cfg x y = .ok t) ↔
      (∃ q : ℚ, x.valC = q) ∨ (∃ q : ℚ, y.valC = q) ∨ x.Compatible y := by
  apply compat_cases hx hy (f := QInt.sub cfg)
  · intro h; unfold QInt.sub; rw [if_pos ((isRational_iff y).mpr h)]; exact ⟨_, rfl⟩
  · intro h h'
    unfold QInt.sub
    rw [if_neg (by rwa [isRational_iff]), if_pos ((isRational_iff x).mpr h)]; exact ⟨_, rfl⟩
  · intro p hx' hy' hp M
    obtain ⟨h0, h4, hs, hr, -⟩ := matched_facts M
    unfold QInt.sub
    rw [if_neg (by rwa [isRational_iff]), if_neg (by rwa [isRational_iff]), hp]
    exact ⟨_, fromCoeffs_eq hr h4 hs⟩
  · intro hx' hy' hp
    unfold QInt.sub
    rw [if_neg (by rwa [isRational_iff]), if_neg (by rwa [isRational_iff]), hp]; rfl
example : QInt.sub ⟨false, true⟩ ⟨1, 2, 18⟩ ⟨3, 6, 2⟩ = .ok ⟨-2, 0, 0⟩ ∧
    QInt.sub ⟨false, true⟩ ⟨1, 2, 18⟩ ⟨3, 0, 0⟩ = .ok ⟨-2, 2, 18⟩ := by decide +kernel

/-- **C50** the same for `*`. -/
theorem qint_mul_returns_iff (cfg : Cfg) (x y : QInt) (hx : x.Ok cfg) (hy : y.Ok cfg) :
    (∃ t, QInt.mul cfg x y = .ok t) ↔
      (∃ q : ℚ, x.valC = q) ∨ (∃ q : ℚ, y.valC = q) ∨ x.Compatible y := by
  apply compat_cases hx hy (f := QInt.mul cfg)
  · intro h; unfold QInt.mul; rw [if_pos ((isRational_iff y).mpr h)]; exact ⟨_, rfl⟩
  · intro h h'
    unfold QInt.mul
    rw [if_neg (by rwa [isRational_iff]), if_pos ((isRational_iff x).mpr h)]; exact ⟨_, rfl⟩
  · intro p hx' hy' hp M
    obtain ⟨h0, h4, hs, hr, -⟩ := matched_facts M
    obtain ⟨m, hm, -⟩ := QCoeffs.mul_spec p.1.coeffs p.2.coeffs h4
    unfold QInt.mul
    rw [if_neg (by rwa [isRational_iff]), if_neg (by rwa [isRational_iff]), hp]
    refine ⟨if m.b = 0 then ⟨m.a, 0, 0⟩ else ⟨m.a, m.b, p.2.d⟩, ?_⟩
    show (p.1.coeffs.mul p.2.coeffs p.1.d >>= fun c => fromCoeffs cfg c p.2.d) = _
    rw [M.d12, hm]; exact fromCoeffs_eq hr h4 hs
  · intro hx' hy' hp
    unfold QInt.mul
    rw [if_neg (by rwa [isRational_iff]), if_neg (by rwa [isRational_iff]), hp]; rfl
example : QInt.mul ⟨false, true⟩ ⟨1, 2, 45⟩ ⟨3, 5, 5⟩ = .ok ⟨27, 43, 5⟩ ∧
    QInt.mul ⟨false, true⟩ ⟨1, 2, 45⟩ ⟨3, 5, 7⟩ = .error .incompatible := by decide +kernel

private theorem add_sub_mul_aux {cfg : Cfg} {x y : QInt} (hx : x.Ok cfg) (hy : y.Ok cfg) {p : QInt × QInt}
    (hxb : ¬ x.isRational = true) (hyb : ¬ y.isRational = true) (hp : reduceBinOpUnwrap cfg x y = .ok p) :
    Matched cfg x y p := by
  rw [isRational_iff] at hxb hyb
  obtain ⟨c1, c2⟩ := reduceBinOpUnwrap_spec hx hy hxb hyb
  by_cases h : x.Compatible y
  · obtain ⟨p', hp', M⟩ := c1 h; rw [hp] at hp'; cases hp'; exact M
  · rw [c2 h] at hp; cases hp

/-- **C50** `+` is exact. -/
theorem qint_add_value (cfg : Cfg) (x y z : QInt) (hx : x.Ok cfg) (hy : y.Ok cfg)
    (h : QInt.add cfg x y = .ok z) : z.valC = x.valC + y.valC := by
  unfold QInt.add at h
  split at h
  · next hr =>
    cases h
    rw [(qint_int_ops x y.a).2.1, valC_rational ((isRational_iff y).mp hr)]
  · next hyr =>
    split at h
    · next hr =>
      cases h
      rw [(qint_int_ops y x.a).2.1, valC_rational ((isRational_iff x).mp hr)]; ring
    · next hxr =>
      obtain ⟨p, hp, h⟩ := bind_ok h
      have M := add_sub_mul_aux hx hy hxr hyr hp
      obtain ⟨h0, h4, hs, hr, e1, e2⟩ := matched_facts M
      obtain ⟨t, ht, hv, -⟩ := fromCoeffs_spec (c := p.1.coeffs.add p.2.coeffs) hr h4 hs
      rw [h] at ht; cases ht
      rw [hv, ← e1, ← e2]; simp only [QCoeffs.cval, QCoeffs.add]; push_cast; ring

/-- **C50** `-` is exact. -/
theorem qint_sub_value (cfg : Cfg) (x y z : QInt) (hx : x.Ok cfg) (hy : y.Ok cfg)
    (h : QInt.sub cfg x y = .ok z) : z.valC = x.valC - y.valC := by
  unfold QInt.sub at h
  split at h
  · next hr =>
    cases h
    rw [(qint_int_ops x y.a).2.2.1, valC_rational ((isRational_iff y).mp hr)]
  · next hyr =>
    split at h
    · next hr =>
      cases h
      rw [(qint_int_ops _ 0).1, (qint_int_ops y x.a).2.2.1, valC_rational ((isRational_iff x).mp hr)]; ring
    · next hxr =>
      obtain ⟨p, hp, h⟩ := bind_ok h
      have M := add_sub_mul_aux hx hy hxr hyr hp
      obtain ⟨h0, h4, hs, hr, e1, e2⟩ := matched_facts M
      obtain ⟨t, ht, hv, -⟩ := fromCoeffs_spec (c := p.1.coeffs.sub p.2.coeffs) hr h4 hs
      rw [h] at ht; cases ht
      rw [hv, ← e1, ← e2]; simp only [QCoeffs.cval, QCoeffs.sub]; push_cast; ring

/-- **C50** `*` is exact. -/
theorem qint_mul_value (cfg : Cfg) (x y z : QInt) (hx : x.Ok cfg) (hy : y.Ok cfg)
    (h : QInt.mul cfg x y = .ok z) : z.valC = x.valC * y.valC := by
  unfold QInt.mul at h
  split at h
  · next hr =>
    cases h
    rw [(qint_int_ops x y.a).2.2.2, valC_rational ((isRational_iff y).mp hr)]
  · next hyr =>
    split at h
    · next hr =>
      cases h
      rw [(qint_int_ops y x.a).2.2.2, valC_rational ((isRational_iff x).mp hr)]; ring
    · next hxr =>
      obtain ⟨p, hp, h⟩ := bind_ok h
      obtain ⟨c, hc, h⟩ := bind_ok h
      have M := add_sub_mul_aux hx hy hxr hyr hp
      obtain ⟨h0, h4, hs, hr, e1, e2⟩ := matched_facts M
      obtain ⟨m, hm, hmv⟩ := QCoeffs.mul_spec p.1.coeffs p.2.coeffs h4
      rw [M.d12, hm] at hc
      have hc := Except.ok.inj hc
      subst hc
      obtain ⟨t, ht, hv, -⟩ := fromCoeffs_spec (cfg := cfg) (c := m) hr h4 hs
      rw [h] at ht; cases ht
      rw [hv, hmv, e1, e2]

example : (QInt.mk 1 2 18).Ok ⟨false, true⟩ ∧ (QInt.mk 3 5 2).Ok ⟨false, true⟩ ∧
    QInt.add ⟨false, true⟩ ⟨1, 2, 18⟩ ⟨3, 5, 2⟩ = .ok ⟨4, 11, 2⟩ ∧
    QInt.sub ⟨false, true⟩ ⟨1, 2, 18⟩ ⟨3, 6, 2⟩ = .ok ⟨-2, 0, 0⟩ ∧
    QInt.mul ⟨false, true⟩ ⟨1, 2, 45⟩ ⟨3, 5, 5⟩ = .ok ⟨27, 43, 5⟩ := by
  refine ⟨⟨by decide, by decide, fun _ => ?_, by decide⟩, ⟨by decide, by decide, fun _ => ?_, by decide⟩,
    by decide +kernel, by decide +kernel, by decide +kernel⟩ <;>
  · rw [← isqrt_natAbs_iff]; decide +kernel

/-- Numbers of one field can have incompatible representations: `√18 + √50` panics although both are multiples
of `√2`. -/
theorem qint_add_same_field_panics :
    ∃ x y : QInt, QInt.new ⟨false, true⟩ 0 1 18 = .ok x ∧ QInt.new ⟨false, true⟩ 0 1 50 = .ok y ∧
      QInt.add ⟨false, true⟩ x y = .error .incompatible :=
  ⟨⟨0, 1, 18⟩, ⟨0, 1, 50⟩, by decide +kernel, by decide +kernel, by decide +kernel⟩

/-! ### C51 -/

private theorem divRemRound_ok {x y : ℤ} {p : ℤ × ℤ} (h : divRemRound x y = .ok p) :
    y ≠ 0 ∧ RoundAway ((x : ℚ) / y) p.1 ∧ x = p.1 * y + p.2 := by
  have hy : y ≠ 0 := by rintro rfl; cases h
  exact ⟨hy, roundAway_of_divRemRound hy h⟩

/-- **C51** division by an integer: panics exactly for 0, and rounds both coordinates. -/
theorem qint_divInt (x : QInt) (k : ℤ) :
    (k = 0 → x.divInt k = .error .divZero ∧ x.remInt k = .error .divZero) ∧
    (k ≠ 0 → ∃ q r, x.divInt k = .ok q ∧ x.remInt k = .ok r ∧ q.d = x.d ∧
      RoundAway ((x.a : ℚ) / k) q.a ∧ RoundAway ((x.b : ℚ) / k) q.b ∧
      x.valC = q.valC * k + r.valC) := by
  constructor
  · rintro rfl; exact ⟨rfl, rfl⟩
  · intro hk
    obtain ⟨q1, r1, h1, e1, -⟩ := divRemRound_spec x.a hk
    obtain ⟨q2, r2, h2, e2, -⟩ := divRemRound_spec x.b hk
    refine ⟨⟨q1, q2, x.d⟩, ⟨r1, r2, x.d⟩, ?_, ?_, rfl, (roundAway_of_divRemRound hk h1).1,
      (roundAway_of_divRemRound hk h2).1, ?_⟩
    · simp only [divInt, QCoeffs.divInt, coeffs, h1, h2, bind, Except.bind]; rfl
    · simp only [remInt, QCoeffs.remInt, coeffs, h1, h2, bind, Except.bind]; rfl
    · simp only [valC]
      rw [show (x.a : ℂ) = q1 * k + r1 by exact_mod_cast e1, show (x.b : ℂ) = q2 * k + r2 by exact_mod_cast e2]
      ring
example : (QInt.mk 7 5 2).divInt 2 = .ok ⟨4, 3, 2⟩ ∧ (QInt.mk 7 5 2).remInt 2 = .ok ⟨-1, -1, 2⟩ := by decide +kernel

/-- division of irrational (or rational by irrational) operands -/
private theorem div_core {cfg : Cfg} (x y : QCoeffs) {d : ℤ} (h4 : d % 4 ≠ 0) (hs : ¬ IsSquare d)
    (hr : cfg.complex = false → 0 ≤ d) (hy : y.cval d ≠ 0) :
    ∃ z : QInt, (x.div y d >>= fun c => fromCoeffs cfg c d) = .ok z ∧
      ∃ (u v : ℚ) (m n : ℤ), x.cval d / y.cval d = u + v * omegaC d ∧ RoundAway u m ∧ RoundAway v n ∧
        z.valC = m + n * omegaC d := by
  obtain ⟨q, r, u, v, h, -, h2, h3, h5⟩ := QCoeffs.divRem_spec x y h4 hs hy
  obtain ⟨t, ht, hv, -⟩ := fromCoeffs_spec (c := q) hr h4 hs
  refine ⟨t, ?_, u, v, q.a, q.b, h2, h3, h5, hv⟩
  unfold QCoeffs.div; rw [h]; exact ht

private theorem cval_ne_zero {cfg : Cfg} {y : QInt} (hy : y.Ok cfg) (hb : y.b ≠ 0) : y.valC ≠ 0 := by
  intro h
  have := (qint_isRational cfg y hy).mpr ⟨0, by simpa using h⟩
  exact hb ((isRational_iff y).mp this)

/-- **C51** `/` returns exactly when the divisor is not zero and the operands are compatible (or one of them is
rational). -/
theorem qint_div_returns_iff (cfg : Cfg) (x y : QInt) (hx : x.Ok cfg) (hy : y.Ok cfg) :
    (∃ t, QInt.div cfg x y = .ok t) ↔ y.valC ≠ 0 ∧
      ((∃ q : ℚ, x.valC = q) ∨ (∃ q : ℚ, y.valC = q) ∨ x.Compatible y) := by
  by_cases hyr : y.b = 0
  · have hv := valC_rational hyr
    have : QInt.div cfg x y = x.divInt y.a := by
      unfold QInt.div; rw [if_pos ((isRational_iff y).mpr hyr)]
    rw [this, hv]
    by_cases h0 : y.a = 0
    · rw [((qint_divInt x y.a).1 h0).1]; simp [h0]
    · obtain ⟨q, -, hq, -⟩ := (qint_divInt x y.a).2 h0
      rw [hq]
      simp only [Except.ok.injEq, exists_eq', true_iff]
      exact ⟨by exact_mod_cast h0, .inr (.inl ⟨y.a, by simp⟩)⟩
  · have hy0 := cval_ne_zero hy hyr
    simp only [hy0, ne_eq, not_false_eq_true, true_and]
    have hd0 : y.d ≠ 0 := fun e => hyr (hy.rational e)
    apply compat_cases hx hy (f := QInt.div cfg)
    · intro h; exact absurd h hyr
    · intro h h'
      unfold QInt.div
      rw [if_neg (by rwa [isRational_iff]), if_pos ((isRational_iff x).mpr h)]
      obtain ⟨z, hz, -⟩ := div_core x.coeffs y.coeffs (hy.mod4 hd0) (hy.irrational hd0) hy.real hy0
      exact ⟨z, hz⟩
    · intro p hx' hy' hp M
      obtain ⟨h0, h4, hs, hr, e1, e2⟩ := matched_facts M
      unfold QInt.div
      rw [if_neg (by rwa [isRational_iff]), if_neg (by rwa [isRational_iff]), hp]
      obtain ⟨z, hz, -⟩ := div_core p.1.coeffs p.2.coeffs h4 hs hr (by rw [e2]; exact hy0)
      refine ⟨z, ?_⟩
      show (p.1.coeffs.div p.2.coeffs p.1.d >>= fun c => fromCoeffs cfg c p.2.d) = _
      rw [M.d12]; exact hz
    · intro hx' hy' hp
      unfold QInt.div
      rw [if_neg (by rwa [isRational_iff]), if_neg (by rwa [isRational_iff]), hp]; rfl
example : QInt.div ⟨false, true⟩ ⟨7, 5, 18⟩ ⟨1, 2, 2⟩ = .ok ⟨8, 0, 0⟩ ∧
    QInt.div ⟨false, true⟩ ⟨7, 5, 18⟩ ⟨1, 2, 3⟩ = .error .incompatible := by decide +kernel

/-- **C51** `x / y` is the exact quotient with both coordinates (in the basis `1, ω_D` of one of the operands)
rounded to the nearest integer, halves away from zero. -/
theorem qint_div_value (cfg : Cfg) (x y z : QInt) (hx : x.Ok cfg) (hy : y.Ok cfg)
    (h : QInt.div cfg x y = .ok z) :
    ∃ (D : ℤ) (u v : ℚ) (m n : ℤ), (D = x.d ∨ D = y.d) ∧ x.valC / y.valC = u + v * omegaC D ∧
      RoundAway u m ∧ RoundAway v n ∧ z.valC = m + n * omegaC D := by
  unfold QInt.div at h
  split at h
  · next hyr =>
    have hv := valC_rational ((isRational_iff y).mp hyr)
    have h0 : y.a ≠ 0 := by
      intro h0; rw [((qint_divInt x y.a).1 h0).1] at h; cases h
    obtain ⟨q, -, hq, -, hd, h1, h2, -⟩ := (qint_divInt x y.a).2 h0
    rw [h] at hq; cases hq
    refine ⟨x.d, x.a / y.a, x.b / y.a, z.a, z.b, .inl rfl, ?_, h1, h2, ?_⟩
    · rw [hv]
      have : (y.a : ℂ) ≠ 0 := by exact_mod_cast h0
      push_cast; unfold valC; field_simp
    · unfold valC; rw [hd]
  · next hyr =>
    have hyb : y.b ≠ 0 := by rwa [isRational_iff] at hyr
    have hy0 := cval_ne_zero hy hyb
    have hd0 : y.d ≠ 0 := fun e => hyb (hy.rational e)
    split at h
    · next hxr =>
      have hxb := (isRational_iff x).mp hxr
      obtain ⟨z', hz, u, v, m, n, e1, e2, e3, e4⟩ :=
        div_core (cfg := cfg) x.coeffs y.coeffs (hy.mod4 hd0) (hy.irrational hd0) hy.real hy0
      rw [h] at hz; cases hz
      refine ⟨y.d, u, v, m, n, .inr rfl, ?_, e2, e3, e4⟩
      rw [← e1, cval_coeffs, valC_rational hxb]
      congr 1
      simp [QCoeffs.cval, coeffs, hxb]
    · next hxr =>
      obtain ⟨p, hp, h⟩ := bind_ok h
      have M := add_sub_mul_aux hx hy hxr hyr hp
      obtain ⟨h0, h4, hs, hr, ex, ey⟩ := matched_facts M
      obtain ⟨z', hz, u, v, m, n, e1, e2, e3, e4⟩ :=
        div_core (cfg := cfg) p.1.coeffs p.2.coeffs h4 hs hr (by rw [ey]; exact hy0)
      rw [M.d12] at h
      have : z' = z := Except.ok.inj (hz.symm.trans h)
      subst this
      refine ⟨p.2.d, u, v, m, n, ?_, ?_, e2, e3, e4⟩
      · rcases M.dxy with e | e
        · left; rw [← M.d12]; exact e
        · right; rw [← M.d12]; exact e
      · rw [← e1, ex, ey]

example : QInt.div ⟨false, true⟩ ⟨7, 5, 2⟩ ⟨1, 2, 2⟩ = .ok ⟨2, 1, 2⟩ := by decide +kernel

/-- **C51** is false for `%`: `5 % 3` returns 2 while `5/3 = 2`, so `x = (x/y)·y + x%y` fails; and `5 % √2`
panics. -/
theorem qint_rem_refuted :
    (∃ x y q r : QInt, QInt.new ⟨false, true⟩ 5 0 2 = .ok x ∧ QInt.new ⟨false, true⟩ 3 0 2 = .ok y ∧
      QInt.div ⟨false, true⟩ x y = .ok q ∧ QInt.rem ⟨false, true⟩ x y = .ok r ∧
      x.valC ≠ q.valC * y.valC + r.valC) ∧
    (∃ x y : QInt, QInt.new ⟨false, true⟩ 5 0 2 = .ok x ∧ QInt.new ⟨false, true⟩ 0 1 2 = .ok y ∧
      QInt.rem ⟨false, true⟩ x y = .error .debugAssert) := by
  refine ⟨⟨⟨5, 0, 0⟩, ⟨3, 0, 0⟩, ⟨2, 0, 0⟩, ⟨2, 0, 0⟩, by decide +kernel, by decide +kernel, by decide +kernel,
    by decide +kernel, ?_⟩, ⟨⟨5, 0, 0⟩, ⟨0, 1, 2⟩, by decide +kernel, by decide +kernel, by decide +kernel⟩⟩
  simp only [valC]; norm_num

/-- what `%` does with a rational divisor: it divides -/
theorem qint_rem_rational (cfg : Cfg) (x y : QInt) (hy : y.b = 0) :
    QInt.rem cfg x y = QInt.div cfg x y := by
  unfold QInt.rem QInt.div
  rw [if_pos ((isRational_iff y).mpr hy), if_pos ((isRational_iff y).mpr hy)]
example : QInt.rem ⟨false, true⟩ ⟨7, 5, 2⟩ ⟨3, 0, 0⟩ = QInt.div ⟨false, true⟩ ⟨7, 5, 2⟩ ⟨3, 0, 0⟩ ∧
    QInt.div ⟨false, true⟩ ⟨7, 5, 2⟩ ⟨3, 0, 0⟩ = .ok ⟨2, 2, 2⟩ := by decide +kernel

/-- **C51** partial: `x = (x/y)·y + x%y` for irrational compatible operands, and both operations return.
Missing from the full claim: rational operands, for which `%` is wrong (`qint_rem_refuted`). -/
theorem qint_rem_partial (cfg : Cfg) (x y : QInt) (hx : x.Ok cfg) (hy : y.Ok cfg)
    (hxi : ∀ q : ℚ, x.valC ≠ q) (hyi : ∀ q : ℚ, y.valC ≠ q) (hc : x.Compatible y) :
    ∃ q r, QInt.div cfg x y = .ok q ∧ QInt.rem cfg x y = .ok r ∧ x.valC = q.valC * y.valC + r.valC := by
  have hxr : ¬ x.isRational = true := by
    rw [qint_isRational cfg x hx]; rintro ⟨q, h⟩; exact hxi q h
  have hyr : ¬ y.isRational = true := by
    rw [qint_isRational cfg y hy]; rintro ⟨q, h⟩; exact hyi q h
  have hxb : x.b ≠ 0 := by rwa [isRational_iff] at hxr
  have hyb : y.b ≠ 0 := by rwa [isRational_iff] at hyr
  obtain ⟨p, hp, M⟩ := (reduceBinOpUnwrap_spec hx hy hxb hyb).1 hc
  obtain ⟨h0, h4, hs, hr, ex, ey⟩ := matched_facts M
  obtain ⟨q, r, u, v, e, e1, -⟩ := QCoeffs.divRem_spec p.1.coeffs p.2.coeffs h4 hs
    (by rw [ey]; exact cval_ne_zero hy hyb)
  obtain ⟨tq, hq, hqv, -⟩ := fromCoeffs_spec (cfg := cfg) (c := q) hr h4 hs
  obtain ⟨tr, hr', hrv, -⟩ := fromCoeffs_spec (cfg := cfg) (c := r) hr h4 hs
  refine ⟨tq, tr, ?_, ?_, ?_⟩
  · unfold QInt.div QCoeffs.div
    rw [if_neg hyr, if_neg hxr, hp]
    simp only [bind, Except.bind, M.d12, e]
    exact hq
  · unfold QInt.rem
    rw [if_neg hyr, hp]
    simp only [bind, Except.bind, M.d12, e]
    exact hr'
  · rw [hqv, hrv, ← ex, ← ey]; exact e1

example : QInt.div ⟨false, true⟩ ⟨7, 5, 18⟩ ⟨1, 2, 2⟩ = .ok ⟨8, 0, 0⟩ ∧
    QInt.rem ⟨false, true⟩ ⟨7, 5, 18⟩ ⟨1, 2, 2⟩ = .ok ⟨-1, -1, 2⟩ ∧
    QInt.Compatible ⟨7, 5, 18⟩ ⟨1, 2, 2⟩ := ⟨by decide +kernel, by decide +kernel, 3, .inl rfl⟩

/-! ### C52 -/

private theorem gint_cval (x : GInt) : x.valC = x.coeffs.cval (-1) := by
  have : omegaC (-1) = Complex.I := by
    unfold omegaC; rw [if_neg (by decide)]
    unfold rootC
    simp
  simp [GInt.valC, QCoeffs.cval, GInt.coeffs, this]

theorem gint_valC_inj (x y : GInt) (h : x.valC = y.valC) : x = y := by
  have h1 := congrArg Complex.re h
  have h2 := congrArg Complex.im h
  simp [GInt.valC] at h1 h2
  cases x; cases y; simp_all

/-- **C52** Gaussian integer ring operations are exact and total. -/
theorem gint_ring_ops (x y : GInt) :
    (x.add y).valC = x.valC + y.valC ∧ (x.sub y).valC = x.valC - y.valC ∧
    (∃ m, x.mul y = .ok m ∧ m.valC = x.valC * y.valC) ∧
    x.conj.valC = (starRingEnd ℂ) x.valC ∧ (x.norm : ℂ) = x.valC * x.conj.valC := by
  refine ⟨?_, ?_, ?_, ?_, ?_⟩
  · simp only [GInt.add, GInt.ofCoeffs, QCoeffs.add, GInt.coeffs, GInt.valC]; push_cast; ring
  · simp only [GInt.sub, GInt.ofCoeffs, QCoeffs.sub, GInt.coeffs, GInt.valC]; push_cast; ring
  · obtain ⟨m, hm, hv⟩ := QCoeffs.mul_spec x.coeffs y.coeffs (d := -1) (by decide)
    refine ⟨GInt.ofCoeffs m, ?_, ?_⟩
    · unfold GInt.mul; rw [hm]; rfl
    · rw [gint_cval x, gint_cval y, ← hv, gint_cval]; rfl
  · simp [GInt.conj, GInt.valC]
  · simp only [GInt.norm, GInt.conj, GInt.valC]; push_cast
    linear_combination (x.im : ℂ) * x.im * Complex.I_sq
example : GInt.mul ⟨3, 4⟩ ⟨1, -2⟩ = .ok ⟨11, -2⟩ ∧ (GInt.mk 3 4).norm = 25 := by decide +kernel

private theorem neg_one_not_square : ¬ IsSquare (-1 : ℤ) := by
  rintro ⟨k, hk⟩; nlinarith [mul_self_nonneg k]

/-- **C52** Gaussian integers: `/` and `%` return for every non-zero divisor, `x = (x/y)·y + x%y`, the quotient
is the exact one with both parts rounded, and the norm of the remainder is at most half the norm of the
divisor. -/
theorem gint_euclid (x y : GInt) (hy : y.valC ≠ 0) :
    ∃ q r, x.div y = .ok q ∧ x.rem y = .ok r ∧ x.valC = q.valC * y.valC + r.valC ∧
      2 * r.norm ≤ y.norm ∧ r.norm < y.norm ∧
      ∃ u v : ℚ, x.valC / y.valC = u + v * Complex.I ∧ RoundAway u q.re ∧ RoundAway v q.im := by
  rw [gint_cval] at hy
  obtain ⟨q, r, u, v, e, e1, e2, e3, e4⟩ :=
    QCoeffs.divRem_spec x.coeffs y.coeffs (d := -1) (by decide) neg_one_not_square hy
  obtain ⟨n, k, s, t, l, hn, hn0, hk, hs, ht, hl, hnk⟩ :=
    QCoeffs.divRem_norm (by decide) neg_one_not_square hy e
  have nf : ∀ c : QCoeffs, c.norm (-1) = .ok (c.a * c.a + c.b * c.b) := by
    intro c
    unfold QCoeffs.norm
    rw [if_neg (by decide), mod4d2_eq, if_neg (by decide), if_neg (by decide)]
    show Except.ok _ = _
    congr 1; ring
  rw [nf] at hn hk hl
  have hn := Except.ok.inj hn
  have hk := Except.ok.inj hk
  have hl := Except.ok.inj hl
  simp only at hl
  have hnpos : 0 < n := by
    have : 0 ≤ n := by rw [← hn]; exact add_nonneg (mul_self_nonneg _) (mul_self_nonneg _)
    omega
  have hyn : y.norm = n := hn
  rw [abs_of_pos hnpos] at hs ht
  have hs2 : 4 * (s * s) ≤ n * n := by
    have := abs_mul_abs_self s
    nlinarith [abs_nonneg s]
  have ht2 : 4 * (t * t) ≤ n * n := by
    have := abs_mul_abs_self t
    nlinarith [abs_nonneg t]
  have hk2 : 2 * k ≤ n := by
    have : n * (2 * k) ≤ n * n := by nlinarith
    exact le_of_mul_le_mul_left this hnpos
  have hrk : (GInt.ofCoeffs r).norm = k := hk
  refine ⟨GInt.ofCoeffs q, GInt.ofCoeffs r, ?_, ?_, ?_, ?_, ?_, u, v, ?_, e3, e4⟩
  · unfold GInt.div QCoeffs.div; rw [e]; rfl
  · unfold GInt.rem; rw [e]; rfl
  · rw [gint_cval x, gint_cval y, gint_cval, gint_cval]; exact e1
  · rw [hyn, hrk]; exact hk2
  · rw [hyn, hrk]; omega
  · have : omegaC (-1) = Complex.I := by
      have := gint_cval ⟨0, 1⟩
      simpa [GInt.valC, QCoeffs.cval, GInt.coeffs] using this.symm
    rw [gint_cval x, gint_cval y, e2, this]

/-- division of Gaussian integers by zero panics -/
theorem gint_div_zero (x : GInt) : x.div ⟨0, 0⟩ = .error .divZero ∧ x.rem ⟨0, 0⟩ = .error .divZero := by
  constructor <;>
  · simp only [GInt.div, GInt.rem, QCoeffs.div, QCoeffs.divRem, QCoeffs.divNumer, QCoeffs.norm, GInt.coeffs,
      show mod4d2 (-1) = 1 from rfl, bind, Except.bind]
    simp [divRemRound]

example : GInt.div ⟨7, 3⟩ ⟨2, -1⟩ = .ok ⟨2, 3⟩ ∧ GInt.rem ⟨7, 3⟩ ⟨2, -1⟩ = .ok ⟨0, -1⟩ := by decide +kernel

/-- **C52** is false for `QuadraticInt` with `D = -3` and a rational divisor, because `%` divides there:
`(100+100ω) % 3 = 33+33ω`, of norm 3267 against `N(3) = 9`. -/
theorem qint_eisenstein_refuted : ∃ x y r : QInt,
    QInt.fromCoeffs ⟨true, true⟩ ⟨100, 100⟩ (-3) = .ok x ∧ QInt.fromCoeffs ⟨true, true⟩ ⟨3, 0⟩ (-3) = .ok y ∧
    QInt.rem ⟨true, true⟩ x y = .ok r ∧ r.norm = .ok 3267 ∧ y.norm = .ok 9 :=
  ⟨⟨100, 100, -3⟩, ⟨3, 0, 0⟩, ⟨33, 33, -3⟩, by decide +kernel, by decide +kernel, by decide +kernel,
    by decide +kernel, by decide +kernel⟩

/-- rebuilding with `from_coeffs` keeps the norm -/
private theorem fromCoeffs_norm {cfg : Cfg} {c : QCoeffs} {d n : ℤ} (hr : cfg.complex = false → 0 ≤ d)
    (hd4 : d % 4 ≠ 0) (hds : ¬ IsSquare d) (hn : c.norm d = .ok n) :
    ∃ t, fromCoeffs cfg c d = .ok t ∧ t.norm = .ok n := by
  refine ⟨_, fromCoeffs_eq hr hd4 hds, ?_⟩
  have hd0 : d ≠ 0 := not_isSquare_ne_zero hds
  split
  · next hb =>
    unfold QInt.norm QCoeffs.norm
    unfold QCoeffs.norm at hn
    rw [if_neg hd0, mod4d2_eq, if_neg hd4] at hn
    simp only [coeffs, if_true]
    rw [← hn]
    by_cases h1 : d % 4 = 1
    · rw [if_pos h1]; simp only [hb]; congr 1; ring
    · rw [if_neg h1]; simp only [hb]; congr 1; ring
  · exact hn

/-- **C52** partial: for irrational operands over the discriminants -3, -2, -1, 2, 3, 5, 13 the remainder
`x % y` has smaller absolute norm than `y`.  Missing from the full claim: rational operands
(`qint_eisenstein_refuted`). -/
theorem qint_euclid_partial (cfg : Cfg) (x y : QInt) (hx : x.Ok cfg) (hy : y.Ok cfg) (hd : x.d = y.d)
    (hxi : ∀ q : ℚ, x.valC ≠ q) (hyi : ∀ q : ℚ, y.valC ≠ q)
    (hD : y.d ∈ ({-3, -2, -1, 2, 3, 5, 13} : Set ℤ)) :
    ∃ (q r : QInt) (n k : ℤ), QInt.div cfg x y = .ok q ∧ QInt.rem cfg x y = .ok r ∧
      x.valC = q.valC * y.valC + r.valC ∧ y.norm = .ok n ∧ r.norm = .ok k ∧ |k| < |n| := by
  have hc : x.Compatible y := ⟨1, by left; rw [hd]; ring⟩
  obtain ⟨q, r, e1, e2, e3⟩ := qint_rem_partial cfg x y hx hy hxi hyi hc
  have hxr : ¬ x.isRational = true := by
    rw [qint_isRational cfg x hx]; rintro ⟨q, h⟩; exact hxi q h
  have hyr : ¬ y.isRational = true := by
    rw [qint_isRational cfg y hy]; rintro ⟨q, h⟩; exact hyi q h
  have hyb : y.b ≠ 0 := by rwa [isRational_iff] at hyr
  have hd0 : y.d ≠ 0 := fun e => hyb (hy.rational e)
  have h4 := hy.mod4 hd0
  have hs := hy.irrational hd0
  have hxd0 : x.d ≠ 0 := by rw [hd]; exact hd0
  -- equal discriminants are not changed by matching
  have hp : reduceBinOpUnwrap cfg x y = .ok (x, y) := by
    unfold reduceBinOpUnwrap reduceBinOp
    simp [hd, hd0, bind, Except.bind, pure, Except.pure]
  obtain ⟨cq, cr, -, -, e, -⟩ := QCoeffs.divRem_spec x.coeffs y.coeffs h4 hs (cval_ne_zero hy hyb)
  obtain ⟨n, k, u, v, l, hn, hn0, hk, hu, hv, hl, hnk⟩ :=
    QCoeffs.divRem_norm h4 hs (y := y.coeffs) (cval_ne_zero hy hyb) e
  obtain ⟨t, ht, htn⟩ := fromCoeffs_norm hy.real h4 hs hk
  have hrt : r = t := by
    unfold QInt.rem at e2
    rw [if_neg hyr, hp] at e2
    simp only [bind, Except.bind, hd, e] at e2
    exact Except.ok.inj (e2.symm.trans ht)
  refine ⟨q, r, n, k, e1, e2, e3, hn, by rw [hrt]; exact htn, ?_⟩
  -- bound |l| < n²
  have hpos : 0 < |n| := abs_pos.mpr hn0
  have key : |l| < |n| * |n| := by
    generalize |n| = N at *
    obtain ⟨u1, u2⟩ := abs_le.mp (show |2 * u| ≤ N by rw [abs_mul]; simpa using hu)
    obtain ⟨v1, v2⟩ := abs_le.mp (show |2 * v| ≤ N by rw [abs_mul]; simpa using hv)
    have uu : 4 * (u * u) ≤ N * N := by nlinarith
    have vv : 4 * (v * v) ≤ N * N := by nlinarith
    have uv1 : 4 * (u * v) ≤ N * N := by nlinarith
    have uv2 : -(N * N) ≤ 4 * (u * v) := by nlinarith
    have NN : 0 < N * N := by positivity
    unfold QCoeffs.norm at hl
    simp only [Set.mem_insert_iff, Set.mem_singleton_iff] at hD
    rw [abs_lt]
    rcases hD with h | h | h | h | h | h | h <;> rw [h] at hl <;> have hl := Except.ok.inj hl
    · have hl : u * u + u * v + v * v * 1 = l := hl
      constructor <;> nlinarith
    · have hl : u * u - v * v * -2 = l := hl
      constructor <;> nlinarith
    · have hl : u * u - v * v * -1 = l := hl
      constructor <;> nlinarith
    · have hl : u * u - v * v * 2 = l := hl
      constructor <;> nlinarith
    · have hl : u * u - v * v * 3 = l := hl
      constructor <;> nlinarith
    · have hl : u * u + u * v + v * v * -1 = l := hl
      constructor <;> nlinarith
    · have hl : u * u + u * v + v * v * -3 = l := hl
      constructor <;> nlinarith [mul_self_nonneg (2 * u + v)]
  have : |n| * |k| = |l| := by rw [← abs_mul, hnk]
  nlinarith

example : QInt.div ⟨true, true⟩ ⟨7, 3, -3⟩ ⟨2, -1, -3⟩ = .ok ⟨1, 4, -3⟩ ∧
    QInt.rem ⟨true, true⟩ ⟨7, 3, -3⟩ ⟨2, -1, -3⟩ = .ok ⟨1, 0, 0⟩ := by decide +kernel

end NumIrr
