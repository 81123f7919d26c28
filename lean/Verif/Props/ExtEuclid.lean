/-
C148: Euclid's extended algorithm with the quotients of Gaussian and quadratic integers.
-/
import Verif.Props.Gcd
import Verif.Spec.ExtEuclid

namespace NumIrr
open QInt

private theorem mem_ring' (D m n : ℤ) : (m : ℂ) + n * omegaC D ∈ ringOf D := by
  unfold ringOf
  refine Subalgebra.add_mem _ ?_ (Subalgebra.mul_mem _ ?_ (Algebra.subset_adjoin rfl))
  · simp
  · simp

private theorem gcd_zero' (D : ℤ) (a : ℂ) : IsGcdIn D a a 0 :=
  ⟨⟨1, one_mem _, by ring⟩, ⟨0, zero_mem _, by ring⟩, fun _ h _ => h, ⟨1, one_mem _, 0, zero_mem _, by ring⟩⟩

private theorem gcd_step' {D : ℤ} {g a b q r : ℂ} (hq : q ∈ ringOf D) (e : r = a - q * b) (h : IsGcdIn D g b r) :
    IsGcdIn D g a b := by
  obtain ⟨⟨u, hu, eu⟩, ⟨v, hv, ev⟩, hg, ⟨s, hs, t, ht, est⟩⟩ := h
  have e' : a = q * b + r := by rw [e]; ring
  refine ⟨⟨q * u + v, add_mem (mul_mem hq hu) hv, ?_⟩, ⟨u, hu, eu⟩, ?_, ⟨t, ht, s - t * q, sub_mem hs (mul_mem ht hq), ?_⟩⟩
  · rw [e', ev]; nth_rw 1 [eu]; ring
  · rintro k ⟨m, hm, em⟩ ⟨n, hn, en⟩
    exact hg k ⟨n, hn, en⟩ ⟨m - q * n, sub_mem hm (mul_mem hq hn), by linear_combination em - q * en - e'⟩
  · rw [est, e]; ring

/-! ### The quotient -/

private theorem d_cases {cfg : Cfg} {D : ℤ} {x : QInt} (hx : x.InRing cfg D) : x.d = 0 ∨ x.d = D := by
  by_cases h : x.b = 0
  · exact .inl (hx.stored h)
  · exact .inr (hx.discr h)

/-- the quotient is over the same ring, though a rational one need not be stored with discriminant zero -/
theorem div_ring {cfg : Cfg} {D : ℤ} {x y : QInt} (hx : x.InRing cfg D) (hy : y.InRing cfg D) (h0 : y.valC ≠ 0) :
    ∃ q, QInt.div cfg x y = .ok q ∧ q.Ok cfg ∧ (q.b ≠ 0 → q.d = D) ∧ ∃ (u v : ℚ) (m n : ℤ),
      x.valC / y.valC = u + v * omegaC D ∧ RoundAway u m ∧ RoundAway v n ∧ q.valC = m + n * omegaC D := by
  obtain ⟨q, hq⟩ := (qint_div_returns_iff cfg x y hx.ok hy.ok).2 ⟨h0, by
    by_cases h1 : x.b = 0
    · exact .inl ((qint_isRational cfg x hx.ok).1 ((isRational_iff x).2 h1))
    by_cases h2 : y.b = 0
    · exact .inr (.inl ((qint_isRational cfg y hy.ok).1 ((isRational_iff y).2 h2)))
    exact .inr (.inr ⟨1, .inl (by rw [hx.discr h1, hy.discr h2]; ring)⟩)⟩
  have hform : q.Ok cfg ∧ (q.b ≠ 0 → q.d = D) := by
    have h := hq
    unfold QInt.div at h
    split at h
    · have hok := divInt_ok hx.ok h
      refine ⟨hok, fun hb => ?_⟩
      obtain ⟨c, -, h⟩ := bind_ok h
      cases h
      rcases d_cases hx with h | h
      · exact absurd (hok.rational h) hb
      · exact h
    · next hyr =>
      have hyb : y.b ≠ 0 := by rwa [isRational_iff] at hyr
      have hd := hy.discr hyb
      have hd0 : y.d ≠ 0 := fun e => hyb (hy.ok.rational e)
      have key : ∀ c t, fromCoeffs cfg c y.d = .ok t → t.Ok cfg ∧ (t.b ≠ 0 → t.d = D) := by
        intro c t e
        refine ⟨fromCoeffs_ok e, ?_⟩
        rw [fromCoeffs_eq hy.ok.real (hy.ok.mod4 hd0) (hy.ok.irrational hd0)] at e
        have e := Except.ok.inj e
        subst e
        split
        · exact fun h => absurd rfl h
        · exact fun _ => hd
      split at h
      · obtain ⟨c, -, h⟩ := bind_ok h
        exact key _ _ h
      · next hxr =>
        have hxb : x.b ≠ 0 := by rwa [isRational_iff] at hxr
        have hp : reduceBinOpUnwrap cfg x y = .ok (x, y) := by
          unfold reduceBinOpUnwrap reduceBinOp
          simp [hx.discr hxb, hd, hd ▸ hd0, bind, Except.bind, pure, Except.pure]
        rw [hp, Surd.ok_bind] at h
        obtain ⟨c, -, h⟩ := bind_ok h
        exact key _ _ h
  refine ⟨q, hq, hform.1, hform.2, ?_⟩
  obtain ⟨D', u, v, m, n, hD', e, ru, rv, hv⟩ := qint_div_value cfg x y q hx.ok hy.ok hq
  have hc : D' = 0 ∨ D' = D := by
    rcases hD' with h | h
    · rw [h]; exact d_cases hx
    · rw [h]; exact d_cases hy
  rcases hc with rfl | rfl
  · have w0 : omegaC 0 = 0 := by
      unfold omegaC; rw [if_neg (by decide)]
      simp
    refine ⟨u, 0, m, 0, by rw [e, w0]; simp, ru, by norm_num [RoundAway], by rw [hv, w0]; simp⟩
  · exact ⟨u, v, m, n, e, ru, rv, hv⟩

private theorem subMul_ring {cfg : Cfg} {D : ℤ} {q x y : QInt} (hq : q.Ok cfg) (hqd : q.b ≠ 0 → q.d = D)
    (hx : x.InRing cfg D) (hy : y.InRing cfg D) :
    ∃ r, subMul (QInt.mul cfg) (QInt.sub cfg) q x y = .ok r ∧ r.InRing cfg D ∧ r.valC = x.valC - q.valC * y.valC := by
  have main : ∀ q : QInt, q.InRing cfg D →
      ∃ r, subMul (QInt.mul cfg) (QInt.sub cfg) q x y = .ok r ∧ r.InRing cfg D ∧ r.valC = x.valC - q.valC * y.valC := by
    intro q hq
    obtain ⟨z, h1, h2, h3⟩ := (qint_ring_ops cfg D q y hq hy).2.2.1
    obtain ⟨r, h4, h5, h6⟩ := (qint_ring_ops cfg D x z hx h2).2.1
    refine ⟨r, ?_, h5, by rw [h6, h3]⟩
    unfold subMul
    rw [h1]; exact h4
  by_cases hb : q.b = 0
  · -- a rational quotient counts with its first coefficient only
    obtain ⟨r, h1, h2, h3⟩ := main ⟨q.a, 0, 0⟩ ⟨⟨by simp, by simp, by simp, by simp⟩, fun _ => rfl, fun h => absurd rfl h⟩
    refine ⟨r, ?_, h2, by rw [h3, valC_rational hb, valC_rational (x := ⟨q.a, 0, 0⟩) rfl]⟩
    rw [← h1]
    unfold subMul QInt.mul
    by_cases hyr : y.isRational = true
    · rw [if_pos hyr, if_pos hyr]
      show QInt.sub cfg x _ = QInt.sub cfg x _
      unfold QInt.sub QInt.mulInt
      split <;> simp [QInt.isRational, mk', coeffs, QCoeffs.mulInt, hb]
    · rw [if_neg hyr, if_neg hyr, if_pos ((isRational_iff q).2 hb), if_pos ((isRational_iff _).2 rfl)]
  · exact main q ⟨hq, fun h => absurd h hb, hqd⟩

private theorem isZero_iff {cfg : Cfg} {x : QInt} (hx : x.Ok cfg) : x.isZero = true ↔ x.valC = 0 := by
  simp only [QInt.isZero, Bool.and_eq_true, decide_eq_true_eq]
  constructor
  · rintro ⟨h1, h2⟩; simp [valC, h1, h2]
  · intro h
    have hb : x.b = 0 := (isRational_iff x).1 ((qint_isRational cfg x hx).2 ⟨0, by rw [h]; simp⟩)
    rw [valC_rational hb] at h
    exact ⟨by exact_mod_cast h, hb⟩

/-- one round in the ring -/
private theorem step_ring {cfg : Cfg} {D : ℤ} {u v : QInt × QInt × QInt}
    (hu : u.1.InRing cfg D ∧ u.2.1.InRing cfg D ∧ u.2.2.InRing cfg D)
    (hv : v.1.InRing cfg D ∧ v.2.1.InRing cfg D ∧ v.2.2.InRing cfg D) (h0 : v.1.valC ≠ 0) :
    ∃ w, extStep (QInt.div cfg) (QInt.mul cfg) (QInt.sub cfg) u v = .ok w ∧
      (w.1.InRing cfg D ∧ w.2.1.InRing cfg D ∧ w.2.2.InRing cfg D) ∧ ∃ (a b : ℚ) (m n : ℤ),
      u.1.valC / v.1.valC = a + b * omegaC D ∧ |a - m| ≤ 1 / 2 ∧ |b - n| ≤ 1 / 2 ∧
      w.1.valC = u.1.valC - (m + n * omegaC D) * v.1.valC ∧ w.2.1.valC = u.2.1.valC - (m + n * omegaC D) * v.2.1.valC ∧
      w.2.2.valC = u.2.2.valC - (m + n * omegaC D) * v.2.2.valC := by
  obtain ⟨q, h1, h2, h3, a, b, m, n, e1, e2, e3, e4⟩ := div_ring hu.1 hv.1 h0
  obtain ⟨r, r1, r2, r3⟩ := subMul_ring h2 h3 hu.1 hv.1
  obtain ⟨s, s1, s2, s3⟩ := subMul_ring h2 h3 hu.2.1 hv.2.1
  obtain ⟨t, t1, t2, t3⟩ := subMul_ring h2 h3 hu.2.2 hv.2.2
  refine ⟨(r, s, t), ?_, ⟨r2, s2, t2⟩, a, b, m, n, e1, e2.1, e3.1, ?_, ?_, ?_⟩
  · unfold extStep
    rw [h1, Surd.ok_bind, r1, Surd.ok_bind, s1, Surd.ok_bind, t1]; rfl
  · rw [r3, e4]
  · rw [s3, e4]
  · rw [t3, e4]

/-- the loop in the ring -/
private theorem loop_ring {cfg : Cfg} {D : ℤ} (a b : ℂ) (n : ℕ) : ∀ u v : QInt × QInt × QInt,
    u.1.InRing cfg D ∧ u.2.1.InRing cfg D ∧ u.2.2.InRing cfg D →
    v.1.InRing cfg D ∧ v.2.1.InRing cfg D ∧ v.2.2.InRing cfg D →
    u.1.valC = u.2.1.valC * a + u.2.2.valC * b → v.1.valC = v.2.1.valC * a + v.2.2.valC * b →
    extLoop (QInt.div cfg) (QInt.mul cfg) (QInt.sub cfg) QInt.isZero n u v = none ∨
    ∃ g, extLoop (QInt.div cfg) (QInt.mul cfg) (QInt.sub cfg) QInt.isZero n u v = some (.ok g) ∧
      (g.1.InRing cfg D ∧ g.2.1.InRing cfg D ∧ g.2.2.InRing cfg D) ∧ IsGcdIn D g.1.valC u.1.valC v.1.valC ∧
      g.1.valC = g.2.1.valC * a + g.2.2.valC * b := by
  induction n with
  | zero => exact fun _ _ _ _ _ _ => .inl rfl
  | succ n ih =>
    intro u v hu hv eu ev
    unfold extLoop
    by_cases hz : v.1.isZero = true
    · rw [if_pos hz, (isZero_iff hv.1.ok).1 hz]
      exact .inr ⟨u, rfl, hu, gcd_zero' _ _, eu⟩
    · rw [if_neg hz]
      obtain ⟨w, h1, h2, -, -, k, l, -, -, -, e1, e2, e3⟩ := step_ring hu hv fun h => hz ((isZero_iff hv.1.ok).2 h)
      rw [h1]
      rcases ih v w hv h2 ev (by rw [e1, e2, e3]; linear_combination eu - (k + l * omegaC D) * ev) with h | ⟨g, g1, g2, g3, g4⟩
      · exact .inl h
      · exact .inr ⟨g, g1, g2, gcd_step' (mem_ring' D k l) e1 g3, g4⟩

/-- **C148** For two quadratic integers of one ring the algorithm never panics, and if it ends, it returns a greatest common
divisor in the ring together with factors for it. -/
theorem qint_ext_value (cfg : Cfg) (D : ℤ) (a b : QInt) (ha : a.InRing cfg D) (hb : b.InRing cfg D) (fuel : ℕ) :
    QInt.extEuclid cfg fuel a b = none ∨
    ∃ g s t, QInt.extEuclid cfg fuel a b = some (.ok (g, s, t)) ∧
      (g.InRing cfg D ∧ s.InRing cfg D ∧ t.InRing cfg D) ∧ IsGcdIn D g.valC a.valC b.valC ∧
      g.valC = s.valC * a.valC + t.valC * b.valC := by
  obtain ⟨-, -, -, -, z, o⟩ := qint_ring_ops cfg D a b ha hb
  have z0 : QInt.zero.valC = 0 := by simp [QInt.zero, valC]
  have o1 : QInt.one.valC = 1 := by simp [QInt.one, valC]
  rcases loop_ring a.valC b.valC fuel (a, .one, .zero) (b, .zero, .one) ⟨ha, o, z⟩ ⟨hb, z, o⟩
    (by simp [z0, o1]) (by simp [z0, o1]) with h | ⟨g, h1, h2, h3, h4⟩
  · exact .inl h
  · exact .inr ⟨g.1, g.2.1, g.2.2, h1, h2, h3, h4⟩

/-- the numbers on which the algorithm with `%` fails (C125) -/
example : QInt.extEuclid ⟨true, true⟩ 9 ⟨6, 0, 0⟩ ⟨4, 0, 0⟩ = some (.ok (⟨-2, 0, 0⟩, ⟨1, 0, 0⟩, ⟨-2, 0, 0⟩)) ∧
    QInt.extEuclid ⟨true, true⟩ 9 ⟨7, 3, -3⟩ ⟨2, 1, -3⟩ = some (.ok (⟨1, 0, 0⟩, ⟨1, 0, 0⟩, ⟨-3, 0, 0⟩)) ∧
    QInt.extEuclid ⟨true, true⟩ 9 ⟨5, 1, -3⟩ ⟨8, 1, -3⟩ = some (.ok (⟨-1, 1, -3⟩, ⟨3, 0, 0⟩, ⟨-2, 0, 0⟩)) := by
  decide +kernel

/-! ### Termination -/

/-- the norm of `u + vω` -/
private def nm (D : ℤ) (u v : ℚ) : ℚ := if D % 4 = 1 then u * u + u * v + v * v * ((1 - D) / 4) else u * u - v * v * D

private theorem nm_mul {D : ℤ} (hs : ¬ IsSquare D) {u v u' v' a b : ℚ}
    (h : (a : ℂ) + b * omegaC D = (u + v * omegaC D) * (u' + v' * omegaC D)) : nm D a b = nm D u v * nm D u' v' := by
  have hw := omegaC_sq D
  unfold nm
  split
  · next h1 =>
    rw [if_pos h1] at hw
    have hk : (((D - 1) / 4 : ℤ) : ℚ) = (D - 1) / 4 := by
      obtain ⟨k, hk⟩ : ∃ k, D = 4 * k + 1 := ⟨D / 4, by omega⟩
      subst hk
      have : (4 * k + 1 - 1) / 4 = k := by omega
      rw [this]; push_cast; ring
    obtain ⟨e1, e2⟩ := omega_coeff_eq hs (x := a) (y := b) (x' := u * u' + v * v' * (((D - 1) / 4 : ℤ) : ℚ))
      (y' := u * v' + v * u' + v * v') (by push_cast; linear_combination h + v * v' * hw)
    rw [e1, e2, hk]; ring
  · next h1 =>
    rw [if_neg h1] at hw
    obtain ⟨e1, e2⟩ := omega_coeff_eq hs (x := a) (y := b) (x' := u * u' + v * v' * D)
      (y' := u * v' + v * u') (by push_cast; linear_combination h + v * v' * hw)
    rw [e1, e2]; ring

private theorem nm_small {D : ℤ} (hD : D ∈ ({-3, -2, -1, 2, 3, 5, 13} : Set ℤ)) {u v : ℚ} (hu : |u| ≤ 1 / 2)
    (hv : |v| ≤ 1 / 2) : |nm D u v| < 1 := by
  obtain ⟨u1, u2⟩ := abs_le.1 hu
  obtain ⟨v1, v2⟩ := abs_le.1 hv
  have uu : u * u ≤ 1 / 4 := by nlinarith
  have vv : v * v ≤ 1 / 4 := by nlinarith
  have uv1 : u * v ≤ 1 / 4 := by nlinarith
  have uv2 : -(1 / 4) ≤ u * v := by nlinarith
  simp only [Set.mem_insert_iff, Set.mem_singleton_iff] at hD
  rw [abs_lt]
  rcases hD with rfl | rfl | rfl | rfl | rfl | rfl | rfl <;> norm_num [nm] <;> constructor <;>
    nlinarith [mul_self_nonneg u, mul_self_nonneg v, mul_self_nonneg (2 * u + v)]

private theorem not_square {D : ℤ} (hD : D ∈ ({-3, -2, -1, 2, 3, 5, 13} : Set ℤ)) : ¬ IsSquare D := by
  simp only [Set.mem_insert_iff, Set.mem_singleton_iff] at hD
  rcases hD with rfl | rfl | rfl | rfl | rfl | rfl | rfl <;> decide +kernel

private theorem val_ring {cfg : Cfg} {D : ℤ} {x : QInt} (hx : x.InRing cfg D) :
    x.valC = ((x.a : ℚ) : ℂ) + ((x.b : ℚ) : ℂ) * omegaC D := by
  by_cases h : x.b = 0
  · rw [valC_rational h, h]; simp
  · rw [valC, hx.discr h]; push_cast; rfl

private theorem nm_norm {cfg : Cfg} {D : ℤ} (hD : D ∈ ({-3, -2, -1, 2, 3, 5, 13} : Set ℤ)) {x : QInt} (hx : x.InRing cfg D) :
    ∃ k : ℤ, x.norm = .ok k ∧ nm D x.a x.b = k := by
  simp only [Set.mem_insert_iff, Set.mem_singleton_iff] at hD
  by_cases h : x.b = 0
  · refine ⟨x.a * x.a, by simp [QInt.norm, QCoeffs.norm, hx.stored h, coeffs], ?_⟩
    unfold nm; rw [h]; split <;> push_cast <;> ring
  · have hd := hx.discr h
    unfold QInt.norm QCoeffs.norm
    rw [hd]
    rcases hD with rfl | rfl | rfl | rfl | rfl | rfl | rfl
    all_goals refine ⟨_, rfl, ?_⟩
    · norm_num [nm, coeffs, show (1 - (-3 : ℤ)).tdiv 4 = 1 from rfl]
    · norm_num [nm, coeffs]
    · norm_num [nm, coeffs]
    · norm_num [nm, coeffs]
    · norm_num [nm, coeffs]
    · simp only [show (1 - (5 : ℤ)).tdiv 4 = -1 from rfl]
      norm_num [nm, coeffs]
    · simp only [show (1 - (13 : ℤ)).tdiv 4 = -3 from rfl]
      norm_num [nm, coeffs]

private theorem nm_int {cfg : Cfg} {D : ℤ} (hD : D ∈ ({-3, -2, -1, 2, 3, 5, 13} : Set ℤ)) {x y r : QInt}
    (hy : y.InRing cfg D) (hr : r.InRing cfg D) (h0 : y.valC ≠ 0) {a b : ℚ} {m n : ℤ}
    (e1 : x.valC / y.valC = a + b * omegaC D) (e2 : |a - m| ≤ 1 / 2) (e3 : |b - n| ≤ 1 / 2)
    (e4 : r.valC = x.valC - (m + n * omegaC D) * y.valC) {k l : ℤ} (hk : y.norm = .ok k) (hl : r.norm = .ok l) :
    k ≠ 0 ∧ |l| < |k| := by
  have hs := not_square hD
  have h : r.valC = y.valC * (((a - m : ℚ) : ℂ) + ((b - n : ℚ) : ℂ) * omegaC D) := by
    rw [e4]
    have : x.valC = (a + b * omegaC D) * y.valC := by rw [← e1]; field_simp
    rw [this]; push_cast; ring
  rw [val_ring hr, val_ring hy] at h
  have h1 := nm_mul hs h
  obtain ⟨k', k1, k2⟩ := nm_norm hD hy
  obtain ⟨l', l1, l2⟩ := nm_norm hD hr
  rw [hk] at k1; cases k1
  rw [hl] at l1; cases l1
  rw [k2, l2] at h1
  have hk0 : k ≠ 0 := by
    intro hk0
    obtain ⟨c, hc, hc2, -⟩ := qint_conj cfg y hy.ok
    obtain ⟨p, hp1, hp2⟩ := qint_norm cfg y c hy.ok hc
    rw [hk] at hp1; cases hp1
    rw [hk0] at hp2
    have hc0 : c.valC = 0 := by
      rcases mul_eq_zero.1 (show y.valC * c.valC = 0 by rw [← hp2]; simp) with h | h
      · exact absurd h h0
      · exact h
    have hcz := (isZero_iff (conj_ok hy.ok hc)).2 hc0
    simp only [QInt.isZero, Bool.and_eq_true, decide_eq_true_eq] at hcz
    -- the conjugate of zero is zero
    obtain ⟨c', g1, -, g3, g4⟩ := qint_conj cfg c (conj_ok hy.ok hc)
    rw [hc2] at g1; cases g1
    by_cases hd : c.d = 0
    · have hyb : y.b = 0 := hy.ok.rational (g3.trans hd)
      rw [hk0] at hk
      unfold QInt.norm QCoeffs.norm at hk
      rw [if_pos (g3.trans hd)] at hk
      have hk := Except.ok.inj hk
      have : y.a = 0 := by simpa [coeffs] using hk
      exact h0 (by rw [valC_rational hyb, this]; simp)
    · exact h0 (by rw [g4 0 0 (by rw [hc0]; push_cast; ring) hd]; push_cast; ring)
  refine ⟨hk0, ?_⟩
  have hlt := nm_small hD e2 e3
  have hkp : (0 : ℚ) < |(k : ℚ)| := abs_pos.2 (by exact_mod_cast hk0)
  have : |(l : ℚ)| < |(k : ℚ)| := by
    rw [h1, abs_mul]; nlinarith
  exact_mod_cast this

/-- **C148** Over the discriminants -3, -2, -1, 2, 3, 5 and 13 the algorithm ends for all pairs of numbers, rational or not,
after at most `2 + |N(b)|` tests: what `%` spoils (C125) works with `/`, `*` and `-`.
Missing from the full claim: other discriminants, where it need not end (`qint_ext_refuted`). -/
theorem qint_ext_returns_partial (cfg : Cfg) (D : ℤ) (hD : D ∈ ({-3, -2, -1, 2, 3, 5, 13} : Set ℤ)) (a b : QInt)
    (ha : a.InRing cfg D) (hb : b.InRing cfg D) :
    ∃ k : ℤ, b.norm = .ok k ∧ ∃ g s t, QInt.extEuclid cfg (k.natAbs + 2) a b = some (.ok (g, s, t)) ∧
      (g.InRing cfg D ∧ s.InRing cfg D ∧ t.InRing cfg D) ∧ IsGcdIn D g.valC a.valC b.valC ∧
      g.valC = s.valC * a.valC + t.valC * b.valC := by
  have key : ∀ (n : ℕ) (u v : QInt × QInt × QInt) (k : ℤ),
      u.1.InRing cfg D ∧ u.2.1.InRing cfg D ∧ u.2.2.InRing cfg D →
      v.1.InRing cfg D ∧ v.2.1.InRing cfg D ∧ v.2.2.InRing cfg D → v.1.norm = .ok k → k.natAbs ≤ n →
      extLoop (QInt.div cfg) (QInt.mul cfg) (QInt.sub cfg) QInt.isZero (n + 2) u v ≠ none := by
    intro n
    induction n with
    | zero =>
      intro u v k hu hv hk hn
      unfold extLoop
      by_cases hz : v.1.isZero = true
      · rw [if_pos hz]; simp
      · exfalso
        have h0 : v.1.valC ≠ 0 := fun h => hz ((isZero_iff hv.1.ok).2 h)
        obtain ⟨w, h1, h2, a, b, m, n, e1, e2, e3, e4, -⟩ := step_ring hu hv h0
        obtain ⟨l, hl, -⟩ := nm_norm hD h2.1
        exact (nm_int hD hv.1 h2.1 h0 e1 e2 e3 e4 hk hl).1 (by omega)
    | succ n ih =>
      intro u v k hu hv hk hn
      unfold extLoop
      by_cases hz : v.1.isZero = true
      · rw [if_pos hz]; simp
      · rw [if_neg hz]
        have h0 : v.1.valC ≠ 0 := fun h => hz ((isZero_iff hv.1.ok).2 h)
        obtain ⟨w, h1, h2, a, b, m, n', e1, e2, e3, e4, -⟩ := step_ring hu hv h0
        obtain ⟨l, hl, -⟩ := nm_norm hD h2.1
        have hlt := (nm_int hD hv.1 h2.1 h0 e1 e2 e3 e4 hk hl).2
        rw [h1]
        exact ih v w l hv h2 hl (by rw [Int.abs_eq_natAbs, Int.abs_eq_natAbs] at hlt; omega)
  obtain ⟨-, -, -, -, z, o⟩ := qint_ring_ops cfg D a b ha hb
  obtain ⟨k, hk, -⟩ := nm_norm hD hb
  refine ⟨k, hk, ?_⟩
  rcases qint_ext_value cfg D a b ha hb (k.natAbs + 2) with h | h
  · exact absurd h (key _ _ _ k ⟨ha, o, z⟩ ⟨hb, z, o⟩ hk le_rfl)
  · exact h

/-- `gcd(7+3√2, 11)` is `-3+2√2` times a unit -/
example : (QInt.mk 7 3 2).InRing ⟨false, true⟩ 2 ∧ (QInt.mk 11 0 0).InRing ⟨false, true⟩ 2 ∧
    QInt.extEuclid ⟨false, true⟩ 9 ⟨7, 3, 2⟩ ⟨11, 0, 0⟩ = some (.ok (⟨-3, 2, 2⟩, ⟨-22, -17, 2⟩, ⟨23, 17, 2⟩)) := by
  have h2 : ¬ IsSquare (2 : ℤ) := by decide +kernel
  exact ⟨⟨⟨by simp, by simp, fun _ => h2, by simp⟩, by simp [QInt.Stored], by simp⟩,
    ⟨⟨by simp, by simp, by simp, by simp⟩, by simp [QInt.Stored], by simp⟩, by decide +kernel⟩

/-- **C148** is false over other discriminants: for `1+√-5` and 2 the algorithm never ends. -/
theorem qint_ext_refuted (debug : Bool) (fuel : ℕ) : QInt.extEuclid ⟨true, debug⟩ fuel ⟨1, 1, -5⟩ ⟨2, 0, 0⟩ = none := by
  have first : ∀ {u v w : QInt × QInt × QInt},
      extStep (QInt.div ⟨true, debug⟩) (QInt.mul ⟨true, debug⟩) (QInt.sub ⟨true, debug⟩) u v = .ok w →
      (do let q ← QInt.div ⟨true, debug⟩ u.1 v.1
          subMul (QInt.mul ⟨true, debug⟩) (QInt.sub ⟨true, debug⟩) q u.1 v.1) = .ok w.1 := by
    intro u v w h
    obtain ⟨q, h1, h⟩ := bind_ok h
    obtain ⟨r, h2, h⟩ := bind_ok h
    obtain ⟨s, h3, h⟩ := bind_ok h
    obtain ⟨t, h4, h⟩ := bind_ok h
    cases h
    rw [h1]; exact h2
  have hs : ¬ IsSquare (-5 : ℤ) := not_isSquare_of_neg (by norm_num)
  have ring : ∀ m n : ℤ, n ≠ 0 → (QInt.mk m n (-5)).InRing ⟨true, debug⟩ (-5) := fun m n hn =>
    ⟨⟨by simp, by simp, fun _ => hs, by simp⟩, fun h => absurd h hn, fun _ => rfl⟩
  have two : (QInt.mk 2 0 0).InRing ⟨true, debug⟩ (-5) :=
    ⟨⟨by simp, by simp, by simp, by simp⟩, fun _ => rfl, fun h => absurd rfl h⟩
  -- the pairs the algorithm goes round
  have key : ∀ (n : ℕ) (u v : QInt × QInt × QInt),
      u.1.InRing ⟨true, debug⟩ (-5) ∧ u.2.1.InRing ⟨true, debug⟩ (-5) ∧ u.2.2.InRing ⟨true, debug⟩ (-5) →
      v.1.InRing ⟨true, debug⟩ (-5) ∧ v.2.1.InRing ⟨true, debug⟩ (-5) ∧ v.2.2.InRing ⟨true, debug⟩ (-5) →
      (u.1, v.1) ∈ [((⟨1, 1, -5⟩, ⟨2, 0, 0⟩) : QInt × QInt), (⟨2, 0, 0⟩, ⟨-1, -1, -5⟩), (⟨-1, -1, -5⟩, ⟨2, 0, 0⟩),
        (⟨2, 0, 0⟩, ⟨1, 1, -5⟩)] →
      extLoop (QInt.div ⟨true, debug⟩) (QInt.mul ⟨true, debug⟩) (QInt.sub ⟨true, debug⟩) QInt.isZero n u v = none := by
    intro n
    induction n with
    | zero => exact fun _ _ _ _ _ => rfl
    | succ n ih =>
      intro u v hu hv h
      have hz : v.1.isZero = false := by
        simp only [List.mem_cons, Prod.mk.injEq, List.not_mem_nil, or_false] at h
        rcases h with ⟨-, h⟩ | ⟨-, h⟩ | ⟨-, h⟩ | ⟨-, h⟩ <;> rw [h] <;> rfl
      have h0 : v.1.valC ≠ 0 := fun e => by rw [(isZero_iff hv.1.ok).2 e] at hz; cases hz
      obtain ⟨w, h1, h2, -⟩ := step_ring hu hv h0
      unfold extLoop
      rw [if_neg (by simp [hz]), h1]
      refine ih v w hv h2 ?_
      have hw := first h1
      simp only [List.mem_cons, Prod.mk.injEq, List.not_mem_nil, or_false] at h ⊢
      rcases h with ⟨e1, e2⟩ | ⟨e1, e2⟩ | ⟨e1, e2⟩ | ⟨e1, e2⟩ <;> rw [e1, e2] at hw
      · have : w.1 = ⟨-1, -1, -5⟩ := Except.ok.inj (hw.symm.trans (by cases debug <;> decide +kernel))
        simp [e2, this]
      · have : w.1 = ⟨2, 0, 0⟩ := Except.ok.inj (hw.symm.trans (by cases debug <;> decide +kernel))
        simp [e2, this]
      · have : w.1 = ⟨1, 1, -5⟩ := Except.ok.inj (hw.symm.trans (by cases debug <;> decide +kernel))
        simp [e2, this]
      · have : w.1 = ⟨2, 0, 0⟩ := Except.ok.inj (hw.symm.trans (by cases debug <;> decide +kernel))
        simp [e2, this]
  obtain ⟨-, -, -, -, z, o⟩ := qint_ring_ops ⟨true, debug⟩ (-5) _ _ two two
  exact key fuel _ _ ⟨ring 1 1 (by norm_num), o, z⟩ ⟨two, z, o⟩ (by simp)

/-! ### Gaussian integers -/

private theorem gsub_val (x y : GInt) : (x.sub y).valC = x.valC - y.valC := by
  simp only [GInt.sub, GInt.ofCoeffs, GInt.coeffs, QCoeffs.sub, GInt.valC]; push_cast; ring

private theorem gmul_val (x y : GInt) : ∃ z, x.mul y = .ok z ∧ z.valC = x.valC * y.valC := by
  refine ⟨_, rfl, ?_⟩
  simp only [GInt.ofCoeffs, GInt.coeffs, GInt.valC]
  push_cast
  linear_combination (-x.im * y.im : ℂ) * Complex.I_mul_I

private theorem gsubMul (q x y : GInt) :
    ∃ r, subMul GInt.mul (fun x y => .ok (x.sub y)) q x y = .ok r ∧ r.valC = x.valC - q.valC * y.valC := by
  obtain ⟨z, h1, h2⟩ := gmul_val q y
  refine ⟨x.sub z, by unfold subMul; rw [h1]; rfl, by rw [gsub_val, h2]⟩

private theorem gint_loop (a b : ℂ) (n : ℕ) : ∀ u v : GInt × GInt × GInt, v.1.norm < 2 ^ n →
    u.1.valC = u.2.1.valC * a + u.2.2.valC * b → v.1.valC = v.2.1.valC * a + v.2.2.valC * b →
    ∃ g, extLoop GInt.div GInt.mul (fun x y => .ok (x.sub y)) (fun b => b = ⟨0, 0⟩) (n + 1) u v = some (.ok g) ∧
      IsGcdIn (-1) g.1.valC u.1.valC v.1.valC ∧ g.1.valC = g.2.1.valC * a + g.2.2.valC * b := by
  have z0 : (⟨0, 0⟩ : GInt).valC = 0 := by simp [GInt.valC]
  have done : ∀ (n : ℕ) (u v : GInt × GInt × GInt), u.1.valC = u.2.1.valC * a + u.2.2.valC * b → v.1 = ⟨0, 0⟩ →
      ∃ g, extLoop GInt.div GInt.mul (fun x y => .ok (x.sub y)) (fun b => b = ⟨0, 0⟩) (n + 1) u v = some (.ok g) ∧
      IsGcdIn (-1) g.1.valC u.1.valC v.1.valC ∧ g.1.valC = g.2.1.valC * a + g.2.2.valC * b := by
    intro n u v eu h
    refine ⟨u, by unfold extLoop; simp [h], ?_, eu⟩
    rw [h, z0]; exact gcd_zero' _ _
  have ne : ∀ {x : GInt}, x ≠ ⟨0, 0⟩ → x.valC ≠ 0 := fun h h0 => h (gint_valC_inj _ ⟨0, 0⟩ (by rw [h0, z0]))
  have om : omegaC (-1) = Complex.I := by unfold omegaC rootC; norm_num
  induction n with
  | zero =>
    intro u v hn eu ev
    refine done 0 u v eu ?_
    obtain ⟨⟨p, q⟩, s, t⟩ := v
    unfold GInt.norm at hn
    simp only [pow_zero] at hn
    have h1 : p = 0 := by nlinarith [mul_self_nonneg p, mul_self_nonneg q]
    have h2 : q = 0 := by nlinarith [mul_self_nonneg p, mul_self_nonneg q]
    rw [h1, h2]
  | succ n ih =>
    intro u v hn eu ev
    by_cases hz : v.1 = ⟨0, 0⟩
    · exact done _ u v eu hz
    obtain ⟨q, r', h1, -, h3, h4, -⟩ := gint_euclid u.1 v.1 (ne hz)
    obtain ⟨r, r1, r2⟩ := gsubMul q u.1 v.1
    obtain ⟨s, s1, s2⟩ := gsubMul q u.2.1 v.2.1
    obtain ⟨t, t1, t2⟩ := gsubMul q u.2.2 v.2.2
    have hr : r = r' := gint_valC_inj _ _ (by rw [r2]; linear_combination h3)
    obtain ⟨g, g1, g2, g3⟩ := ih v (r, s, t) (by rw [hr]; rw [pow_succ] at hn; show r'.norm < _; omega) ev (by
      show r.valC = s.valC * a + t.valC * b
      rw [r2, s2, t2]; linear_combination eu - q.valC * ev)
    refine ⟨g, ?_, gcd_step' (q := q.valC) ?_ r2 g2, g3⟩
    · unfold extLoop
      rw [if_neg (by simpa using hz)]
      have : extStep GInt.div GInt.mul (fun x y => .ok (x.sub y)) u v = .ok (r, s, t) := by
        unfold extStep
        rw [h1, Surd.ok_bind, r1, Surd.ok_bind, s1, Surd.ok_bind, t1]; rfl
      rw [this]
      exact g1
    · have := mem_ring' (-1) q.re q.im
      rwa [om] at this

/-- **C148** For Gaussian integers the algorithm always ends, after at most `2 + log₂ N(b)` tests. -/
theorem gint_ext (a b : GInt) (n : ℕ) (hn : b.norm < 2 ^ n) :
    ∃ g s t, GInt.extEuclid (n + 1) a b = some (.ok (g, s, t)) ∧ IsGcdIn (-1) g.valC a.valC b.valC ∧
      g.valC = s.valC * a.valC + t.valC * b.valC := by
  obtain ⟨g, h1, h2, h3⟩ := gint_loop a.valC b.valC n (a, ⟨1, 0⟩, ⟨0, 0⟩) (b, ⟨0, 0⟩, ⟨1, 0⟩) hn
    (by simp [GInt.valC]) (by simp [GInt.valC])
  exact ⟨g.1, g.2.1, g.2.2, h1, h2, h3⟩

/-- `1 - 2i = (2 - i)(11 + 3i) + 3i(1 + 8i)` -/
example : (GInt.mk 1 8).norm < 2 ^ 7 ∧ GInt.extEuclid 8 ⟨11, 3⟩ ⟨1, 8⟩ = some (.ok (⟨1, -2⟩, ⟨2, -1⟩, ⟨0, 3⟩)) := by
  decide +kernel

private theorem ext_mono {α : Type} {div mul sub : α → α → Res α} {isZero : α → Bool} {r : Res (α × α × α)} (k : ℕ) :
    ∀ (n : ℕ) (u v : α × α × α), extLoop div mul sub isZero n u v = some r →
      extLoop div mul sub isZero (n + k) u v = some r
  | 0, _, _, h => by cases h
  | n + 1, u, v, h => by
    rw [show n + 1 + k = n + k + 1 by omega]
    unfold extLoop at h ⊢
    split at h
    · next hz => rw [if_pos hz]; exact h
    · next hz =>
      rw [if_neg hz]
      cases hs : extStep div mul sub u v with
      | error e => rw [hs] at h; exact h
      | ok w => rw [hs] at h; exact ext_mono k n v w h

/-- **C148** Inverses modulo a Gaussian integer: if the divisor found has an inverse `h`, then `h s` is an inverse of `a`
modulo `b`; and it has one if `a` has an inverse modulo `b` at all. -/
theorem gint_ext_inverse (a b g s t : GInt) (fuel : ℕ) (h : GInt.extEuclid fuel a b = some (.ok (g, s, t))) :
    (∀ h c : GInt, g.mul h = .ok ⟨1, 0⟩ → h.mul s = .ok c → DividesIn (-1) b.valC (a.valC * c.valC - 1)) ∧
    ((∃ c : GInt, DividesIn (-1) b.valC (a.valC * c.valC - 1)) → ∃ h : GInt, g.mul h = .ok ⟨1, 0⟩) := by
  have om : omegaC (-1) = Complex.I := by unfold omegaC rootC; norm_num
  have one : (⟨1, 0⟩ : GInt).valC = 1 := by simp [GInt.valC]
  have mem : ∀ x : GInt, x.valC ∈ ringOf (-1) := fun x => by
    have := mem_ring' (-1) x.re x.im
    rwa [om] at this
  obtain ⟨N, hN⟩ : ∃ N : ℕ, b.norm < 2 ^ N :=
    ⟨b.norm.toNat, lt_of_le_of_lt (Int.self_le_toNat _) (by exact_mod_cast Nat.lt_two_pow_self)⟩
  obtain ⟨g', s', t', h1, h2, h3⟩ := gint_ext a b (fuel + N) (hN.trans_le (pow_le_pow_right₀ (by norm_num) (by omega)))
  have h' := ext_mono (N + 1) fuel _ _ h
  have e : (g', s', t') = (g, s, t) := by
    unfold GInt.extEuclid at h1
    rw [show fuel + (N + 1) = fuel + N + 1 by omega] at h'
    rw [h'] at h1
    exact (Except.ok.inj (Option.some.inj h1)).symm
  cases e
  constructor
  · intro k c hk hc
    obtain ⟨z, z1, z2⟩ := gmul_val g k
    rw [hk] at z1; cases z1
    rw [one] at z2
    obtain ⟨w, w1, w2⟩ := gmul_val k s
    rw [hc] at w1; cases w1
    refine ⟨-(k.valC * t.valC), neg_mem (mul_mem (mem k) (mem t)), ?_⟩
    rw [w2]; linear_combination (-1 : ℂ) * z2 - k.valC * h3 + (0 : ℂ)
  · rintro ⟨c, z, hz, ez⟩
    obtain ⟨u, hu, eu⟩ := h2.left
    obtain ⟨v, hv, ev⟩ := h2.right
    obtain ⟨m, n, e⟩ := ring_coords (sub_mem (mul_mem hu (mem c)) (mul_mem hv hz))
    have hval : g.valC * (⟨m, n⟩ : GInt).valC = 1 := by
      have : (⟨m, n⟩ : GInt).valC = u * c.valC - v * z := by rw [e, om]; rfl
      rw [this]
      linear_combination ez - c.valC * eu + z * ev
    obtain ⟨w, w1, w2⟩ := gmul_val g ⟨m, n⟩
    refine ⟨⟨m, n⟩, ?_⟩
    rw [w1, gint_valC_inj w ⟨1, 0⟩ (by rw [w2, hval, one])]

/-- the inverse of `2 + i` modulo 7 is `-1 - 3i`, the divisor found is the unit `-i` -/
example : GInt.extEuclid 9 ⟨2, 1⟩ ⟨7, 0⟩ = some (.ok (⟨0, -1⟩, ⟨-3, 1⟩, ⟨1, 0⟩)) ∧ (GInt.mk 0 (-1)).mul ⟨0, 1⟩ = .ok ⟨1, 0⟩ ∧
    (GInt.mk 0 1).mul ⟨-3, 1⟩ = .ok ⟨-1, -3⟩ := by decide +kernel

/-- **C148** Over primitive integers with overflow checks it returns the same or panics with an overflow. -/
theorem fixed_gint_ext (x : Fx) (hc : x.checks = true) (a b : GInt) (n : ℕ) :
    x.gExtEuclid n a b = GInt.extEuclid n a b ∨ x.gExtEuclid n a b = some (.error .overflow) := by
  have hsm : ∀ q u v : GInt, Refines (subMul x.gMul x.gSub q u v) (subMul GInt.mul (fun x y => .ok (x.sub y)) q u v) :=
    fun q u v => (fixed_gint_refines x hc q v).2.2.1.bind fun z _ => (fixed_gint_refines x hc u z).2.1
  have hst : ∀ u v, Refines (extStep x.gDiv x.gMul x.gSub u v) (extStep GInt.div GInt.mul (fun x y => .ok (x.sub y)) u v) :=
    fun u v => (fixed_gint_refines x hc u.1 v.1).2.2.2.1.bind fun q _ => (hsm q u.1 v.1).bind fun r _ =>
      (hsm q u.2.1 v.2.1).bind fun s _ => (hsm q u.2.2 v.2.2).bind fun t _ => .inl rfl
  unfold Fx.gExtEuclid GInt.extEuclid
  generalize (a, (⟨1, 0⟩ : GInt), (⟨0, 0⟩ : GInt)) = u
  generalize (b, (⟨0, 0⟩ : GInt), (⟨1, 0⟩ : GInt)) = v
  induction n generalizing u v with
  | zero => exact .inl rfl
  | succ n ih =>
    unfold extLoop
    by_cases hz : v.1 = ⟨0, 0⟩
    · left; simp [hz]
    · rw [if_neg (by simpa using hz), if_neg (by simpa using hz)]
      rcases hst u v with h | h
      · rw [h]
        cases extStep GInt.div GInt.mul (fun x y => .ok (x.sub y)) u v with
        | error e => exact .inl rfl
        | ok w => exact ih v w
      · rw [h]; exact .inr rfl

example : (⟨16, true⟩ : Fx).gExtEuclid 8 ⟨11, 3⟩ ⟨1, 8⟩ = some (.ok (⟨1, -2⟩, ⟨2, -1⟩, ⟨0, 3⟩)) ∧
    (⟨8, true⟩ : Fx).gExtEuclid 8 ⟨11, 3⟩ ⟨1, 8⟩ = some (.error .overflow) := by decide +kernel

end NumIrr
